import Verif.Lemmas.Ufl.Component
import Verif.Props.UflTree

/-!
# C54: reference components of mixed elements
-/

namespace FInAT.Props

open FInAT.Ufl UElem

theorem extractSub_outside (ss : List (List Nat)) (i : Int)
    (h : i < 0 ∨ (totalSize ss : Int) ≤ i) :
    extractSub [totalSize ss] ss [i] = .error .valueError := by
  unfold extractSub
  by_cases hc : i < totalSize ss
  · have hchk : checkComponent [totalSize ss] [i] = .ok () := by
      unfold checkComponent
      rw [if_pos ⟨rfl, by simpa [allBelow] using hc⟩]
    have hneg : i < 0 := by omega
    have hf := findSub_neg ss 0 i hneg
    simp only [hchk, bind, Except.bind]
    generalize findSub ss 0 i = t at hf
    obtain ⟨k, sh, j⟩ := t
    simp only at hf ⊢
    rw [if_pos (by omega)]
  · have hchk : checkComponent [totalSize ss] [i] = .error .valueError := by
      unfold checkComponent
      rw [if_neg]
      rintro ⟨-, h⟩
      simp [allBelow] at h
      omega
    simp only [hchk, bind, Except.bind]

/-- **C54** (one level). Let sub-elements have the reference shapes `ss`. The reference
components `0, 1, …` of the mixed element correspond one-to-one to the pairs of a
sub-element and a component within its shape, block after block and row-major within a
block, and every other index is rejected with `ValueError`. -/
theorem C54_direct {b : Base} {subs : List UElem} (h : Built (.mixed b subs)) :
    ∃ ss, shapes subs = .ok ss ∧ b.shape = [totalSize ss] ∧
      (∀ i : Int, 0 ≤ i → i < totalSize ss → ∃ k c sh,
        extractSubRef (.mixed b subs) [i] = .ok (some k, c.map Int.ofNat) ∧ ss[k]? = some sh ∧
        Within c sh ∧ i = offsetOf ss k + rowMajor sh c) ∧
      (∀ (k : Nat) (sh c : List Nat), ss[k]? = some sh → Within c sh →
        extractSubRef (.mixed b subs) [((offsetOf ss k + rowMajor sh c : Nat) : Int)]
          = .ok (some k, c.map Int.ofNat)) ∧
      (∀ i : Int, i < 0 ∨ (totalSize ss : Int) ≤ i →
        extractSubRef (.mixed b subs) [i] = .error .valueError) := by
  obtain ⟨ss, hss, hb⟩ := mixed_shape h.good
  have key : ∀ j : Nat, j < totalSize ss → ∃ m sh, ∃ r : Nat,
      extractSubRef (.mixed b subs) [(j : Int)]
        = .ok (some m, (unflattenIndex r (shapeToStrides sh)).map Int.ofNat) ∧
      ss[m]? = some sh ∧ r < prodNat sh ∧ j = offsetOf ss m + r := by
    intro j hj
    obtain ⟨m, sh, r, h1, h2, h3, h4⟩ := extractSub_spec hj
    refine ⟨m, sh, r, ?_, h2, h3, h4⟩
    simp only [extractSubRef, hss, hb, bind, Except.bind, h1]
  refine ⟨ss, hss, hb, ?_, ?_, ?_⟩
  · intro i h0 h1
    obtain ⟨j, rfl⟩ := Int.eq_ofNat_of_zero_le h0
    obtain ⟨m, sh, r, e1, e2, e3, e4⟩ := key j (by omega)
    obtain ⟨w1, w2⟩ := unflatten_within e3
    exact ⟨m, _, sh, e1, e2, w1, by rw [w2]; omega⟩
  · intro k sh c hk hc
    have hlt := rowMajor_lt hc
    obtain ⟨m, sh', r, e1, e2, e3, e4⟩ := key _ (offset_lt ss hk hlt)
    obtain ⟨rfl, rfl⟩ := offset_unique ss hk e2 hlt e3 e4
    rw [hk] at e2
    cases e2
    rw [e1, unflatten_rowMajor hc]
  · intro i hi
    simp only [extractSubRef, hss, hb, bind, Except.bind, extractSub_outside ss i hi]

/-- **C54** (down to the leaves). When the components of all mixed elements in the tree are
numbered by one index, `extract_reference_component` enumerates the components of the
leaves in order, and every other index is rejected with `ValueError`. -/
theorem C54_leaves {e : UElem} (h : Built e) (h1 : OneIndex e) (h2 : HasSubs e) (i : Int) :
    (0 ≤ i → i < (leafComponents e).length →
      ∃ p, (leafComponents e)[i.toNat]? = some p ∧ extractRef e [i] = .ok p) ∧
    (i < 0 ∨ ((leafComponents e).length : Int) ≤ i → extractRef e [i] = .error .valueError) := by
  have hg := h.good
  obtain ⟨ss, hsh, hx⟩ : ∃ ss, e.shape = .ok [totalSize ss] ∧ ∀ i,
      (extractSub [totalSize ss] ss [i] = .error .valueError →
        extractRef e [i] = .error .valueError) := by
    match e, h2, h1, hg with
    | .mixed b subs, _, _, hg =>
      obtain ⟨ss, hss, hb⟩ := mixed_shape hg
      refine ⟨ss, ?_, ?_⟩
      · rw [UElem.shape]
        · exact congrArg Except.ok hb
        · simp
      · intro i hi
        rw [extractRef, hss, hb]
        simp only [bind, Except.bind, hi]
    | .vector b s dim v, _, h1, hg =>
      rw [OneIndex] at h1
      obtain ⟨sh, hsh, hb⟩ := vector_shape hg
      rw [h1.1] at hsh
      cases hsh
      refine ⟨List.replicate dim [], ?_, ?_⟩
      · rw [UElem.shape, totalSize_scalars]
        · exact congrArg Except.ok hb
        · simp
      · intro i hi
        rw [totalSize_scalars] at hi
        rw [extractRef, h1.1, hb]
        simp only [bind, Except.bind, hi]
    | .tensor b s shape sym number count m v, _, h1, hg =>
      rw [OneIndex] at h1
      refine ⟨List.replicate count [], ?_, ?_⟩
      · rw [UElem.shape, totalSize_scalars]
        · exact congrArg Except.ok h1.1
        · simp
      · intro i hi
        rw [totalSize_scalars] at hi
        rw [extractRef, h1.2.1, h1.1]
        simp only [bind, Except.bind, hi]
  obtain ⟨hlen, hget⟩ := numbered hg h1 _ hsh
  have e1 : prodNat [totalSize ss] = totalSize ss := by simp [prodNat]
  rw [e1] at hlen hget
  constructor
  · intro h0 hi
    obtain ⟨j, rfl⟩ := Int.eq_ofNat_of_zero_le h0
    obtain ⟨p, hp, hr⟩ := hget j (by omega)
    rw [unflatten_single] at hr
    exact ⟨p, hp, hr⟩
  · intro hi
    exact hx i (extractSub_outside ss i (by rw [← hlen]; exact hi))

/-- **C54** (limit). Vectors of vectors have two indices: every index in range fails with
`AssertionError`. -/
theorem C54_two_indices {b : Base} {s : UElem} {dim n : Nat} {v : Option String}
    (h : Built (.vector b s dim v)) (hs : s.shape = .ok [n]) (i j : Int)
    (hi : i < dim) (hj : j < n) :
    extractSubRef (.vector b s dim v) [i, j] = .error .assertionError := by
  obtain ⟨sh, hsh, hb⟩ := vector_shape h.good
  rw [hs] at hsh
  cases hsh
  have hc : checkComponent [dim, n] [i, j] = .ok () := by
    unfold checkComponent
    rw [if_pos ⟨rfl, by simp [allBelow, hi, hj]⟩]
  simp only [extractSubRef, hs, hb, extractSub, hc, bind, Except.bind]

/-- **C54** (elements without sub-elements). Every component belongs to the element itself: no number is returned
and the component unchanged; components past the shape are rejected. -/
theorem C54_simple {e : UElem} (hs : ¬ HasSubs e) {sh : List Nat} (hsh : e.shape = .ok sh) :
    (∀ c : List Nat, Within c sh → extractSubRef e (c.map Int.ofNat) = .ok (none, c.map Int.ofNat) ∧
      extractRef e (c.map Int.ofNat) = .ok (c.map Int.ofNat, e)) ∧
    (∀ i : List Int, i.length ≠ sh.length → extractSubRef e i = .error .valueError ∧
      extractRef e i = .error .valueError) := by
  have key : ∀ (i : List Int), (checkComponent sh i = .ok () → extractSubRef e i = .ok (none, i) ∧
      extractRef e i = .ok (i, e)) ∧ (∀ x, checkComponent sh i = .error x → extractSubRef e i = .error x ∧
      extractRef e i = .error x) := by
    intro i
    cases e <;> first | exact absurd trivial hs | skip
    all_goals
      refine ⟨fun hc => ⟨?_, ?_⟩, fun x hc => ⟨?_, ?_⟩⟩
      · simp only [extractSubRef, hsh, hc, bind, Except.bind]
      · rw [extractRef]
        · simp only [hsh, hc, bind, Except.bind]
        all_goals simp
      · simp only [extractSubRef, hsh, hc, bind, Except.bind]
      · rw [extractRef]
        · simp only [hsh, hc, bind, Except.bind]
        all_goals simp
  have below : ∀ {c sh : List Nat}, Within c sh → allBelow (c.map Int.ofNat) sh = true := by
    intro c sh h
    induction h with
    | nil => rfl
    | cons h _ ih => simp [allBelow, h, ih]
  refine ⟨fun c hc => (key _).1 ?_, fun i hi => (key i).2 _ ?_⟩
  · unfold checkComponent
    rw [if_pos ⟨by simpa using List.Forall₂.length_eq hc, below hc⟩]
  · unfold checkComponent
    rw [if_neg (fun h => hi h.1)]

/-- **C54** (limit). Elements without sub-elements do not reject negative components:
only the upper bound is checked. -/
theorem C54_negative_component {b : Base} {o : Order} {so : Sobolev} {m : String}
    {v : Option String} {emb : Order} {n : Nat} (hb : b.shape = [n]) (i : Int) (hi : i < 0) :
    extractRef (.fe b o so m v emb) [i] = .ok ([i], .fe b o so m v emb) := by
  have hc : checkComponent [n] [i] = .ok () := by
    unfold checkComponent
    rw [if_pos ⟨rfl, by simp [allBelow]; omega⟩]
  rw [extractRef]
  · have : (UElem.fe b o so m v emb).shape = .ok [n] := by
      rw [UElem.shape]
      · exact congrArg Except.ok hb
      · simp
    simp only [this, hc, bind, Except.bind]
  all_goals simp

namespace UflComponentCases

open UflTreeCases

/-- The components of the Taylor-Hood element. -/
example : leafComponents taylorHood = [([], lag 2), ([], lag 2), ([], lag 1)] := by rfl

/-- The only component of a Lagrange element. -/
example := (C54_simple (e := lag 2) (by simp [HasSubs, lag]) (sh := []) rfl).1 [] .nil

theorem th_oneIndex : OneIndex taylorHood := by
  simp [taylorHood, vec, lag, OneIndex, OneIndexs, UElem.shape, UElem.base]

example := C54_leaves th_built th_oneIndex trivial 2
example := C54_leaves sym_built (by simp [sym, lag, OneIndex, UElem.shape, UElem.base]) trivial 2
example := C54_direct th_built

/-- A Raviart-Thomas element and its negative component. -/
example := C54_negative_component (b := ⟨"Raviart-Thomas", some (.named .triangle), .int 1,
  none, [2]⟩) (o := .int 1) (so := .hDiv) (m := "contravariant Piola") (v := none)
  (emb := .int 1) (n := 2) rfl (-1) (by omega)

/-- A vector of vectors. -/
theorem vecvec_built : ∃ b, Built (.vector b vec 3 none) :=
  ⟨_, .vector (dim := some 3) vec_built rfl⟩

example : ∃ b, extractSubRef (.vector b vec 3 none) [1, 1] = .error .assertionError := by
  obtain ⟨b, hb⟩ := vecvec_built
  exact ⟨b, C54_two_indices hb (n := 2) rfl 1 1 (by omega) (by omega)⟩

end UflComponentCases

end FInAT.Props
