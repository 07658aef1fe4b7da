import Verif.Model.Ufl.Component
import Verif.Spec.UflTree
import Verif.Lemmas.Ufl.Reconstruct
import Mathlib.Tactic.Linarith

/-!
# Lemmas on components of mixed elements
-/

namespace FInAT.Ufl

open UElem

theorem prodNat_def (l : List Nat) : prodNat l = l.foldr (· * ·) 1 := rfl

theorem rowMajor_lt : ∀ {c sh : List Nat}, Within c sh → rowMajor sh c < prodNat sh
  | [], [], _ => by simp [rowMajor, prodNat]
  | i :: is, n :: ns, h => by
    cases h with
    | cons h1 h2 =>
      have ih := rowMajor_lt h2
      have hp : prodNat (n :: ns) = n * prodNat ns := rfl
      have : rowMajor (n :: ns) (i :: is) = i * prodNat ns + rowMajor ns is := rfl
      rw [hp, this]
      have : (i + 1) * prodNat ns ≤ n * prodNat ns := Nat.mul_le_mul_right _ h1
      have e : (i + 1) * prodNat ns = i * prodNat ns + prodNat ns := by
        rw [Nat.add_mul, Nat.one_mul]
      omega

theorem unflatten_rowMajor : ∀ {c sh : List Nat}, Within c sh →
    unflattenIndex (rowMajor sh c) (shapeToStrides sh) = c
  | [], [], _ => rfl
  | i :: is, n :: ns, h => by
    cases h with
    | cons h1 h2 =>
      have hlt := rowMajor_lt h2
      have e : rowMajor (n :: ns) (i :: is) = rowMajor ns is + prodNat ns * i := by
        show i * prodNat ns + rowMajor ns is = _
        rw [Nat.mul_comm, Nat.add_comm]
      rw [e, shapeToStrides, unflattenIndex, Nat.add_mul_div_left _ _ (by omega),
        Nat.div_eq_of_lt hlt, Nat.zero_add, Nat.add_mul_mod_self_left, Nat.mod_eq_of_lt hlt,
        unflatten_rowMajor h2]

theorem unflatten_within : ∀ {sh : List Nat} {j : Nat}, j < prodNat sh →
    Within (unflattenIndex j (shapeToStrides sh)) sh ∧
      rowMajor sh (unflattenIndex j (shapeToStrides sh)) = j
  | [], j, h => by
    have : j = 0 := by simp [prodNat] at h; omega
    subst this
    exact ⟨List.Forall₂.nil, rfl⟩
  | n :: ns, j, h => by
    have hp : prodNat (n :: ns) = n * prodNat ns := rfl
    rw [hp] at h
    have hpos : 0 < prodNat ns := by
      rcases Nat.eq_zero_or_pos (prodNat ns) with h0 | h0
      · rw [h0] at h; omega
      · exact h0
    have h1 : j / prodNat ns < n := by
      rw [Nat.div_lt_iff_lt_mul hpos]; exact h
    obtain ⟨h2, h3⟩ := unflatten_within (sh := ns) (j := j % prodNat ns) (Nat.mod_lt _ hpos)
    refine ⟨List.Forall₂.cons h1 h2, ?_⟩
    show j / prodNat ns * prodNat ns + rowMajor ns _ = j
    rw [h3, Nat.mul_comm]
    exact Nat.div_add_mod _ _

theorem length_flatMap_range (n : Nat) (l : Nat → List (List Nat)) (m : Nat)
    (h : ∀ i, (l i).length = m) : ((List.range n).flatMap l).length = n * m := by
  simp [List.length_flatMap, h]

theorem indicesOf_length : ∀ sh : List Nat, (indicesOf sh).length = prodNat sh
  | [] => rfl
  | n :: ns => by
    rw [indicesOf, length_flatMap_range n _ (prodNat ns)]
    · rfl
    · intro i; rw [List.length_map, indicesOf_length ns]

theorem flatMap_range_get (l : Nat → List (List Nat)) (m : Nat) (hl : ∀ i, (l i).length = m) :
    ∀ (n j : Nat), j < n * m → ((List.range n).flatMap l)[j]? = (l (j / m))[j % m]?
  | 0, j, h => by omega
  | n + 1, j, h => by
    have hm : 0 < m := by
      rcases Nat.eq_zero_or_pos m with h0 | h0
      · subst h0; omega
      · exact h0
    rw [List.range_succ, List.flatMap_append]
    by_cases hj : j < n * m
    · rw [List.getElem?_append_left (by rw [length_flatMap_range n l m hl]; exact hj)]
      exact flatMap_range_get l m hl n j hj
    · rw [List.getElem?_append_right (by rw [length_flatMap_range n l m hl]; omega),
        length_flatMap_range n l m hl]
      have e : (n + 1) * m = n * m + m := by rw [Nat.add_mul, Nat.one_mul]
      have hdiv : j / m = n := by
        rw [Nat.div_eq_iff hm]
        constructor <;> omega
      have hmod : j % m = j - n * m := by
        have := Nat.div_add_mod j m
        rw [hdiv, Nat.mul_comm] at this
        omega
      rw [hdiv, hmod]
      simp

theorem indicesOf_get : ∀ (sh : List Nat) (j : Nat), j < prodNat sh →
    (indicesOf sh)[j]? = some (unflattenIndex j (shapeToStrides sh))
  | [], j, h => by
    have : j = 0 := by simp [prodNat] at h; omega
    subst this
    rfl
  | n :: ns, j, h => by
    have hp : prodNat (n :: ns) = n * prodNat ns := rfl
    rw [hp] at h
    have hpos : 0 < prodNat ns := by
      rcases Nat.eq_zero_or_pos (prodNat ns) with h0 | h0
      · rw [h0] at h; omega
      · exact h0
    rw [indicesOf, flatMap_range_get _ (prodNat ns)
      (fun i => by rw [List.length_map, indicesOf_length ns]) n j h, List.getElem?_map,
      indicesOf_get ns _ (Nat.mod_lt _ hpos)]
    rfl

theorem mem_indicesOf : ∀ {sh c : List Nat}, c ∈ indicesOf sh ↔ Within c sh
  | [], c => by
    simp only [indicesOf, List.mem_singleton]
    constructor
    · rintro rfl; exact List.Forall₂.nil
    · intro h; cases h; rfl
  | n :: ns, c => by
    simp only [indicesOf, List.mem_flatMap, List.mem_range, List.mem_map]
    constructor
    · rintro ⟨i, hi, c', hc', rfl⟩
      exact List.Forall₂.cons hi (mem_indicesOf.1 hc')
    · intro h
      cases h with
      | cons h1 h2 => exact ⟨_, h1, _, mem_indicesOf.2 h2, rfl⟩

theorem totalSize_cons (sh : List Nat) (ss : List (List Nat)) :
    totalSize (sh :: ss) = prodNat sh + totalSize ss := by
  simp [totalSize, prodNat]

/-- The loop finds the sub-element whose block contains the index. -/
theorem findSub_spec : ∀ (ss : List (List Nat)) (k j : Nat), j < totalSize ss →
    ∃ m sh, ∃ r : Nat, findSub ss k (j : Int) = (k + m, sh, (r : Int)) ∧ ss[m]? = some sh ∧
      r < prodNat sh ∧ j = offsetOf ss m + r
  | [], k, j, h => by simp [totalSize] at h
  | [sh], k, j, h => by
    have h1 : j < prodNat sh := by simpa [totalSize, prodNat] using h
    refine ⟨0, sh, j, ?_, rfl, h1, by simp [offsetOf]⟩
    rw [findSub, if_pos (by exact_mod_cast h1)]
    rfl
  | sh :: sh' :: ss, k, j, h => by
    rw [totalSize_cons] at h
    by_cases hj : j < prodNat sh
    · refine ⟨0, sh, j, ?_, rfl, hj, by simp [offsetOf]⟩
      rw [findSub, if_pos (by exact_mod_cast hj)]
      · rfl
      · intro h; cases h
    · obtain ⟨m, s, r, h1, h2, h3, h4⟩ := findSub_spec (sh' :: ss) (k + 1) (j - prodNat sh)
        (by omega)
      refine ⟨m + 1, s, r, ?_, by simpa using h2, h3, ?_⟩
      · rw [findSub, if_neg (by exact_mod_cast hj)]
        · have : ((j : Int) - (prodNat sh : Nat)) = ((j - prodNat sh : Nat) : Int) := by omega
          rw [this, h1]
          congr 1
          omega
        · intro h; cases h
      · have : offsetOf (sh :: sh' :: ss) (m + 1) = prodNat sh + offsetOf (sh' :: ss) m := by
          simp [offsetOf, prodNat]
        rw [this]
        omega

theorem findSub_neg : ∀ (ss : List (List Nat)) (k : Nat) (j : Int), j < 0 →
    (findSub ss k j).2.2 = j
  | [], k, j, h => rfl
  | [sh], k, j, h => by rw [findSub, if_pos (by omega)]
  | sh :: sh' :: ss, k, j, h => by
    rw [findSub, if_pos (by omega)]
    intro h; cases h

theorem offset_unique : ∀ (ss : List (List Nat)) {m m' r r' : Nat} {sh sh' : List Nat},
    ss[m]? = some sh → ss[m']? = some sh' → r < prodNat sh → r' < prodNat sh' →
    offsetOf ss m + r = offsetOf ss m' + r' → m = m' ∧ r = r'
  | [], m, _, _, _, _, _, h, _, _, _, _ => by simp at h
  | s :: ss, 0, 0, r, r', sh, sh', h1, h2, h3, h4, h => by
    simp [offsetOf] at h
    exact ⟨rfl, h⟩
  | s :: ss, 0, m' + 1, r, r', sh, sh', h1, h2, h3, h4, h => by
    have e : offsetOf (s :: ss) (m' + 1) = prodNat s + offsetOf ss m' := by
      simp [offsetOf, prodNat]
    have e0 : offsetOf (s :: ss) 0 = 0 := by simp [offsetOf]
    simp at h1
    subst h1
    omega
  | s :: ss, m + 1, 0, r, r', sh, sh', h1, h2, h3, h4, h => by
    have e : offsetOf (s :: ss) (m + 1) = prodNat s + offsetOf ss m := by
      simp [offsetOf, prodNat]
    have e0 : offsetOf (s :: ss) 0 = 0 := by simp [offsetOf]
    simp at h2
    subst h2
    omega
  | s :: ss, m + 1, m' + 1, r, r', sh, sh', h1, h2, h3, h4, h => by
    have e : ∀ m, offsetOf (s :: ss) (m + 1) = prodNat s + offsetOf ss m := by
      simp [offsetOf, prodNat]
    rw [e, e] at h
    obtain ⟨a, b⟩ := offset_unique ss (by simpa using h1) (by simpa using h2) h3 h4
      (by omega : offsetOf ss m + r = offsetOf ss m' + r')
    exact ⟨by rw [a], b⟩

theorem offset_lt : ∀ (ss : List (List Nat)) {m r : Nat} {sh : List Nat},
    ss[m]? = some sh → r < prodNat sh → offsetOf ss m + r < totalSize ss
  | [], m, _, _, h, _ => by simp at h
  | s :: ss, 0, r, sh, h, hr => by
    simp at h
    subst h
    rw [totalSize_cons]
    simp [offsetOf]
    omega
  | s :: ss, m + 1, r, sh, h, hr => by
    have e : offsetOf (s :: ss) (m + 1) = prodNat s + offsetOf ss m := by
      simp [offsetOf, prodNat]
    have := offset_lt ss (by simpa using h) hr
    rw [totalSize_cons, e]
    omega

/-- The index of a component of a sub-element is taken apart again. -/
theorem extractSub_spec {ss : List (List Nat)} {j : Nat} (h : j < totalSize ss) :
    ∃ m sh, ∃ r : Nat, extractSub [totalSize ss] ss [(j : Int)] =
        .ok (m, unflattenIndex r (shapeToStrides sh)) ∧ ss[m]? = some sh ∧
      r < prodNat sh ∧ j = offsetOf ss m + r := by
  obtain ⟨m, sh, r, h1, h2, h3, h4⟩ := findSub_spec ss 0 j h
  refine ⟨m, sh, r, ?_, h2, h3, h4⟩
  unfold extractSub
  have hc : checkComponent [totalSize ss] [(j : Int)] = .ok () := by
    unfold checkComponent
    rw [if_pos]
    refine ⟨rfl, ?_⟩
    simp only [allBelow, Bool.and_true, decide_eq_true_eq]
    omega
  simp only [hc, bind, Except.bind, h1, Nat.zero_add]
  rw [if_neg (by omega)]
  simp

theorem shapes_get : ∀ {subs : List UElem} {ss : List (List Nat)} {m : Nat} {sh : List Nat},
    shapes subs = .ok ss → ss[m]? = some sh → ∃ e, subs[m]? = some e ∧ e.shape = .ok sh
  | [], ss, m, sh, h, hm => by rw [shapes] at h; cases h; simp at hm
  | e :: es, ss, m, sh, h, hm => by
    rw [shapes] at h
    obtain ⟨s, hs, h⟩ := bind_ok h
    obtain ⟨ss', hss, h⟩ := bind_ok h
    cases h
    cases m with
    | zero =>
      simp at hm
      subst hm
      exact ⟨e, rfl, hs⟩
    | succ m => exact shapes_get (subs := es) hss (by simpa using hm)

theorem extractNth_get : ∀ {subs : List UElem} {m : Nat} {e : UElem} (i : List Int),
    subs[m]? = some e → extractNth subs m i = extractRef e i
  | [], m, e, i, h => by simp at h
  | x :: xs, 0, e, i, h => by simp at h; subst h; rw [extractNth]
  | x :: xs, m + 1, e, i, h => by rw [extractNth]; exact extractNth_get i (by simpa using h)

theorem shapes_replicate {s : UElem} {sh : List Nat} (h : s.shape = .ok sh) : ∀ n : Nat,
    shapes (List.replicate n s) = .ok (List.replicate n sh)
  | 0 => by rw [List.replicate, shapes]; rfl
  | n + 1 => by
    rw [List.replicate_succ, shapes, h, shapes_replicate h n]
    rfl

/-- The components of an element are numbered as the list of the components of its
leaves. -/
def Numbered (e : UElem) : Prop :=
  ∀ sh, e.shape = .ok sh → (leafComponents e).length = prodNat sh ∧
    ∀ j, j < prodNat sh → ∃ p, (leafComponents e)[j]? = some p ∧
      extractRef e ((unflattenIndex j (shapeToStrides sh)).map Int.ofNat) = .ok p

theorem leaves_length : ∀ {subs : List UElem} {ss : List (List Nat)},
    shapes subs = .ok ss → (∀ s ∈ subs, Numbered s) →
    (leafComponentss subs).length = totalSize ss
  | [], ss, h, _ => by rw [shapes] at h; cases h; rfl
  | e :: es, ss, h, hn => by
    rw [shapes] at h
    obtain ⟨s, hs, h⟩ := bind_ok h
    obtain ⟨ss', hss, h⟩ := bind_ok h
    cases h
    rw [leafComponentss, List.length_append, totalSize_cons,
      (hn e List.mem_cons_self s hs).1,
      leaves_length hss (fun x hx => hn x (List.mem_cons_of_mem _ hx))]

theorem leaves_get : ∀ {subs : List UElem} {ss : List (List Nat)} {m r : Nat} {sh : List Nat}
    {e : UElem}, shapes subs = .ok ss → (∀ s ∈ subs, Numbered s) → ss[m]? = some sh →
    subs[m]? = some e → r < prodNat sh →
    (leafComponentss subs)[offsetOf ss m + r]? = (leafComponents e)[r]?
  | [], ss, m, r, sh, e, h, _, _, hm, _ => by simp at hm
  | x :: xs, ss, m, r, sh, e, h, hn, hm, he, hr => by
    rw [shapes] at h
    obtain ⟨s, hs, h⟩ := bind_ok h
    obtain ⟨ss', hss, h⟩ := bind_ok h
    cases h
    have hlen := (hn x List.mem_cons_self s hs).1
    rw [leafComponentss]
    cases m with
    | zero =>
      simp at hm he
      subst hm he
      rw [List.getElem?_append_left (by rw [hlen]; simp [offsetOf]; exact hr)]
      simp [offsetOf]
    | succ m =>
      have e1 : offsetOf (s :: ss') (m + 1) = prodNat s + offsetOf ss' m := by
        simp [offsetOf, prodNat]
      rw [e1, List.getElem?_append_right (by rw [hlen]; omega), hlen,
        ← leaves_get (m := m) (r := r) hss (fun y hy => hn y (List.mem_cons_of_mem _ hy))
          (by simpa using hm) (by simpa using he) hr]
      congr 1
      omega

/-- One level of the recursion. -/
theorem node_numbered {subs : List UElem} {ss : List (List Nat)} (h : shapes subs = .ok ss)
    (hn : ∀ s ∈ subs, Numbered s) {j : Nat} (hj : j < totalSize ss) :
    ∃ p, (leafComponentss subs)[j]? = some p ∧
      ∃ k c, extractSub [totalSize ss] ss [(j : Int)] = .ok (k, c) ∧
        extractNth subs k (c.map Int.ofNat) = .ok p ∧ k < subs.length := by
  obtain ⟨m, sh, r, h1, h2, h3, h4⟩ := extractSub_spec hj
  obtain ⟨e, he, hsh⟩ := shapes_get h h2
  obtain ⟨p, hp, hx⟩ := (hn e (List.mem_of_getElem? he) sh hsh).2 r h3
  refine ⟨p, ?_, m, _, h1, ?_, ?_⟩
  · rw [h4, leaves_get h hn h2 he h3, hp]
  · rw [extractNth_get _ he, hx]
  · exact (List.getElem?_eq_some_iff.1 he).1

theorem unflatten_single (j n : Nat) :
    unflattenIndex j (shapeToStrides [n]) = [j] := by
  simp [shapeToStrides, unflattenIndex, prodNat]

theorem allBelow_of_within : ∀ {c sh : List Nat}, Within c sh →
    (c.map Int.ofNat).length = sh.length ∧ allBelow (c.map Int.ofNat) sh = true
  | [], [], _ => ⟨rfl, rfl⟩
  | i :: is, n :: ns, h => by
    cases h with
    | cons h1 h2 =>
      obtain ⟨a, b⟩ := allBelow_of_within h2
      refine ⟨by simpa using a, ?_⟩
      simp only [List.map_cons, allBelow, b, Bool.and_true, decide_eq_true_eq]
      exact Int.ofNat_lt.2 h1

theorem leaf_numbered {e : UElem}
    (hl : leafComponents e = match e.shape with
      | .ok sh => (indicesOf sh).map fun c => (c.map Int.ofNat, e)
      | .error _ => [])
    (hx : ∀ i, extractRef e i = (do
      let _ ← checkComponent (← e.shape) i
      .ok (i, e))) : Numbered e := by
  intro sh hsh
  rw [hl, hsh]
  refine ⟨by simp [indicesOf_length], fun j hj => ?_⟩
  refine ⟨_, by simp only [List.getElem?_map, indicesOf_get sh j hj, Option.map]; rfl, ?_⟩
  rw [hx, hsh]
  have hc : checkComponent sh ((unflattenIndex j (shapeToStrides sh)).map Int.ofNat) = .ok () := by
    unfold checkComponent
    rw [if_pos (allBelow_of_within (unflatten_within hj).1)]
  simp only [bind, Except.bind, hc]

theorem leafComponentss_replicate (s : UElem) : ∀ n : Nat,
    leafComponentss (List.replicate n s) = (List.replicate n (leafComponents s)).flatten
  | 0 => by simp [leafComponentss]
  | n + 1 => by
    rw [List.replicate_succ, leafComponentss, leafComponentss_replicate s n,
      List.replicate_succ, List.flatten_cons]

theorem totalSize_scalars (n : Nat) : totalSize (List.replicate n []) = n := by
  simp [totalSize]

theorem extractNth_replicate {s : UElem} {n k : Nat} {i : List Int} (h : k < n) :
    extractNth (List.replicate n s) k i = extractRef s i :=
  extractNth_get i (by rw [List.getElem?_replicate, if_pos h])

theorem mixed_shape {b : Base} {subs : List UElem} (h : Good (.mixed b subs)) :
    ∃ ss, shapes subs = .ok ss ∧ b.shape = [totalSize ss] := by
  have hf := h.fixed
  unfold Fixed at hf
  rw [reconstruct, reconstructs_fixed (fun s hs => (h.sub s (by simpa [children] using hs)).fixed)]
    at hf
  obtain ⟨b', hb, he⟩ := mkMixed_ok (e := .mixed b subs) hf
  cases he
  unfold mixedBase at hb
  obtain ⟨_, -, hb⟩ := bind_ok hb
  obtain ⟨_, -, hb⟩ := bind_ok hb
  obtain ⟨ss, hss, hb⟩ := bind_ok hb
  obtain ⟨_, -, hb⟩ := bind_ok hb
  cases hb
  exact ⟨ss, hss, rfl⟩

theorem vector_shape {b : Base} {s : UElem} {dim : Nat} {v : Option String}
    (h : Good (.vector b s dim v)) : ∃ sh, s.shape = .ok sh ∧ b.shape = dim :: sh := by
  have hf := h.fixed
  unfold Fixed at hf
  rw [reconstruct, (h.sub s (by simp [children])).fixed] at hf
  obtain ⟨n, sh, he, -, hsh, hn⟩ := mkVectorOf_ok (s := s) (dim := some dim) (v := s.variant)
    (e := .vector b s dim v) hf
  cases he
  exact ⟨sh, hsh, rfl⟩

theorem repeated_numbered {s : UElem} {b : Base} {n : Nat} {e : UElem} (hs : Numbered s)
    (hsh : s.shape = .ok []) (hb : b.shape = [n]) (he : e.shape = .ok b.shape)
    (hl : leafComponents e = (List.replicate n (leafComponents s)).flatten)
    (hx : ∀ i, extractRef e i = (do
      let (k, c) ← extractSub b.shape (List.replicate n (← s.shape)) i
      if k < n then extractRef s (c.map Int.ofNat) else .error .indexError)) : Numbered e := by
  have hss := shapes_replicate hsh n
  have hn : ∀ x ∈ List.replicate n s, Numbered x := by
    intro x hx; rw [List.eq_of_mem_replicate hx]; exact hs
  intro sh he'
  rw [he] at he'
  cases he'
  rw [hl, ← leafComponentss_replicate, leaves_length hss hn, totalSize_scalars, hb]
  refine ⟨by simp [prodNat], fun j hj => ?_⟩
  have hj' : j < totalSize (List.replicate n []) := by
    rw [totalSize_scalars]; simpa [prodNat] using hj
  obtain ⟨p, hp, k, c, h1, h2, h3⟩ := node_numbered hss hn hj'
  refine ⟨p, hp, ?_⟩
  rw [totalSize_scalars] at h1
  simp only [List.length_replicate] at h3
  rw [hx, hsh, hb, unflatten_single]
  simp only [bind, Except.bind, List.map, Int.ofNat_eq_natCast, h1, if_pos h3]
  rw [extractNth_replicate h3] at h2
  exact h2

mutual
theorem numbered : ∀ {e : UElem}, Good e → OneIndex e → Numbered e
  | .fe .., _, _ => leaf_numbered (by rw [leafComponents] <;> first | rfl | simp)
    (fun i => by rw [extractRef] <;> simp)
  | .product .., _, _ => leaf_numbered (by rw [leafComponents] <;> first | rfl | simp)
    (fun i => by rw [extractRef] <;> simp)
  | .enriched .., _, _ => leaf_numbered (by rw [leafComponents] <;> first | rfl | simp)
    (fun i => by rw [extractRef] <;> simp)
  | .hdiv .., _, _ => leaf_numbered (by rw [leafComponents] <;> first | rfl | simp)
    (fun i => by rw [extractRef] <;> simp)
  | .hcurl .., _, _ => leaf_numbered (by rw [leafComponents] <;> first | rfl | simp)
    (fun i => by rw [extractRef] <;> simp)
  | .withMapping .., _, _ => leaf_numbered (by rw [leafComponents] <;> first | rfl | simp)
    (fun i => by rw [extractRef] <;> simp)
  | .restricted .., _, _ => leaf_numbered (by rw [leafComponents] <;> first | rfl | simp)
    (fun i => by rw [extractRef] <;> simp)
  | .broken .., _, _ => leaf_numbered (by rw [leafComponents] <;> first | rfl | simp)
    (fun i => by rw [extractRef] <;> simp)
  | .mixed b subs, hg, ho => by
    obtain ⟨ss, hss, hb⟩ := mixed_shape hg
    have hn : ∀ s ∈ subs, Numbered s :=
      numbereds (fun s hs => hg.sub s (by simpa [children] using hs))
        (by rw [OneIndex] at ho; exact ho)
    intro sh hsh
    have : sh = [totalSize ss] := by
      rw [UElem.shape] at hsh
      · cases hsh; exact hb
      · intro e m h; cases h
    subst this
    rw [leafComponents, leaves_length hss hn]
    refine ⟨by simp [prodNat], fun j hj => ?_⟩
    have hj' : j < totalSize ss := by simpa [prodNat] using hj
    obtain ⟨p, hp, k, c, h1, h2, -⟩ := node_numbered hss hn hj'
    refine ⟨p, hp, ?_⟩
    rw [extractRef, hss, hb, unflatten_single]
    simp only [bind, Except.bind, List.map, Int.ofNat_eq_natCast, h1]
    exact h2
  | .vector b s dim v, hg, ho => by
    rw [OneIndex] at ho
    obtain ⟨sh, hsh, hb⟩ := vector_shape hg
    rw [ho.1] at hsh
    cases hsh
    exact repeated_numbered (numbered (hg.sub s (by simp [children])) ho.2) ho.1 hb
      (by rw [UElem.shape]; · rfl
          · intro e m h; cases h) (by rw [leafComponents]) (fun i => by rw [extractRef])
  | .tensor b s shape sym number count m v, hg, ho => by
    rw [OneIndex] at ho
    exact repeated_numbered (numbered (hg.sub s (by simp [children])) ho.2.2) ho.2.1 ho.1
      (by rw [UElem.shape]; · rfl
          · intro e m h; cases h) (by rw [leafComponents]) (fun i => by rw [extractRef])
theorem numbereds : ∀ {es : List UElem}, (∀ s ∈ es, Good s) → OneIndexs es →
    ∀ s ∈ es, Numbered s
  | [], _, _, s, hs => by simp at hs
  | e :: es, hg, ho, s, hs => by
    rw [OneIndexs] at ho
    have he : Numbered e := numbered (hg e List.mem_cons_self) ho.1
    rcases List.mem_cons.1 hs with h | hs
    · rw [h]; exact he
    · exact numbereds (fun x hx => hg x (List.mem_cons_of_mem _ hx)) ho.2 s hs
end

end FInAT.Ufl
