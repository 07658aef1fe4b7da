import Verif.Lemmas.Ufl.Symmetry
import Verif.Props.UflTree
import Mathlib.Data.List.Perm.Basic
import Mathlib.Tactic.Ring

/-!
# C55: tensor elements with symmetries
-/

namespace FInAT.Props

open FInAT.Ufl UElem

/-- **C55** (any symmetry). In every tensor element that can be built, each component of
the shape has the number of a sub-element, a component listed in the symmetry dictionary
shares the sub-element of the component it is mapped to, and each sub-element belongs to
exactly one component that is not listed. -/
theorem C55_numbering {b : Base} {s : UElem} {shape : List Nat} {sym : Symmetry}
    {number : Dict (List Nat) Nat} {count : Nat} {m : String} {v : Option String}
    (h : Built (.tensor b s shape sym number count m v)) :
    (∀ i, Within i shape → ∃ n, n < count ∧ number.get? i = some n) ∧
    (∀ i j, Within i shape → sym.get? i = some j → number.get? i = number.get? j) ∧
    (∀ n, n < count → ∃ i, (Within i shape ∧ sym.get? i = none ∧ number.get? i = some n) ∧
      ∀ i', Within i' shape → sym.get? i' = none → number.get? i' = some n → i' = i) := by
  obtain ⟨-, hcount, -, hfree, hkey, hall⟩ := tensor_facts h.good
  refine ⟨hall, hkey, fun n hn => ?_⟩
  have hnd : (freeOf sym (indicesOf shape)).Nodup := (indicesOf_nodup shape).filter _
  have hl : n < (freeOf sym (indicesOf shape)).length := hcount ▸ hn
  have hm := mem_freeOf.1 (List.getElem_mem hl)
  have hi := mem_indicesOf.1 hm.1
  refine ⟨(freeOf sym (indicesOf shape))[n], ⟨hi, hm.2, ?_⟩, fun i' hi' hk' hn' => ?_⟩
  · rw [hfree _ hi hm.2, hnd.idxOf_getElem n hl]
  · rw [hfree i' hi' hk'] at hn'
    have hm' : i' ∈ freeOf sym (indicesOf shape) := mem_freeOf.2 ⟨mem_indicesOf.2 hi', hk'⟩
    have e := Option.some.inj hn'
    subst e
    exact (List.getElem_idxOf _).symm

theorem indexBounds_within : ∀ {i j shape : List Nat}, indexBounds i j shape = .ok () →
    i.length ≤ shape.length ∧ Within i (shape.take i.length) ∧ Within j (shape.take i.length)
  | [], [], _, _ => ⟨by simp, .nil, .nil⟩
  | [], _ :: _, _, h => by simp [indexBounds] at h
  | _ :: _, [], _, h => by simp [indexBounds] at h
  | _ :: _, _ :: _, [], h => by simp [indexBounds] at h
  | a :: as, b :: bs, n :: ns, h => by
    rw [indexBounds] at h
    split at h
    · rename_i hab
      obtain ⟨h1, h2, h3⟩ := indexBounds_within h
      exact ⟨by simpa using h1, .cons hab.1 h2, .cons hab.2 h3⟩
    · cases h

theorem checkSymmetry_mem : ∀ {sym : Symmetry} {shape : List Nat}, checkSymmetry shape sym = .ok () →
    ∀ p ∈ sym, indexBounds p.1 p.2 shape = .ok ()
  | [], _, _, p, hp => by simp at hp
  | (i, j) :: rest, shape, h, p, hp => by
    rw [checkSymmetry] at h
    split at h
    · cases h
    · obtain ⟨u, hu, h⟩ := Ufl.bind_ok h
      rcases List.mem_cons.mp hp with rfl | hp
      · exact hu
      · exact checkSymmetry_mem h p hp

/-- **C55** (bounds). In every tensor element that can be built, the two components of each pair of the symmetry
dictionary have as many indices as each other, no more than the shape has, and every index is within the shape. -/
theorem C55_bounds {b : Base} {s : UElem} {shape : List Nat} {sym : Symmetry}
    {number : Dict (List Nat) Nat} {count : Nat} {m : String} {v : Option String}
    (h : Built (.tensor b s shape sym number count m v)) :
    ∀ p ∈ sym, p.1.length ≤ shape.length ∧ Within p.1 (shape.take p.1.length) ∧
      Within p.2 (shape.take p.1.length) := by
  obtain ⟨hc, -⟩ := tensor_facts h.good
  exact fun p hp => indexBounds_within (checkSymmetry_mem hc p hp)

theorem count_add_keys {shape : List Nat} {sym : Symmetry} (hnd : sym.keys.Nodup)
    (hk : ∀ i ∈ sym.keys, Within i shape) :
    (freeOf sym (indicesOf shape)).length + sym.length = prodNat shape := by
  have hp : ((indicesOf shape).filter fun i => (sym.get? i).isSome).Perm sym.keys := by
    rw [List.perm_ext_iff_of_nodup ((indicesOf_nodup shape).filter _) hnd]
    intro i
    simp only [List.mem_filter, Dict.get?_isSome_iff]
    exact ⟨fun h => h.2, fun h => ⟨mem_indicesOf.2 (hk i h), h⟩⟩
  have hl := hp.length_eq
  have hk' : sym.keys.length = sym.length := by simp [Dict.keys]
  have := List.length_eq_length_filter_add (l := indicesOf shape)
    (fun i => (sym.get? i).isNone)
  rw [indicesOf_length] at this
  rw [this, ← hk', ← hl]
  unfold freeOf
  congr 2
  congr 1
  funext i
  cases sym.get? i <;> rfl

/-- **C55** (reference size). If the keys of the dictionary are components of the shape,
the number of reference values is the number of sub-elements; without symmetries it is
the number of components. -/
theorem C55_reference_size {b : Base} {s : UElem} {shape : List Nat} {sym : Symmetry}
    {number : Dict (List Nat) Nat} {count : Nat} {m : String} {v : Option String}
    (h : Built (.tensor b s shape sym number count m v)) (hnd : sym.keys.Nodup)
    (hk : ∀ i ∈ sym.keys, Within i shape) :
    ∃ sh, s.shape = .ok sh ∧
      (sym ≠ [] → b.shape = count :: sh) ∧
      (sym = [] → b.shape = shape ++ sh ∧ count = prodNat shape) := by
  obtain ⟨-, hcount, ⟨sh, hsh, hb⟩, -⟩ := tensor_facts h.good
  have hc := count_add_keys hnd hk
  rw [← hcount] at hc
  refine ⟨sh, hsh, fun hne => ?_, fun he => ?_⟩
  · rw [hb, if_neg (by simpa using hne)]
    have : prodNat shape - sym.length = count := by omega
    rw [this]
    rfl
  · subst he
    simp at hc
    exact ⟨by rw [hb]; rfl, hc⟩

/-- **C55** (pullback). If components are mapped to components before them in row-major
order, the numbering used by the pullback is the numbering of the sub-elements, and refers
to as many values as there are sub-elements. -/
theorem C55_pullback {b : Base} {s : UElem} {shape : List Nat} {sym : Symmetry}
    {number : Dict (List Nat) Nat} {count : Nat} {m : String} {v : Option String}
    (h : Built (.tensor b s shape sym number count m v)) (h0 : 0 < count)
    (hk : ∀ i j, Within i shape → sym.get? i = some j →
      Within j shape ∧ rowMajor shape j < rowMajor shape i) :
    ∃ d, pullbackNumbers shape sym count = .ok (d, count) ∧
      ∀ i, Within i shape → d.get? i = number.get? i := by
  obtain ⟨-, hcount, -, hfree, hkey, -⟩ := tensor_facts h.good
  obtain ⟨d, h1, h2⟩ := pullbackLoop_spec (sym := sym) (number := number) (indicesOf shape) [] []
    (by simpa using indicesOf_nodup shape)
    (fun i hi hs => hfree i (mem_indicesOf.1 hi) hs)
    (fun i j hi hs => by
      have hw := mem_indicesOf.1 hi
      obtain ⟨hj, hlt⟩ := hk i j hw hs
      refine ⟨hkey i j hw hs, ?_⟩
      rw [List.nil_append, indicesOf_idxOf hj, indicesOf_idxOf hw]
      exact hlt)
    (by simp [Dict.get?]) (by simp)
  refine ⟨d, ?_, fun i hi => ?_⟩
  · unfold pullbackNumbers
    rw [if_neg (by omega)]
    rw [hcount]
    exact h1
  · rw [h2, if_pos (by simpa using mem_indicesOf.2 hi)]

theorem mem_fullSymmetry {n : Nat} {p : List Nat × List Nat} :
    p ∈ fullSymmetry n ↔ ∃ i j, j < i ∧ i < n ∧ p = ([i, j], [j, i]) := by
  simp only [fullSymmetry, List.mem_flatMap, List.mem_range, List.mem_map, List.mem_filter,
    decide_eq_true_eq]
  constructor
  · rintro ⟨i, hi, j, ⟨-, hj⟩, rfl⟩
    exact ⟨i, j, hj, hi, rfl⟩
  · rintro ⟨i, j, hj, hi, rfl⟩
    exact ⟨i, hi, j, ⟨by omega, hj⟩, rfl⟩

theorem fullSymmetry_keys_nodup (n : Nat) : (fullSymmetry n).keys.Nodup := by
  have : (fullSymmetry n).Nodup := by
    unfold fullSymmetry
    rw [List.nodup_flatMap]
    refine ⟨fun i _ => (List.nodup_range.filter _).map (fun a b h => by simpa using h), ?_⟩
    refine List.Pairwise.imp ?_ List.nodup_range
    intro a b hab x hx hy
    obtain ⟨x', -, rfl⟩ := List.mem_map.1 hx
    obtain ⟨y', -, h⟩ := List.mem_map.1 hy
    simp only [Prod.mk.injEq, List.cons.injEq] at h
    exact hab h.1.1.symm
  unfold Dict.keys
  refine List.Nodup.map_on ?_ this
  intro p hp q hq h
  obtain ⟨i, j, -, -, rfl⟩ := mem_fullSymmetry.1 hp
  obtain ⟨i', j', -, -, rfl⟩ := mem_fullSymmetry.1 hq
  simp only [List.cons.injEq, and_true] at h
  rw [h.1, h.2]

theorem fullSymmetry_get? (n i j : Nat) : (fullSymmetry n).get? [i, j] =
    if j < i ∧ i < n then some [j, i] else none := by
  by_cases h : j < i ∧ i < n
  · rw [if_pos h]
    exact Dict.get?_eq_some_of_mem (fullSymmetry_keys_nodup n)
      (mem_fullSymmetry.2 ⟨i, j, h.1, h.2, rfl⟩)
  · rw [if_neg h]
    cases hg : (fullSymmetry n).get? [i, j] with
    | none => rfl
    | some w =>
      obtain ⟨i', j', h1, h2, he⟩ := mem_fullSymmetry.1 (Dict.mem_of_get?_eq_some hg)
      simp only [Prod.mk.injEq, List.cons.injEq, and_true] at he
      obtain ⟨⟨rfl, rfl⟩, -⟩ := he
      exact absurd ⟨h1, h2⟩ h

theorem filter_range_lt (n i : Nat) (h : i ≤ n) :
    ((List.range n).filter fun j => decide (j < i)).length = i := by
  have : ((List.range n).filter fun j => decide (j < i)).Perm (List.range i) := by
    rw [List.perm_ext_iff_of_nodup (List.nodup_range.filter _) List.nodup_range]
    intro a
    simp
    omega
  rw [this.length_eq, List.length_range]

theorem fullSymmetry_length (n : Nat) : 2 * (fullSymmetry n).length + n = n * n := by
  have h1 : ∀ k, k ≤ n → 2 * (((List.range k).flatMap fun i =>
      ((List.range n).filter (fun j => decide (j < i))).map fun j => ([i, j], [j, i]) :
      Symmetry)).length + k = k * k := by
    intro k
    induction k with
    | zero => intro _; rfl
    | succ k ih =>
      intro hk
      rw [List.range_succ, List.flatMap_append, List.length_append]
      have := ih (by omega)
      simp only [List.flatMap_cons, List.flatMap_nil, List.append_nil, List.length_map,
        filter_range_lt n k (by omega)]
      have e : (k + 1) * (k + 1) = k * k + 2 * k + 1 := by ring
      omega
  exact h1 n (Nat.le_refl n)

theorem within_pair {a b m n : Nat} : Within [a, b] [m, n] ↔ a < m ∧ b < n := by
  constructor
  · intro h
    cases h with
    | cons h1 h2 => cases h2 with | cons h2 _ => exact ⟨h1, h2⟩
  · rintro ⟨h1, h2⟩
    exact .cons h1 (.cons h2 .nil)

/-- **C55** (`symmetry=True`). A symmetric `n × n` tensor element has `n (n + 1) / 2`
sub-elements; components share a sub-element exactly when they are the same up to
transposition; every sub-element is used; the reference size is the number of
sub-elements, and the pullback uses the same numbers. -/
theorem C55_symmetric {s e : UElem} (hs : Built s) {n : Nat}
    (h : mkTensor s (some [n, n]) .full = .ok e) :
    ∃ b number count m v sh, e = .tensor b s [n, n] (fullSymmetry n) number count m v ∧
      2 * count = n * (n + 1) ∧ s.shape = .ok sh ∧
      (∀ i j, i < n → j < n → ∃ k, k < count ∧ number.get? [i, j] = some k) ∧
      (∀ i j i' j', i < n → j < n → i' < n → j' < n →
        (number.get? [i, j] = number.get? [i', j'] ↔
          (i = i' ∧ j = j') ∨ (i = j' ∧ j = i'))) ∧
      (∀ k, k < count → ∃ i j, i < n ∧ j < n ∧ number.get? [i, j] = some k) ∧
      (2 ≤ n → b.shape = count :: sh) ∧
      (0 < n → ∃ d, pullbackNumbers [n, n] (fullSymmetry n) count = .ok (d, count) ∧
        ∀ i j, i < n → j < n → d.get? [i, j] = number.get? [i, j]) := by
  have hB : Built e := .tensor hs h
  obtain ⟨b, shape', d, number, count, m, rfl, -, -, -, -, -, -, h1, -, -, h2, -⟩ :=
    mkTensorOf_ok (s := s) (v := s.variant) h
  have hsh := h1 [n, n] rfl
  subst hsh
  obtain ⟨n', hn', rfl⟩ := h2 rfl
  simp only [List.cons.injEq, and_true] at hn'
  obtain ⟨rfl, -⟩ := hn'
  have hwk : ∀ i ∈ (fullSymmetry n).keys, Within i [n, n] := by
    intro i hi
    obtain ⟨p, hp, rfl⟩ := List.mem_map.1 hi
    obtain ⟨a, c, hc, ha, rfl⟩ := mem_fullSymmetry.1 hp
    exact within_pair.2 ⟨ha, by omega⟩
  have hnd := fullSymmetry_keys_nodup n
  obtain ⟨hall, hkey, honto⟩ := C55_numbering hB
  obtain ⟨sh, hs', hb1, -⟩ := C55_reference_size hB hnd hwk
  have hcount : 2 * count = n * (n + 1) := by
    obtain ⟨-, hc, -⟩ := tensor_facts hB.good
    have h3 := count_add_keys hnd hwk
    rw [← hc] at h3
    have h4 := fullSymmetry_length n
    have h5 : prodNat [n, n] = n * n := by simp [prodNat]
    have e : n * (n + 1) = n * n + n := by ring
    omega
  have swap : ∀ i j, i < n → j < n → number.get? [i, j] = number.get? [min i j, max i j] := by
    intro i j hi hj
    by_cases hlt : j < i
    · rw [hkey [i, j] [j, i] (within_pair.2 ⟨hi, hj⟩)
        (by rw [fullSymmetry_get?, if_pos ⟨hlt, hi⟩]), Nat.min_eq_right (by omega),
        Nat.max_eq_left (by omega)]
    · rw [Nat.min_eq_left (by omega), Nat.max_eq_right (by omega)]
  have hinj : ∀ i j i' j', i ≤ j → i' ≤ j' → j < n → j' < n →
      number.get? [i, j] = number.get? [i', j'] → i = i' ∧ j = j' := by
    intro i j i' j' h1 h2 hj hj' he
    have hw := within_pair.2 (⟨by omega, hj⟩ : i < n ∧ j < n)
    have hw' := within_pair.2 (⟨by omega, hj'⟩ : i' < n ∧ j' < n)
    obtain ⟨k, hk, hk'⟩ := hall _ hw
    obtain ⟨x, -, hx⟩ := honto k hk
    have a := hx _ hw (by rw [fullSymmetry_get?, if_neg (by omega)]) hk'
    have c := hx _ hw' (by rw [fullSymmetry_get?, if_neg (by omega)]) (by rw [← he, hk'])
    have := a.trans c.symm
    simpa using this
  refine ⟨b, number, count, m, _, sh, rfl, hcount, hs', ?_, ?_, ?_, ?_, ?_⟩
  · intro i j hi hj
    exact hall _ (within_pair.2 ⟨hi, hj⟩)
  · intro i j i' j' hi hj hi' hj'
    constructor
    · intro he
      rw [swap i j hi hj, swap i' j' hi' hj'] at he
      have := hinj _ _ _ _ (by omega) (by omega) (by omega) (by omega) he
      omega
    · rintro (⟨rfl, rfl⟩ | ⟨rfl, rfl⟩)
      · rfl
      · rw [swap i j hi hj, swap j i hj hi, Nat.min_comm, Nat.max_comm]
  · intro k hk
    obtain ⟨i, ⟨hw, -, hi⟩, -⟩ := honto k hk
    cases hw with
    | cons h1 h2 => cases h2 with
      | cons h2 h3 => cases h3; exact ⟨_, _, h1, h2, hi⟩
  · intro hn
    refine hb1 ?_
    intro h0
    have := fullSymmetry_length n
    rw [h0] at this
    have h6 : 2 * n ≤ n * n := Nat.mul_le_mul_right n hn
    simp at this
    omega
  · intro hn
    have hpos : 0 < count := by
      rcases Nat.eq_zero_or_pos count with h0 | h0
      · rw [h0] at hcount
        have : 0 < n * (n + 1) := Nat.mul_pos hn (by omega)
        omega
      · exact h0
    obtain ⟨d, hd1, hd2⟩ := C55_pullback hB hpos (by
      intro i j hw hg
      obtain ⟨a, c, hc, ha, he⟩ := mem_fullSymmetry.1 (Dict.mem_of_get?_eq_some hg)
      simp only [Prod.mk.injEq] at he
      obtain ⟨rfl, rfl⟩ := he
      refine ⟨within_pair.2 ⟨by omega, ha⟩, ?_⟩
      have e1 : rowMajor [n, n] [c, a] = c * n + a := by simp [rowMajor]
      have e2 : rowMajor [n, n] [a, c] = a * n + c := by simp [rowMajor]
      rw [e1, e2]
      have h7 : (c + 1) * n ≤ a * n := Nat.mul_le_mul_right n hc
      have h8 : (c + 1) * n = c * n + n := by ring
      omega)
    exact ⟨d, hd1, fun i j hi hj => hd2 _ (within_pair.2 ⟨hi, hj⟩)⟩

/-! ## Concrete cases and limits -/

namespace UflSymmetryCases

open UflTreeCases

example : ∃ e, mkTensor (lag 1) (some [3, 3]) .full = .ok e := ⟨_, rfl⟩
example {e : UElem} (h : mkTensor (lag 1) (some [3, 3]) .full = .ok e) :=
  C55_symmetric (lag_built 1 (.inl rfl)) h
example := C55_numbering sym_built
example := C55_reference_size sym_built (by decide)
  (by intro i hi; simp [Dict.keys] at hi; subst hi; exact within_pair.2 (by omega))

/-- A third-order tensor, symmetric in the last two indices. -/
def sym3 : Symmetry := [([0, 1, 0], [0, 0, 1]), ([1, 1, 0], [1, 0, 1])]

theorem sym3_built : ∃ b number m v, Built (.tensor b (lag 1) [2, 2, 2] sym3 number 6 m v) :=
  ⟨_, _, _, _, .tensor (shape := some [2, 2, 2]) (sym := .dict sym3) (lag_built 1 (.inl rfl))
    (by rfl)⟩

example : ∃ d, pullbackNumbers [2, 2, 2] sym3 6 = .ok (d, 6) := by
  obtain ⟨b, number, m, v, h⟩ := sym3_built
  obtain ⟨d, hd, -⟩ := C55_pullback h (by omega) (by
    intro i j hw hg
    have hm := Dict.mem_of_get?_eq_some hg
    simp only [sym3, List.mem_cons, Prod.mk.injEq, List.not_mem_nil, or_false] at hm
    rcases hm with ⟨rfl, rfl⟩ | ⟨rfl, rfl⟩
    · exact ⟨.cons (by omega) (.cons (by omega) (.cons (by omega) .nil)), by decide⟩
    · exact ⟨.cons (by omega) (.cons (by omega) (.cons (by omega) .nil)), by decide⟩)
  exact ⟨d, hd⟩

example : ∀ p ∈ sym3, p.1.length ≤ 3 ∧ Within p.1 ([2, 2, 2].take p.1.length) ∧
    Within p.2 ([2, 2, 2].take p.1.length) := by
  obtain ⟨b, number, m, v, h⟩ := sym3_built
  exact C55_bounds h

/-- An index equal to the extent is refused. -/
example : mkTensor (UflTreeCases.lag 1) (some [2, 2]) (.dict [([2, 0], [0, 1])]) = .error .valueError := by rfl

end UflSymmetryCases

open UflTreeCases in
/-- **C55** (limit). A component mapped to a later one: there are three sub-elements and
three reference values, but the pullback numbers four, and gives the two components that
should be the same different numbers. -/
theorem C55_later_index : ∃ b number m v,
    Built (.tensor b (lag 1) [2, 2] [([0, 1], [1, 0])] number 3 m v) ∧ b.shape = [3] ∧
    number.get? [0, 1] = number.get? [1, 0] ∧
    ∃ d, pullbackNumbers [2, 2] [([0, 1], [1, 0])] 3 = .ok (d, 4) ∧
      d.get? [0, 1] = some 1 ∧ d.get? [1, 0] = some 2 :=
  ⟨_, _, _, _, .tensor (shape := some [2, 2]) (sym := .dict [([0, 1], [1, 0])])
    (lag_built 1 (.inl rfl)) (by rfl), rfl, rfl, _, rfl, rfl, rfl⟩

open UflTreeCases in
/-- **C55** (limit). Keys with fewer indices than the shape pass the validation, change no
component, and make the reference size too small. -/
theorem C55_short_key : ∃ b number m v,
    Built (.tensor b (lag 1) [2, 2] [([0], [1])] number 4 m v) ∧ b.shape = [3] :=
  ⟨_, _, _, _, .tensor (shape := some [2, 2]) (sym := .dict [([0], [1])])
    (lag_built 1 (.inl rfl)) (by rfl), rfl⟩

open UflTreeCases in
/-- **C55** (limit). A component mapped to a listed component that comes later is a
`KeyError`. -/
theorem C55_chain : mkTensor (lag 1) (some [3])
    (.dict [([0], [1]), ([1], [2])]) = .error .keyError := by rfl

end FInAT.Props
