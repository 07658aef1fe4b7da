import Verif.Lemmas.Flatten

/-! # Vector-valued, discontinuous and quadrature layouts; cell topologies -/

namespace FInAT

open Spec

/-! ### cell topologies -/

theorem binom_eq_zero : ∀ {n k : Nat}, n < k → binom n k = 0
  | _, 0, h => absurd h (by omega)
  | 0, k + 1, _ => rfl
  | n + 1, k + 1, h => by
    simp [binom, binom_eq_zero (n := n) (k := k) (by omega), binom_eq_zero (n := n) (k := k + 1) (by omega)]

theorem binom_self : ∀ n : Nat, binom n n = 1
  | 0 => rfl
  | n + 1 => by simp [binom, binom_self n, binom_eq_zero (n := n) (k := n + 1) (by omega)]

theorem prodTop_nodup {tops : List (List (Dim × Nat))} (h : ∀ t ∈ tops, (t.map Prod.fst).Nodup) :
    ((Cell.prodTop tops).map Prod.fst).Nodup := by
  unfold Cell.prodTop
  rw [List.map_map]
  have h1 : (product (tops.map (List.map Prod.fst))).Nodup := nodup_product (by
    intro l hl
    obtain ⟨t, ht, rfl⟩ := List.mem_map.1 hl
    exact h t ht)
  rw [product_map] at h1
  have := h1.map (f := Dim.tup) (by intro a b h; cases h; rfl)
  rwa [List.map_map] at this

mutual
theorem Cell.topology_nodup : ∀ c : Cell, (c.topology.map Prod.fst).Nodup
  | .simplex d => by
    simp only [topology, List.map_map]
    exact List.nodup_range.map (by intro a b h; simpa using h)
  | .quad => by decide
  | .hex => by decide
  | .prod cs => by
    simp only [topology]
    exact prodTop_nodup (Cell.topologyL_nodup cs)
theorem Cell.topologyL_nodup : ∀ cs : List Cell, ∀ t ∈ topologyL cs, (t.map Prod.fst).Nodup
  | [], t, h => by simp [topologyL] at h
  | c :: cs, t, h => by
    simp only [topologyL, List.mem_cons] at h
    rcases h with rfl | h
    · exact Cell.topology_nodup c
    · exact Cell.topologyL_nodup cs t h
end

mutual
theorem Cell.dimension_mem : ∀ c : Cell, (c.dimension, 1) ∈ c.topology
  | .simplex d => by
    simp only [topology, dimension]
    exact List.mem_map.2 ⟨d, by simp, by rw [binom_self]⟩
  | .quad => by decide
  | .hex => by decide
  | .prod cs => by
    simp only [topology, dimension, Cell.prodTop]
    obtain ⟨ps, hps, h1, h2⟩ := Cell.dimensionL_mem cs
    exact List.mem_map.2 ⟨ps, hps, by rw [h1, h2]⟩
theorem Cell.dimensionL_mem : ∀ cs : List Cell, ∃ ps ∈ product (topologyL cs),
    ps.map Prod.fst = dimensionL cs ∧ (ps.map Prod.snd).prod = 1
  | [] => ⟨[], by simp [topologyL], by simp [dimensionL]⟩
  | c :: cs => by
    obtain ⟨ps, hps, h1, h2⟩ := Cell.dimensionL_mem cs
    refine ⟨(c.dimension, 1) :: ps, ?_, by simp [dimensionL, h1], by simp [h2]⟩
    simp only [topologyL, product_cons]
    exact List.mem_flatMap.2 ⟨_, Cell.dimension_mem c, List.mem_map.2 ⟨ps, hps, rfl⟩⟩
end

mutual
theorem Cell.total_dimension : ∀ c : Cell, c.dimension.total = c.spatialDim
  | .simplex _ => rfl
  | .quad => rfl
  | .hex => rfl
  | .prod cs => Cell.totalL_dimension cs
theorem Cell.totalL_dimension : ∀ cs : List Cell, Dim.totalL (Cell.dimensionL cs) = Cell.spatialDimL cs
  | [] => rfl
  | c :: cs => by
    simp only [Cell.dimensionL, Dim.totalL, Cell.spatialDimL, Cell.total_dimension c,
      Cell.totalL_dimension cs]
end

mutual
/-- The cell is the only entity of full dimension. -/
theorem Cell.total_le : ∀ (c : Cell) (dim : Dim) (n : Nat), (dim, n) ∈ c.topology →
    dim.total ≤ c.spatialDim ∧ (dim.total = c.spatialDim → dim = c.dimension)
  | .simplex d, dim, n, h => by
    simp only [Cell.topology, List.mem_map, List.mem_range, Prod.mk.injEq] at h
    obtain ⟨k, hk, rfl, _⟩ := h
    simp only [Dim.total, Cell.spatialDim, Cell.dimension, Dim.int.injEq]
    omega
  | .quad, dim, n, h => by
    have : ∀ p ∈ Cell.quad.topology, p.1.total ≤ 2 ∧ (p.1.total = 2 → p.1 = .int 2) := by decide
    exact this _ h
  | .hex, dim, n, h => by
    have : ∀ p ∈ Cell.hex.topology, p.1.total ≤ 3 ∧ (p.1.total = 3 → p.1 = .int 3) := by decide
    exact this _ h
  | .prod cs, dim, n, h => by
    simp only [Cell.topology, Cell.prodTop, List.mem_map, Prod.mk.injEq] at h
    obtain ⟨ps, hps, rfl, _⟩ := h
    have := Cell.totalL_le cs ps hps
    simp only [Dim.total, Cell.spatialDim, Cell.dimension, Dim.tup.injEq]
    exact this
theorem Cell.totalL_le : ∀ (cs : List Cell) (ps : List (Dim × Nat)), ps ∈ product (Cell.topologyL cs) →
    Dim.totalL (ps.map Prod.fst) ≤ Cell.spatialDimL cs ∧
    (Dim.totalL (ps.map Prod.fst) = Cell.spatialDimL cs → ps.map Prod.fst = Cell.dimensionL cs)
  | [], ps, h => by
    simp only [Cell.topologyL, product_nil, List.mem_singleton] at h
    subst h
    simp [Cell.dimensionL, Dim.totalL]
  | c :: cs, ps, h => by
    simp only [Cell.topologyL, product_cons, List.mem_flatMap, List.mem_map] at h
    obtain ⟨p, hp, qs, hqs, rfl⟩ := h
    have h1 := Cell.total_le c p.1 p.2 hp
    have h2 := Cell.totalL_le cs qs hqs
    simp only [List.map_cons, Dim.totalL, Cell.spatialDimL, Cell.dimensionL, List.cons.injEq]
    refine ⟨by omega, fun he => ⟨h1.2 (by omega), h2.2 (by omega)⟩⟩
end

/-! ### discontinuous and quadrature -/

theorem discontinuousDofs_eq {top : List (Dim × Nat)} (hn : (top.map Prod.fst).Nodup) {dim : Dim}
    (hd : (dim, 1) ∈ top) (n : Nat) :
    discontinuousDofs top dim n =
      .ok (build top fun d e => if d = dim ∧ e = 0 then List.range n else []) := by
  unfold discontinuousDofs
  rw [emptyDofs_eq_build, addDofs_build hn _ hd (by simp)]
  simp

theorem quadratureDofs_eq {top : List (Dim × Nat)} (hn : (top.map Prod.fst).Nodup) {dim : Dim}
    (hd : (dim, 1) ∈ top) (n : Nat) :
    quadratureDofs top dim n = build top fun d e => if d = dim ∧ e = 0 then List.range n else [] := by
  unfold quadratureDofs
  rw [emptyDofs_eq_build]
  unfold build
  rw [set_map_key (key := Prod.fst) hn hd]
  apply List.map_congr_left
  intro p hp
  by_cases h : p.1 = dim
  · have := top_mem_unique hn hp hd h
    subst this
    simp
  · simp [h]

theorem partition_interior {top : List (Dim × Nat)} (hn : (top.map Prod.fst).Nodup) {dim : Dim}
    (hd : (dim, 1) ∈ top) (n : Nat) :
    Partition (build top fun d e => if d = dim ∧ e = 0 then List.range n else []) n := by
  unfold Partition
  rw [build_allDofs]
  obtain ⟨l1, l2, rfl⟩ := List.append_of_mem hd
  have hz : ∀ l : List (Dim × Nat), (∀ p ∈ l, p.1 ≠ dim) →
      (l.flatMap fun p => (List.range p.2).flatMap fun e =>
        if p.1 = dim ∧ e = 0 then List.range n else []) = [] := by
    intro l hl
    rw [List.flatMap_eq_nil_iff]
    intro p hp
    rw [List.flatMap_eq_nil_iff]
    intro e _
    simp [hl p hp]
  simp only [List.map_append, List.map_cons, List.nodup_append, List.nodup_cons] at hn
  rw [List.flatMap_append, List.flatMap_cons, hz l1, hz l2]
  · simp [List.range_succ]
  · intro p hp h
    exact hn.2.1.1 (h ▸ List.mem_map_of_mem (f := Prod.fst) hp)
  · intro p hp h
    exact hn.2.2 p.1 (List.mem_map_of_mem hp) dim (by simp) h

/-! ### vector-valued -/

theorem tensorFEDofs_eq {base : EntityDofs} {top : List (Dim × Nat)} (h : Covers base top)
    (hn : (top.map Prod.fst).Nodup) (ndof sd : Nat) (tr : Bool) :
    tensorFEDofs (top.map Prod.fst) base ndof sd tr =
      .ok (top.map fun p => (p.1, ((base.get? p.1).getD []).map fun q =>
        (q.1, expandDofs tr ndof sd q.2))) := by
  unfold tensorFEDofs
  have key := foldlM_set_ok (ε := Err) (key := fun x : Dim => x)
    (f := fun dim => do
      let ents ← base.get dim
      pure (ents.map fun p => (p.1, expandDofs tr ndof sd p.2)))
    (g := fun dim => ((base.get? dim).getD []).map fun q => (q.1, expandDofs tr ndof sd q.2))
    (l := top.map Prod.fst) (by
      intro x hx
      obtain ⟨p, hp, rfl⟩ := List.mem_map.1 hx
      obtain ⟨ents, h1, _⟩ := Covers.get h hn hp
      simp only [Dict.get_eq_ok_iff.2 h1, h1]
      rfl) (by simpa [Function.comp_def] using hn)
  rw [List.map_map] at key
  refine Eq.trans ?_ key
  congr 1
  funext acc dim
  cases base.get dim <;> rfl

theorem covers_tensorFE {base : EntityDofs} {top : List (Dim × Nat)} (h : Covers base top)
    (hn : (top.map Prod.fst).Nodup) (f : List Nat → List Nat) :
    Covers (top.map fun p => (p.1, ((base.get? p.1).getD []).map fun q => (q.1, f q.2))) top := by
  constructor
  · simp [Function.comp_def]
  · intro p hp
    obtain ⟨ents, h1, _, h3⟩ := Covers.get h hn hp
    refine ⟨_, List.mem_map.2 ⟨p, hp, rfl⟩, ?_⟩
    simpa [h1, Function.comp_def] using h3

theorem dofsOn_tensorFE {base : EntityDofs} {top : List (Dim × Nat)} (h : Covers base top)
    (hn : (top.map Prod.fst).Nodup) (f : List Nat → List Nat) {p : Dim × Nat} (hp : p ∈ top)
    {e : Nat} (he : e < p.2) :
    dofsOn (top.map fun p => (p.1, ((base.get? p.1).getD []).map fun q => (q.1, f q.2))) p.1 e =
      f (dofsOn base p.1 e) := by
  have h0 := (covers_tensorFE h hn f)
  obtain ⟨ents, h1, h2, h3⟩ := Covers.get h hn hp
  have hg : Dict.get? (top.map fun p => (p.1, ((base.get? p.1).getD []).map fun q => (q.1, f q.2))) p.1
      = some (ents.map fun q => (q.1, f q.2)) := by
    apply Dict.get?_eq_some_of_mem (by simpa [Dict.keys, Function.comp_def] using hn)
    exact List.mem_map.2 ⟨p, hp, by simp [h1]⟩
  obtain ⟨l, hl, _⟩ := get?_of_perm_range h3 he
  unfold dofsOn
  rw [hg, h1, Option.bind_some, Option.bind_some, Dict.map_get?, hl]
  rfl

theorem expand_false (ndof sd : Nat) (l : List Nat) :
    expandDofs false ndof sd l = l.flatMap fun v => (List.range ndof).map (v * ndof + ·) := by
  simp only [expandDofs, Bool.false_eq_true, if_false]
  have : ∀ v : Nat, (v + 1) * ndof - v * ndof = ndof := fun v => by rw [Nat.succ_mul]; omega
  simp only [this]

theorem expand_true (ndof sd : Nat) (l : List Nat) :
    expandDofs true ndof sd l = (List.range ndof).flatMap fun i => l.map (i * sd + ·) := by
  simp only [expandDofs, if_true, Nat.add_comm]

theorem expand_flatMap {α : Type} (tr : Bool) (ndof sd : Nat) (l : List α) (f : α → List Nat) :
    (l.flatMap fun a => expandDofs tr ndof sd (f a)).Perm (expandDofs tr ndof sd (l.flatMap f)) := by
  cases tr
  · simp only [expand_false, List.flatMap_assoc]
    exact .refl _
  · simp only [expand_true]
    refine (flatMap_swap_perm _ _ _).trans ?_
    simp only [List.map_flatMap]
    exact .refl _

theorem expand_perm {tr : Bool} {ndof sd : Nat} {l l' : List Nat} (h : l.Perm l') :
    (expandDofs tr ndof sd l).Perm (expandDofs tr ndof sd l') := by
  cases tr
  · simp only [expand_false]; exact h.flatMap_right _
  · simp only [expand_true]
    exact List.Perm.flatMap_left _ fun i _ => h.map _

theorem expand_range (tr : Bool) (ndof sd : Nat) :
    expandDofs tr ndof sd (List.range sd) = List.range (sd * ndof) := by
  cases tr
  · rw [expand_false, range_mul]
  · rw [expand_true, range_mul, Nat.mul_comm]

theorem partition_tensorFE {base : EntityDofs} {top : List (Dim × Nat)} (h : Covers base top)
    (hn : (top.map Prod.fst).Nodup) {sd : Nat} (hp : Partition base sd) (ndof : Nat) (tr : Bool) :
    Partition (top.map fun p => (p.1, ((base.get? p.1).getD []).map fun q =>
        (q.1, expandDofs tr ndof sd q.2))) (sd * ndof) := by
  have hc := covers_tensorFE h hn (expandDofs tr ndof sd)
  refine (allDofs_perm_top hc hn).trans ?_
  have h1 : (top.flatMap fun p => (List.range p.2).flatMap fun e =>
      dofsOn (top.map fun p => (p.1, ((base.get? p.1).getD []).map fun q =>
        (q.1, expandDofs tr ndof sd q.2))) p.1 e) =
      top.flatMap fun p => (List.range p.2).flatMap fun e => expandDofs tr ndof sd (dofsOn base p.1 e) := by
    apply List.flatMap_congr
    intro p hpt
    apply List.flatMap_congr
    intro e he
    exact dofsOn_tensorFE h hn _ hpt (List.mem_range.1 he)
  rw [h1]
  refine (List.Perm.flatMap_left _ fun p _ => expand_flatMap tr ndof sd _ _).trans ?_
  refine (expand_flatMap tr ndof sd _ _).trans ?_
  refine (expand_perm ((allDofs_perm_top h hn).symm.trans hp)).trans ?_
  rw [expand_range]

end FInAT
