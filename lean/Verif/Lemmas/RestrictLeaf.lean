import Verif.Lemmas.Attached2

/-! # Restriction of FIAT leaves -/

namespace FInAT

open Spec

variable {K : Type} [CommRing K]

theorem range_append_map (c m n : Nat) : (List.range (m + n)).map (c + ·) =
    (List.range m).map (c + ·) ++ (List.range n).map (c + m + ·) := by
  rw [List.range_add, List.map_append, List.map_map]
  congr 1
  apply List.map_congr_left
  intro k _
  simp only [Function.comp_def]
  omega

theorem renumberEnts_keys (ind : List Nat) : ∀ (ents : Dict Nat (List Nat)) (c : Nat),
    (renumberEnts ind ents c).1.map Prod.fst = ents.map Prod.fst
  | [], c => rfl
  | (e, l) :: ents, c => by
    simp only [renumberEnts, List.map_cons]
    rw [renumberEnts_keys]

theorem renumberEnts_count (ind : List Nat) : ∀ (ents : Dict Nat (List Nat)) (c : Nat),
    (renumberEnts ind ents c).2.2 = c + (renumberEnts ind ents c).2.1.length
  | [], c => rfl
  | (e, l) :: ents, c => by
    simp only [renumberEnts]
    rw [renumberEnts_count ind ents, List.length_append]
    omega

theorem renumberEnts_dofs (ind : List Nat) : ∀ (ents : Dict Nat (List Nat)) (c : Nat),
    ((renumberEnts ind ents c).1.flatMap fun q => q.2) =
      (List.range (renumberEnts ind ents c).2.1.length).map (c + ·)
  | [], c => rfl
  | (e, l) :: ents, c => by
    simp only [renumberEnts, List.flatMap_cons, List.length_append]
    rw [renumberEnts_dofs ind ents, range_append_map]

theorem renumberEnts_vals {β : Type _} (ind : List Nat) (F F' : Nat → β) : ∀ (ents : Dict Nat (List Nat)) (c : Nat),
    (∀ (j : Nat) (h : j < (renumberEnts ind ents c).2.1.length), F' (c + j) = F (renumberEnts ind ents c).2.1[j]) →
    ∀ k, (((renumberEnts ind ents c).1.get? k).getD []).map F' =
      (((ents.get? k).getD []).filter fun v => decide (v ∈ ind)).map F
  | [], c, _, k => by simp [renumberEnts, Dict.get?]
  | (e, l) :: ents, c, hF, k => by
    simp only [renumberEnts, Dict.get?]
    split
    · simp only [Option.getD_some, List.map_map]
      apply List.ext_getElem
      · simp
      · intro j h1 h2
        simp only [List.getElem_map, List.getElem_range, Function.comp_def]
        have h3 : j < (l.filter fun v => decide (v ∈ ind)).length := by simpa using h2
        rw [hF j (by simp only [renumberEnts, List.length_append]; omega)]
        simp only [renumberEnts]
        rw [List.getElem_append_left h3]
    · apply renumberEnts_vals ind F F' ents
      intro j h
      have := hF ((l.filter fun v => decide (v ∈ ind)).length + j) (by
        simp only [renumberEnts, List.length_append]; omega)
      rw [Nat.add_assoc, this]
      simp only [renumberEnts]
      rw [List.getElem_append_right (by omega)]
      simp

theorem renumber_keys (ind : List Nat) : ∀ (d : EntityDofs) (c : Nat),
    (renumber ind d c).1.map Prod.fst = d.map Prod.fst
  | [], c => rfl
  | (D, ents) :: d, c => by
    simp only [renumber, List.map_cons]
    rw [renumber_keys]

theorem renumber_count (ind : List Nat) : ∀ (d : EntityDofs) (c : Nat),
    (renumber ind d c).2.2 = c + (renumber ind d c).2.1.length
  | [], c => rfl
  | (D, ents) :: d, c => by
    simp only [renumber]
    rw [renumber_count ind d, List.length_append, renumberEnts_count]
    omega

theorem renumber_allDofs (ind : List Nat) : ∀ (d : EntityDofs) (c : Nat),
    allDofs (renumber ind d c).1 = (List.range (renumber ind d c).2.1.length).map (c + ·)
  | [], c => rfl
  | (D, ents) :: d, c => by
    have ih := renumber_allDofs ind d (renumberEnts ind ents c).2.2
    unfold allDofs at ih ⊢
    simp only [renumber, List.flatMap_cons, List.length_append]
    rw [ih, renumberEnts_dofs, range_append_map, renumberEnts_count]

theorem renumber_mem (ind : List Nat) : ∀ (d : EntityDofs) (c : Nat) (D : Dim) (ents : Dict Nat (List Nat)),
    (D, ents) ∈ d → ∃ ents', (D, ents') ∈ (renumber ind d c).1 ∧ ents'.map Prod.fst = ents.map Prod.fst
  | [], _, D, ents, h => by simp at h
  | (D', ents0) :: d, c, D, ents, h => by
    simp only [renumber]
    rcases List.mem_cons.1 h with h | h
    · cases h
      exact ⟨_, List.mem_cons_self, renumberEnts_keys _ _ _⟩
    · obtain ⟨ents', h1, h2⟩ := renumber_mem ind d (renumberEnts ind ents0 c).2.2 D ents h
      exact ⟨ents', by simp [h1], h2⟩

theorem renumber_vals {β : Type _} (ind : List Nat) (F F' : Nat → β) : ∀ (d : EntityDofs) (c : Nat),
    (∀ (j : Nat) (h : j < (renumber ind d c).2.1.length), F' (c + j) = F (renumber ind d c).2.1[j]) →
    ∀ D k, (dofsOn (renumber ind d c).1 D k).map F' =
      ((dofsOn d D k).filter fun v => decide (v ∈ ind)).map F
  | [], c, _, D, k => by simp [renumber, dofsOn, Dict.get?]
  | (D', ents) :: d, c, hF, D, k => by
    have ih := renumber_vals ind F F' d (renumberEnts ind ents c).2.2 (by
      intro j h
      have := hF ((renumberEnts ind ents c).2.1.length + j) (by
        simp only [renumber, List.length_append]; omega)
      conv_lhs => rw [renumberEnts_count, Nat.add_assoc, this]
      simp only [renumber]
      rw [List.getElem_append_right (by omega)]
      simp only [Nat.add_sub_cancel_left]
      ) D k
    unfold dofsOn at ih ⊢
    simp only [renumber, Dict.get?]
    split
    · simp only [Option.bind_some]
      apply renumberEnts_vals
      intro j h
      rw [hF j (by simp only [renumber, List.length_append]; omega)]
      simp only [renumber]
      rw [List.getElem_append_left h]
    · exact ih

/-- The kept dofs are dofs. -/
theorem renumberEnts_sub (ind : List Nat) : ∀ (ents : Dict Nat (List Nat)) (c : Nat),
    ∀ v ∈ (renumberEnts ind ents c).2.1, v ∈ ents.flatMap fun q => q.2
  | [], c, v, h => by simp [renumberEnts] at h
  | (e, l) :: ents, c, v, h => by
    simp only [renumberEnts, List.mem_append, List.mem_filter] at h
    simp only [List.flatMap_cons, List.mem_append]
    rcases h with h | h
    · exact .inl h.1
    · exact .inr (renumberEnts_sub ind ents _ v h)

theorem renumber_sub (ind : List Nat) : ∀ (d : EntityDofs) (c : Nat),
    ∀ v ∈ (renumber ind d c).2.1, v ∈ allDofs d
  | [], c, v, h => by simp [renumber] at h
  | (D, ents) :: d, c, v, h => by
    simp only [renumber, List.mem_append] at h
    simp only [allDofs, List.flatMap_cons, List.mem_append]
    rcases h with h | h
    · exact .inl (renumberEnts_sub ind ents _ v h)
    · exact .inr (renumber_sub ind d _ v h)

/-! ### the indices -/

theorem mem_dofsOfDim {d : EntityDofs} {top : List (Dim × Nat)} (hcov : Covers d top)
    (hn : (top.map Prod.fst).Nodup) {D : Dim} {n : Nat} (hD : (D, n) ∈ top) :
    ∃ l, dofsOfDim d D = .ok l ∧ ∀ v, v ∈ l ↔ ∃ k < n, v ∈ dofsOn d D k := by
  obtain ⟨ents, h1, h2, h3⟩ := Covers.get hcov hn hD
  refine ⟨_, by simp only [dofsOfDim, Dict.get_eq_ok_iff.2 h1, bind, Except.bind, pure, Except.pure]; rfl, ?_⟩
  intro v
  rw [List.mem_flatMap]
  constructor
  · rintro ⟨q, hq, hv⟩
    have hq := (sortBy_perm _ _).mem_iff.1 hq
    have hk : q.1 < n := List.mem_range.1 (h3.mem_iff.1 (List.mem_map_of_mem hq))
    refine ⟨q.1, hk, ?_⟩
    have hg := Dict.get?_eq_some_of_mem (h3.nodup_iff.2 List.nodup_range) (k := q.1) (v := q.2) hq
    simpa [dofsOn, h1, hg] using hv
  · rintro ⟨k, hk, hv⟩
    obtain ⟨l, hl, hm⟩ := get?_of_perm_range h3 hk
    refine ⟨(k, l), (sortBy_perm _ _).mem_iff.2 hm, ?_⟩
    simpa [dofsOn, h1, hl] using hv

/-- A dof is on entities of one dimension only. -/
theorem dim_unique {d : EntityDofs} {c : Cell} {n : Nat} (hcov : Covers d c.topology) (hp : Partition d n)
    {E F : Dim × Nat} (hE : E ∈ entities c) (hF : F ∈ entities c) {v : Nat}
    (h1 : v ∈ dofsOn d E.1 E.2) (h2 : v ∈ dofsOn d F.1 F.2) : E = F := by
  have hperm := (allDofs_perm_top hcov c.topology_nodup).symm.trans hp
  have hnd := hperm.nodup_iff.2 List.nodup_range
  have hnd' : ((entities c).flatMap fun E => dofsOn d E.1 E.2).Nodup := by
    unfold entities
    rw [List.flatMap_assoc]
    simpa only [List.flatMap_map] using hnd
  rw [List.nodup_flatMap] at hnd'
  by_contra hne
  have hsym : ∀ x ∈ entities c, ∀ y ∈ entities c, x ≠ y →
      List.Disjoint (dofsOn d x.1 x.2) (dofsOn d y.1 y.2) := by
    have : Std.Symm (Function.onFun List.Disjoint (fun E : Dim × Nat => dofsOn d E.1 E.2)) :=
      ⟨fun _ _ h => List.Disjoint.symm h⟩
    intro x hx y hy hxy
    exact List.Pairwise.forall hnd'.2 hx hy hxy
  exact hsym E hE F hF hne h1 h2

theorem plain_top {c : Cell} (hp : Plain c) :
    (∀ D n, (D, n) ∈ c.topology → ∃ k, D = .int k ∧ k ≤ c.spatialDim) ∧
    (∀ k ≤ c.spatialDim, ∃ n, (Dim.int k, n) ∈ c.topology) ∧ c.dimension = .int c.spatialDim := by
  cases c with
  | simplex d =>
    refine ⟨?_, ?_, rfl⟩
    · intro D n h
      simp only [Cell.topology, List.mem_map, List.mem_range, Prod.mk.injEq] at h
      obtain ⟨k, hk, rfl, _⟩ := h
      exact ⟨k, rfl, by simp only [Cell.spatialDim]; omega⟩
    · intro k hk
      simp only [Cell.spatialDim] at hk
      exact ⟨_, List.mem_map.2 ⟨k, List.mem_range.2 (by omega), rfl⟩⟩
  | quad =>
    refine ⟨?_, ?_, rfl⟩
    · intro D n h
      have : ∀ p ∈ Cell.quad.topology, p.1 = .int 0 ∨ p.1 = .int 1 ∨ p.1 = .int 2 := by decide
      rcases this _ h with h | h | h <;> simp only at h <;> subst h <;> simp [Cell.spatialDim]
    · intro k hk
      simp only [Cell.spatialDim] at hk
      have hk' : k = 0 ∨ k = 1 ∨ k = 2 := by omega
      rcases hk' with rfl | rfl | rfl
      · exact ⟨4, by decide⟩
      · exact ⟨4, by decide⟩
      · exact ⟨1, by decide⟩
  | hex =>
    refine ⟨?_, ?_, rfl⟩
    · intro D n h
      have : ∀ p ∈ Cell.hex.topology, p.1 = .int 0 ∨ p.1 = .int 1 ∨ p.1 = .int 2 ∨ p.1 = .int 3 := by decide
      rcases this _ h with h | h | h | h <;> simp only at h <;> subst h <;> simp [Cell.spatialDim]
    · intro k hk
      simp only [Cell.spatialDim] at hk
      have hk' : k = 0 ∨ k = 1 ∨ k = 2 ∨ k = 3 := by omega
      rcases hk' with rfl | rfl | rfl | rfl
      · exact ⟨8, by decide⟩
      · exact ⟨12, by decide⟩
      · exact ⟨6, by decide⟩
      · exact ⟨1, by decide⟩
  | prod cs => exact absurd hp id

theorem dofsOfDims {l : Leaf} (hg : GoodLeaf l) (hp : Plain l.cell) : ∀ (ks : List Nat),
    (∀ k ∈ ks, k ≤ l.cell.spatialDim) →
    ∃ ls, (ks.mapM fun k => dofsOfDim l.dofs (.int k)) = .ok ls ∧
      ∀ v, v ∈ ls.flatten ↔ ∃ E ∈ entities l.cell, E.1.total ∈ ks ∧ v ∈ dofsOn l.dofs E.1 E.2
  | [], _ => ⟨[], rfl, by simp⟩
  | k :: ks, h => by
    obtain ⟨ls, h1, h2⟩ := dofsOfDims hg hp ks (fun j hj => h j (by simp [hj]))
    obtain ⟨t1, t2, _⟩ := plain_top hp
    obtain ⟨n, hn⟩ := t2 k (h k (by simp))
    obtain ⟨l', h3, h4⟩ := mem_dofsOfDim hg.1 l.cell.topology_nodup hn
    refine ⟨l' :: ls, by simp [List.mapM_cons, h3, h1, bind, Except.bind, pure, Except.pure], ?_⟩
    intro v
    simp only [List.flatten_cons, List.mem_append, h4, h2, List.mem_cons]
    constructor
    · rintro (⟨j, hj, hv⟩ | ⟨E, hE, ht, hv⟩)
      · exact ⟨(.int k, j), mem_entities.2 ⟨n, hn, hj⟩, .inl rfl, hv⟩
      · exact ⟨E, hE, .inr ht, hv⟩
    · rintro ⟨E, hE, ht | ht, hv⟩
      · left
        obtain ⟨n', hn', hlt⟩ := mem_entities.1 hE
        obtain ⟨j, hj, _⟩ := t1 _ _ hn'
        have : j = k := by rw [hj] at ht; exact ht
        rw [hj, this] at hn'
        have := top_mem_unique l.cell.topology_nodup hn hn' rfl
        simp only [Prod.mk.injEq, true_and] at this
        refine ⟨E.2, by omega, ?_⟩
        rw [hj] at hv
        rwa [‹j = k›] at hv
      · exact .inr ⟨E, hE, ht, hv⟩

/-- FIAT selects the dofs on the entities of the requested dimensions. -/
theorem fiatIndices_ok {l : Leaf} (hg : GoodLeaf l) (hp : Plain l.cell) {dom : Domain} (cl : Bool)
    (hd : DomainOK dom l.cell.spatialDim) :
    ∃ ind, fiatIndices l dom cl = .ok ind ∧ ∀ E ∈ entities l.cell, ∀ v ∈ dofsOn l.dofs E.1 E.2,
      (v ∈ ind ↔ keeps dom cl l.cell.spatialDim E.1.total = true) := by
  have key : ∀ ks : List Nat, (∀ k ∈ ks, k ≤ l.cell.spatialDim) →
      (∀ t, t ∈ ks ↔ keeps dom cl l.cell.spatialDim t = true) →
      ∃ ls, (ks.mapM fun k => dofsOfDim l.dofs (.int k)) = .ok ls ∧
      ∀ E ∈ entities l.cell, ∀ v ∈ dofsOn l.dofs E.1 E.2,
      (v ∈ ls.flatten ↔ keeps dom cl l.cell.spatialDim E.1.total = true) := by
    intro ks hks hk
    obtain ⟨ls, h1, h2⟩ := dofsOfDims hg hp ks hks
    refine ⟨ls, h1, fun E hE v hv => ?_⟩
    rw [h2, ← hk]
    constructor
    · rintro ⟨F, hF, ht, hv'⟩
      rw [dim_unique hg.1 hg.2 hE hF hv hv']
      exact ht
    · exact fun ht => ⟨E, hE, ht, hv⟩
  obtain ⟨m, hm, hmn, hmi⟩ := hd
  have upTo : dom ≠ .interior →
      ∃ ind, (if (m : Int) < 0 then Except.error Err.keyError else do
        let dims := if cl then (List.range ((m : Int).toNat + 1)).reverse else [(m : Int).toNat]
        let ls ← dims.mapM fun k => dofsOfDim l.dofs (.int k)
        pure ls.flatten) = .ok ind ∧ ∀ E ∈ entities l.cell, ∀ v ∈ dofsOn l.dofs E.1 E.2,
      (v ∈ ind ↔ keeps dom cl l.cell.spatialDim E.1.total = true) := by
    intro hni
    rw [if_neg (by omega)]
    obtain ⟨ls, h1, h2⟩ := key (if cl then (List.range ((m : Int).toNat + 1)).reverse else [(m : Int).toNat]) (by
        intro k hk
        split at hk
        · simp only [List.mem_reverse, List.mem_range] at hk; omega
        · simp only [List.mem_singleton] at hk; omega) (by
        intro t
        simp only [keeps, hm]
        cases cl with
        | true => simp [hni]
        | false => simp)
    exact ⟨_, by simp only [h1, bind, Except.bind, pure, Except.pure], h2⟩
  cases dom with
  | interior =>
    obtain ⟨ls, h1, h2⟩ := key [l.cell.spatialDim] (by simp) (by
      intro t
      simp [keeps, domainDim])
    simp only [List.mapM_cons, List.mapM_nil, bind_ok, pure, Except.pure, Except.ok.injEq] at h1
    obtain ⟨a, ha, _, rfl, rfl⟩ := h1
    refine ⟨a, ?_, ?_⟩
    · simp only [fiatIndices, (plain_top hp).2.2, ha]
    · simpa using h2
  | facet =>
    simp only [domainDim] at hm
    split at hm
    · cases hm
    · cases hm
      have := upTo (by simp)
      simp only [fiatIndices]
      rwa [show ((l.cell.spatialDim - 1 : Nat) : Int) = (l.cell.spatialDim : Int) - 1 by omega] at this
  | face => simp only [domainDim, Option.some.injEq] at hm; subst hm; exact upTo (by simp)
  | edge => simp only [domainDim, Option.some.injEq] at hm; subst hm; exact upTo (by simp)
  | vertex => simp only [domainDim, Option.some.injEq] at hm; subst hm; exact upTo (by simp)
  | other => simp [domainDim] at hm

/-! ### the restricted leaf -/

theorem restrictFiat_ok {φ : LeafVals K} (hφ : Labelled φ) {l : Leaf} (hg : GoodLeaf l) (hp : Plain l.cell)
    {dom : Domain} (cl : Bool) (hd : DomainOK dom l.cell.spatialDim) :
    ∃ r, restrictFiat l dom cl = .ok r ∧
      ((r = .null ∧ (attached φ (.leaf l)).filter
          (fun y => keeps dom cl l.cell.spatialDim y.1.1.total) = []) ∨
       ∃ l' : Leaf, r = .elem (.leaf l') ∧ GoodLeaf l' ∧ l'.cell = l.cell ∧ l'.valueShape = l.valueShape ∧
        l'.formdegree = l.formdegree ∧ l'.mapping = l.mapping ∧
        attached φ (.leaf l') = (attached φ (.leaf l)).filter
          (fun y => keeps dom cl l.cell.spatialDim y.1.1.total)) := by
  obtain ⟨ind, hi, hm⟩ := fiatIndices_ok hg hp cl hd
  have hat : attached φ (.leaf l) = (entities l.cell).flatMap fun E =>
      (dofsOn l.dofs E.1 E.2).map fun k => (E, fnOf φ (.leaf l) k) := attached_eq rfl rfl
  have hfil : (attached φ (.leaf l)).filter (fun y => keeps dom cl l.cell.spatialDim y.1.1.total) =
      (entities l.cell).flatMap fun E => ((dofsOn l.dofs E.1 E.2).filter fun v => decide (v ∈ ind)).map
        fun k => (E, fnOf φ (.leaf l) k) := by
    rw [hat, List.filter_flatMap]
    apply List.flatMap_congr
    intro E hE
    rw [List.filter_map]
    congr 1
    apply List.filter_congr
    intro v hv
    have := hm E hE v hv
    simp only [Function.comp_def]
    by_cases h : v ∈ ind
    · simp [h, this.1 h]
    · have hf : keeps dom cl l.cell.spatialDim E.1.total = false := by
        rw [Bool.eq_false_iff]; exact fun h' => h (this.2 h')
      simp [h, hf]
  by_cases he : ind = []
  · refine ⟨.null, by simp [restrictFiat, hi, he, bind, Except.bind, pure, Except.pure], .inl ⟨rfl, ?_⟩⟩
    rw [hfil, he]
    simp
  · refine ⟨_, by simp only [restrictFiat, hi, if_neg he, bind, Except.bind, pure, Except.pure],
      .inr ⟨restrictedLeaf l ind, rfl, ?_, rfl, rfl, rfl, rfl, ?_⟩⟩
    · -- a good leaf
      have hlen : ((renumber ind l.dofs 0).2.1.filterMap fun v => l.fns[v]?).length =
          (renumber ind l.dofs 0).2.1.length := by
        have : ∀ L : List Nat, (∀ v ∈ L, v < l.fns.length) →
            (L.filterMap fun v => l.fns[v]?).length = L.length := by
          intro L
          induction L with
          | nil => intro _; rfl
          | cons a L ih =>
            intro h
            have ha := h a (by simp)
            simp [List.getElem?_eq_getElem ha, ih fun v hv => h v (by simp [hv])]
        exact this _ fun v hv => List.mem_range.1 (hg.2.mem_iff.1 (renumber_sub ind l.dofs 0 v hv))
      refine ⟨⟨?_, ?_⟩, ?_⟩
      · simp only [restrictedLeaf]
        rw [renumber_keys]
        exact hg.1.1
      · intro p hp'
        obtain ⟨ents, h1, h2⟩ := hg.1.2 p hp'
        obtain ⟨ents', h3, h4⟩ := renumber_mem ind l.dofs 0 p.1 ents h1
        exact ⟨ents', h3, by rw [h4]; exact h2⟩
      · simp only [Partition, restrictedLeaf]
        rw [renumber_allDofs, hlen]
        simp
    · rw [hfil]
      refine (attached_eq (e := .leaf _) rfl rfl).trans ?_
      apply List.flatMap_congr
      intro E hE
      have hv := renumber_vals ind (fun k => fnOf φ (.leaf l) k)
        (fun k => fnOf φ (.leaf (restrictedLeaf l ind)) k) l.dofs 0 (by
        intro j hj
        obtain ⟨ψ, hψ⟩ := hφ
        funext α en x z
        simp only [fnOf, basisValue, Elem.indexShape, unravel, List.prod_nil, Nat.div_one, hψ, List.headD_cons,
          Nat.zero_add, restrictedLeaf]
        have : ∀ (L : List Nat) (j : Nat) (hj : j < L.length), (∀ v ∈ L, v < l.fns.length) →
            (L.filterMap fun v => l.fns[v]?)[j]? = l.fns[L[j]]? := by
          intro L
          induction L with
          | nil => intro j hj; simp at hj
          | cons a L ih =>
            intro j hj h
            have ha := h a (by simp)
            rw [List.filterMap_cons_some (List.getElem?_eq_getElem ha)]
            cases j with
            | zero => simp [List.getElem?_eq_getElem ha]
            | succ j => simpa using ih j (by simpa using hj) fun v hv => h v (by simp [hv])
        rw [this _ j hj fun v hv => List.mem_range.1 (hg.2.mem_iff.1 (renumber_sub ind l.dofs 0 v hv))]) E.1 E.2
      have := congrArg (List.map fun f => (E, f)) hv
      simp only [List.map_map, Function.comp_def] at this
      exact this

end FInAT
