import Verif.Lemmas.DimOrder
import Verif.Lemmas.Concat
import Mathlib.Data.List.Induction

/-! # Flattening of tensor-product entities -/

namespace FInAT

open Spec

variable {ν μ : Type}

/-- `d` maps entity `e < n` of each dimension `(dim, n)` of `top` to `g dim e`. -/
def HasVals (d : EntityMap ν) (top : List (Dim × Nat)) (g : Dim → Nat → ν) : Prop :=
  (d.map Prod.fst).Perm (top.map Prod.fst) ∧
  ∀ p ∈ top, ∃ ents, (p.1, ents) ∈ d ∧ (ents.map Prod.fst).Perm (List.range p.2) ∧
    ∀ e < p.2, ents.get? e = some (g p.1 e)

theorem Covers.hasVals {d : EntityDofs} {top : List (Dim × Nat)} (h : Covers d top)
    (hn : (top.map Prod.fst).Nodup) : HasVals d top (dofsOn d) := by
  refine ⟨h.1, fun p hp => ?_⟩
  obtain ⟨ents, h1, h2, h3⟩ := Covers.get h hn hp
  refine ⟨ents, h2, h3, fun e he => ?_⟩
  obtain ⟨l, hl, _⟩ := get?_of_perm_range h3 he
  simp [dofsOn, h1, hl]

/-- Dimensions in sorted order. -/
def sortTop (top : List (Dim × Nat)) : List (Dim × Nat) := sortBy (fun a b => Dim.le a.1 b.1) top

/-- All entities of a topology in the order in which flattening visits them. -/
def entList (top : List (Dim × Nat)) : List (Dim × Nat) :=
  (sortTop top).flatMap fun p => (List.range p.2).map fun e => (p.1, e)

/-- Grouping step of flattening. -/
def groupStep (acc : Dict Nat (List ν)) (t : Nat) (vs : List ν) : Dict Nat (List ν) :=
  acc.set t (((acc.get? t).getD []) ++ vs)

/-- Closed form of the flattening dictionary before enumeration. -/
def groupTop (tops : List (Dim × Nat)) (g : Dim → Nat → ν) : Dict Nat (List ν) :=
  tops.foldl (fun acc p => groupStep acc p.1.total ((List.range p.2).map (g p.1))) []

theorem top_mem_unique {top : List (Dim × Nat)} (hn : (top.map Prod.fst).Nodup) {p q : Dim × Nat}
    (hp : p ∈ top) (hq : q ∈ top) (h : p.1 = q.1) : p = q :=
  List.inj_on_of_nodup_map hn hp hq h

theorem flattenEntities_eq {d : EntityMap ν} {top : List (Dim × Nat)} {g : Dim → Nat → ν}
    (h : HasVals d top g) (hn : (top.map Prod.fst).Nodup) :
    flattenEntities d = (sortBy (fun a b => decide (a.1 ≤ b.1)) (groupTop (sortTop top) g)).map
      fun p => (Dim.int p.1, enumFrom 0 p.2) := by
  have hdn : (d.map Prod.fst).Nodup := h.1.nodup_iff.2 hn
  -- choose the entity dictionaries
  have hd : d.Perm (top.map fun p => (p.1, (d.get? p.1).getD [])) := by
    rw [List.perm_ext_iff_of_nodup (List.Nodup.of_map _ hdn)]
    · rintro ⟨k, v⟩
      constructor
      · intro hm
        have hk := h.1.mem_iff.1 (List.mem_map_of_mem (f := Prod.fst) hm)
        obtain ⟨p, hp, hpk⟩ := List.mem_map.1 hk
        refine List.mem_map.2 ⟨p, hp, ?_⟩
        simp only at hpk
        rw [hpk, Dict.get?_eq_some_of_mem hdn hm]; rfl
      · intro hm
        obtain ⟨p, hp, hpk⟩ := List.mem_map.1 hm
        obtain ⟨ents, h1, _⟩ := h.2 p hp
        rw [Dict.get?_eq_some_of_mem hdn h1] at hpk
        cases hpk
        exact h1
    · apply List.Nodup.of_map Prod.fst
      simpa [List.map_map, Function.comp_def] using hn
  unfold flattenEntities groupTop
  simp only
  rw [sortBy_dim_congr hd hdn,
    sortBy_map (fun p : Dim × Nat => (p.1, (d.get? p.1).getD [])) (fun a b => Dim.le a.1 b.1)
      (fun a b => Dim.le a.1 b.1) (fun a b => rfl) top, List.foldl_map]
  congr 2
  apply List.foldl_ext
  intro acc p hp
  have hp' : p ∈ top := (sortBy_perm _ _).mem_iff.1 hp
  obtain ⟨ents, h1, h2, h3⟩ := h.2 p hp'
  simp only [Dict.get?_eq_some_of_mem hdn h1, Option.getD_some]
  rw [sortBy_range_items h2 h3]
  simp [groupStep, Function.comp_def]

/-! ### the grouping fold -/

theorem groupStep_keys_nodup {acc : Dict Nat (List ν)} (h : acc.keys.Nodup) (t : Nat) (vs : List ν) :
    (groupStep acc t vs).keys.Nodup := by
  unfold groupStep
  by_cases hk : t ∈ acc.keys
  · rw [Dict.keys_set _ _ _ hk]; exact h
  · rw [Dict.set_of_not_mem hk]
    simp only [Dict.keys, List.map_append, List.map_cons, List.map_nil]
    exact List.nodup_append.2 ⟨h, by simp, by simpa [Dict.keys] using fun a b hb hat => hk (by
      subst hat; exact List.mem_map_of_mem (f := Prod.fst) hb)⟩

theorem groupTop_append (l : List (Dim × Nat)) (p : Dim × Nat) (g : Dim → Nat → ν) :
    groupTop (l ++ [p]) g = groupStep (groupTop l g) p.1.total ((List.range p.2).map (g p.1)) := by
  simp [groupTop, List.foldl_append]

theorem groupTop_keys_nodup (l : List (Dim × Nat)) (g : Dim → Nat → ν) :
    (groupTop l g).keys.Nodup := by
  induction l using List.reverseRecOn with
  | nil => simp [groupTop, Dict.keys]
  | append_singleton l p ih => rw [groupTop_append]; exact groupStep_keys_nodup ih _ _

/-- The values of the entities of total dimension `t`. -/
def valsOf (l : List (Dim × Nat)) (g : Dim → Nat → ν) (t : Nat) : List ν :=
  (l.filter fun p => p.1.total = t).flatMap fun p => (List.range p.2).map (g p.1)

theorem groupTop_get? (l : List (Dim × Nat)) (g : Dim → Nat → ν) (t : Nat) :
    (groupTop l g).get? t =
      if t ∈ l.map (fun p => p.1.total) then some (valsOf l g t) else none := by
  induction l using List.reverseRecOn with
  | nil => simp [groupTop, Dict.get?]
  | append_singleton l p ih =>
    rw [groupTop_append, groupStep, Dict.get?_set]
    by_cases h : p.1.total = t
    · subst h
      simp only [if_pos, ih, List.map_append, List.mem_append, List.map_cons, List.map_nil,
        List.mem_singleton, or_true, valsOf, List.filter_append, List.flatMap_append]
      congr 2
      · split
        · rfl
        · rename_i hx
          simp only [Option.getD_none]
          symm
          rw [List.filter_eq_nil_iff.2]
          · rfl
          · intro q hq hqt
            exact hx (List.mem_map.2 ⟨q, hq, by simpa using hqt⟩)
      · simp
    · simp only [h, if_false, ih]
      have h' : ¬ t = p.1.total := fun e => h e.symm
      have hm : t ∈ (l ++ [p]).map (fun p => p.1.total) ↔ t ∈ l.map (fun p => p.1.total) := by
        rw [List.map_append, List.mem_append]; simp [h']
      simp only [hm]
      simp [valsOf, List.filter_append, h]

theorem groupTop_keys (l : List (Dim × Nat)) (g : Dim → Nat → ν) (t : Nat) :
    t ∈ (groupTop l g).keys ↔ t ∈ l.map fun p => p.1.total := by
  rw [← Dict.get?_isSome_iff, groupTop_get?]
  split
  · rename_i h; exact ⟨fun _ => h, fun _ => rfl⟩
  · rename_i h; exact ⟨fun h' => by simp at h', fun h' => absurd h' h⟩

/-! ### naturality in the values -/

theorem Dict.map_set {κ : Type} [DecidableEq κ] (f : ν → μ) (d : Dict κ ν) (k : κ) (v : ν) :
    Dict.set (d.map fun p => (p.1, f p.2)) k (f v) = (d.set k v).map fun p => (p.1, f p.2) := by
  induction d with
  | nil => rfl
  | cons a d ih =>
    obtain ⟨a, b⟩ := a
    simp only [List.map_cons, Dict.set]
    split
    · simp
    · simp [ih]

theorem Dict.map_get? {κ : Type} [DecidableEq κ] (f : ν → μ) (d : Dict κ ν) (k : κ) :
    Dict.get? (d.map fun p => (p.1, f p.2)) k = (d.get? k).map f := by
  induction d with
  | nil => rfl
  | cons a d ih =>
    obtain ⟨a, b⟩ := a
    simp only [List.map_cons, Dict.get?]
    split
    · simp
    · simp [ih]

theorem groupTop_map (f : ν → μ) (l : List (Dim × Nat)) (g : Dim → Nat → ν) :
    groupTop l (fun d e => f (g d e)) = (groupTop l g).map fun p => (p.1, p.2.map f) := by
  induction l using List.reverseRecOn with
  | nil => rfl
  | append_singleton l p ih =>
    rw [groupTop_append, groupTop_append, ih]
    unfold groupStep
    rw [← Dict.map_set (List.map f), Dict.map_get? (List.map f)]
    congr 1
    rw [List.map_append]
    congr 1
    · cases Dict.get? (groupTop l g) p.1.total <;> simp
    · simp [Function.comp_def]

/-- Entity counts after flattening do not depend on the values. -/
theorem flattenTop_eq {top : List (Dim × Nat)} (hn : (top.map Prod.fst).Nodup)
    (g : Dim → Nat → ν) :
    Cell.flattenTop top = (sortBy (fun a b => decide (a.1 ≤ b.1)) (groupTop (sortTop top) g)).map
      fun p => (Dim.int p.1, p.2.length) := by
  unfold Cell.flattenTop
  have h : HasVals (top.map fun p => (p.1, enumFrom 0 (List.replicate p.2 ()))) top fun _ _ => () := by
    refine ⟨by simp [Function.comp_def], fun p hp => ⟨_, List.mem_map.2 ⟨p, hp, rfl⟩, ?_, ?_⟩⟩
    · simp [enumFrom_keys]
    · intro e he
      rw [enumFrom_zero_get?]
      simp [he]
  rw [flattenEntities_eq h hn, groupTop_map (fun _ => ()) (sortTop top) g,
    sortBy_map (fun p : Nat × List ν => (p.1, p.2.map fun _ => ())) (fun a b => decide (a.1 ≤ b.1))
      (fun a b => decide (a.1 ≤ b.1)) (fun a b => rfl)]
  rw [List.map_map, List.map_map]
  apply List.map_congr_left
  intro p _
  have := congrArg List.length (enumFrom_keys 0 (p.2.map fun _ => ()))
  simp only [List.length_map, List.length_range] at this
  simp only [Function.comp_apply, this]

theorem hasVals_flatten {d : EntityMap ν} {top : List (Dim × Nat)} {g : Dim → Nat → ν}
    (h : HasVals d top g) (hn : (top.map Prod.fst).Nodup) (t : Nat) :
    (flattenEntities d).get? (.int t) =
      if t ∈ top.map (fun p => p.1.total) then some (enumFrom 0 (valsOf (sortTop top) g t)) else none := by
  rw [flattenEntities_eq h hn]
  have hperm := sortBy_perm (fun a b : Nat × List ν => decide (a.1 ≤ b.1)) (groupTop (sortTop top) g)
  have hnd : (Dict.keys (sortBy (fun a b : Nat × List ν => decide (a.1 ≤ b.1)) (groupTop (sortTop top) g))).Nodup :=
    (hperm.map Prod.fst).nodup_iff.2 (groupTop_keys_nodup _ _)
  have hget : ∀ (l : Dict Nat (List ν)), Dict.get? (l.map fun p => (Dim.int p.1, enumFrom 0 p.2)) (.int t)
      = (l.get? t).map (enumFrom 0) := by
    intro l
    induction l with
    | nil => rfl
    | cons a l ih =>
      obtain ⟨a, b⟩ := a
      simp only [List.map_cons, Dict.get?, Dim.int.injEq]
      split
      · simp
      · exact ih
  rw [hget]
  have hmem : t ∈ (sortTop top).map (fun p => p.1.total) ↔ t ∈ top.map (fun p => p.1.total) :=
    ((sortBy_perm _ top).map _).mem_iff
  have hg := groupTop_get? (sortTop top) g t
  by_cases ht : t ∈ top.map (fun p => p.1.total)
  · rw [if_pos (hmem.2 ht)] at hg
    rw [if_pos ht, Dict.get?_eq_some_of_mem hnd (hperm.mem_iff.2 (Dict.mem_of_get?_eq_some hg))]
    rfl
  · rw [if_neg ht]
    have : Dict.get? (sortBy (fun a b : Nat × List ν => decide (a.1 ≤ b.1)) (groupTop (sortTop top) g)) t = none := by
      rw [← Option.not_isSome_iff_eq_none, Dict.get?_isSome_iff]
      intro hk
      have : t ∈ (groupTop (sortTop top) g).keys := (hperm.map Prod.fst).mem_iff.1 hk
      exact ht (hmem.1 ((groupTop_keys _ _ _).1 this))
    rw [this]; rfl

theorem flattenTop_nodup {top : List (Dim × Nat)} (hn : (top.map Prod.fst).Nodup) :
    ((Cell.flattenTop top).map Prod.fst).Nodup := by
  rw [flattenTop_eq hn (fun _ _ => ()), List.map_map]
  have hperm := sortBy_perm (fun a b : Nat × List Unit => decide (a.1 ≤ b.1))
    (groupTop (sortTop top) fun _ _ => ())
  have hnd := (hperm.map Prod.fst).nodup_iff.2 (groupTop_keys_nodup _ _)
  have := hnd.map (f := Dim.int) (by intro a b h; cases h; rfl)
  rwa [List.map_map] at this

theorem covers_flatten {d : EntityDofs} {top : List (Dim × Nat)} (h : Covers d top)
    (hn : (top.map Prod.fst).Nodup) : Covers (flattenEntities d) (Cell.flattenTop top) := by
  rw [flattenEntities_eq (Covers.hasVals h hn) hn, flattenTop_eq hn (dofsOn d)]
  constructor
  · simp [Function.comp_def]
  · intro p hp
    obtain ⟨q, hq, rfl⟩ := List.mem_map.1 hp
    refine ⟨_, List.mem_map.2 ⟨q, hq, rfl⟩, ?_⟩
    simp [enumFrom_keys]

/-! ### partition -/

theorem groupStep_values_perm {acc : Dict Nat (List ν)} (t : Nat) (vs : List ν) :
    ((groupStep acc t vs).map Prod.snd).flatten.Perm ((acc.map Prod.snd).flatten ++ vs) := by
  unfold groupStep
  induction acc with
  | nil => simp [Dict.set, Dict.get?]
  | cons a acc ih =>
    obtain ⟨k, v⟩ := a
    simp only [Dict.set, Dict.get?]
    split
    · simp only [Option.getD_some, List.map_cons, List.flatten_cons, List.append_assoc]
      exact List.Perm.append_left _ List.perm_append_comm
    · simp only [List.map_cons, List.flatten_cons, List.append_assoc]
      exact List.Perm.append_left _ ih

theorem groupTop_values_perm (l : List (Dim × Nat)) (g : Dim → Nat → ν) :
    ((groupTop l g).map Prod.snd).flatten.Perm (l.flatMap fun p => (List.range p.2).map (g p.1)) := by
  induction l using List.reverseRecOn with
  | nil => simp [groupTop]
  | append_singleton l p ih =>
    rw [groupTop_append]
    refine (groupStep_values_perm _ _).trans ?_
    rw [List.flatMap_append]
    simpa using ih.append_right ((List.range p.2).map (g p.1))

theorem allDofs_flatten {d : EntityDofs} {top : List (Dim × Nat)} (h : Covers d top)
    (hn : (top.map Prod.fst).Nodup) : (allDofs (flattenEntities d)).Perm (allDofs d) := by
  rw [flattenEntities_eq (Covers.hasVals h hn) hn]
  unfold allDofs
  rw [List.flatMap_map]
  simp only [enumFrom_flatMap_snd]
  have h1 : ∀ l : Dict Nat (List (List Nat)), (l.flatMap fun a => a.2.flatten) =
      ((l.map Prod.snd).flatten).flatten := by
    intro l
    induction l with
    | nil => rfl
    | cons a l ih => simp [List.flatMap_cons, ih]
  rw [h1]
  have h2 : ((sortBy (fun a b => decide (a.1 ≤ b.1)) (groupTop (sortTop top) (dofsOn d))).map
      Prod.snd).flatten.Perm (top.flatMap fun p => (List.range p.2).map (dofsOn d p.1)) :=
    (((sortBy_perm _ _).map Prod.snd).flatten).trans <| (groupTop_values_perm _ _).trans <|
      (sortBy_perm _ top).flatMap_right _
  refine h2.flatten.trans ?_
  have h3 := (allDofs_perm_top h hn).symm
  simp only [List.flatMap_def] at h3 ⊢
  rw [List.flatten_flatten, List.map_map]
  exact h3

theorem partition_flatten {d : EntityDofs} {top : List (Dim × Nat)} {n : Nat} (h : Covers d top)
    (hn : (top.map Prod.fst).Nodup) (hp : Partition d n) : Partition (flattenEntities d) n :=
  (allDofs_flatten h hn).trans hp

/-! ### the unflattening map -/

/-- The body of the loop of `compute_unflattening_map` for one entity. -/
def unflattenStep (st : Dict Nat Nat × Dict (Nat × Nat) (Dim × Nat)) (x : Dim × Nat) :
    Dict Nat Nat × Dict (Nat × Nat) (Dim × Nat) :=
  let c := (st.1.get? x.1.total).getD 0
  (st.1.set x.1.total (c + 1), st.2.set (x.1.total, c) (x.1, x.2))

/-- Topology counts as a topology dictionary. -/
def topDict (top : List (Dim × Nat)) : EntityMap Unit :=
  top.map fun p => (p.1, enumFrom 0 (List.replicate p.2 ()))

theorem computeUnflatteningMap_eq (top : List (Dim × Nat)) :
    computeUnflatteningMap (topDict top) = ((entList top).foldl unflattenStep ([], [])).2 := by
  unfold computeUnflatteningMap topDict entList
  simp only
  rw [sortBy_map (fun p : Dim × Nat => (p.1, enumFrom 0 (List.replicate p.2 ())))
    (fun a b => Dim.le a.1 b.1) (fun a b => Dim.le a.1 b.1) (fun a b => rfl) top, List.foldl_map]
  have hs : sortBy (fun a b : Dim × Nat => Dim.le a.1 b.1) top = sortTop top := rfl
  rw [hs]
  generalize sortTop top = l
  congr 1
  generalize (([], []) : Dict Nat Nat × Dict (Nat × Nat) (Dim × Nat)) = st
  induction l generalizing st with
  | nil => rfl
  | cons p l ih =>
    simp only [List.foldl_cons, List.flatMap_cons, List.foldl_append, enumFrom_replicate,
      List.foldl_map, Nat.zero_add]
    simp only [enumFrom_replicate, List.foldl_map, Nat.zero_add] at ih
    rw [ih]
    rfl

theorem unflatten_inv (l : List (Dim × Nat)) (t k : Nat) :
    ((l.foldl unflattenStep ([], [])).1.get? t).getD 0 = (l.filter fun x => x.1.total = t).length ∧
    (l.foldl unflattenStep ([], [])).2.get? (t, k) = (l.filter fun x => x.1.total = t)[k]? := by
  induction l using List.reverseRecOn generalizing t k with
  | nil => simp [Dict.get?]
  | append_singleton l x ih =>
    rw [List.foldl_append, List.foldl_cons, List.foldl_nil]
    generalize l.foldl unflattenStep ([], []) = st at ih ⊢
    have h1 := (ih x.1.total 0).1
    simp only [unflattenStep, h1, Dict.get?_set]
    by_cases h : x.1.total = t
    · subst h
      refine ⟨by simp [List.filter_append], ?_⟩
      simp only [List.filter_append, List.filter_cons, decide_true, if_true, List.filter_nil]
      by_cases hk : (l.filter fun y => y.1.total = x.1.total).length = k
      · subst hk; simp
      · rw [if_neg (by simpa using hk), (ih _ k).2]
        by_cases hlt : k < (l.filter fun y => y.1.total = x.1.total).length
        · rw [List.getElem?_append_left hlt]
        · rw [List.getElem?_eq_none (by omega), List.getElem?_eq_none (by simp; omega)]
    · refine ⟨by simp [List.filter_append, h, (ih t 0).1], ?_⟩
      rw [if_neg (by simp [h]), (ih t k).2]
      simp [List.filter_append, h]

theorem computeUnflatteningMap_get? (top : List (Dim × Nat)) (t k : Nat) :
    (computeUnflatteningMap (topDict top)).get? (t, k) =
      ((entList top).filter fun x => x.1.total = t)[k]? := by
  rw [computeUnflatteningMap_eq]
  exact (unflatten_inv _ t k).2

theorem valsOf_eq (top : List (Dim × Nat)) (g : Dim → Nat → ν) (t : Nat) :
    valsOf (sortTop top) g t =
      ((entList top).filter fun x => x.1.total = t).map fun x => g x.1 x.2 := by
  unfold valsOf entList
  generalize sortTop top = l
  induction l with
  | nil => rfl
  | cons p l ih =>
    simp only [List.filter_cons, List.flatMap_cons, List.filter_append, List.map_append, ← ih]
    by_cases h : p.1.total = t
    · rw [if_pos (by simpa using h), List.flatMap_cons]
      congr 1
      rw [List.filter_map, List.filter_eq_self.2 (by intro a _; simpa using h), List.map_map]
      rfl
    · rw [if_neg (by simpa using h)]
      have : ((List.range p.2).map fun e => (p.1, e)).filter (fun x => decide (x.1.total = t)) = [] := by
        rw [List.filter_eq_nil_iff]
        intro a ha
        obtain ⟨e, _, rfl⟩ := List.mem_map.1 ha
        simpa using h
      rw [this]; rfl

/-- The dofs of a flattened entity are those of the unflattened entity. -/
theorem dofsOn_flatten {d : EntityDofs} {top : List (Dim × Nat)} (h : Covers d top)
    (hn : (top.map Prod.fst).Nodup) {t k : Nat} {x : Dim × Nat}
    (hx : (computeUnflatteningMap (topDict top)).get? (t, k) = some x) :
    dofsOn (flattenEntities d) (.int t) k = dofsOn d x.1 x.2 := by
  rw [computeUnflatteningMap_get?] at hx
  have hmem := List.mem_of_getElem? hx
  rw [List.mem_filter] at hmem
  obtain ⟨p, hp, hxp⟩ := List.mem_flatMap.1 hmem.1
  obtain ⟨e, _, rfl⟩ := List.mem_map.1 hxp
  have ht : t ∈ top.map fun p => p.1.total :=
    List.mem_map.2 ⟨p, (sortBy_perm _ _).mem_iff.1 hp, by simpa using hmem.2⟩
  unfold dofsOn
  rw [hasVals_flatten (Covers.hasVals h hn) hn, if_pos ht, Option.bind_some, enumFrom_zero_get?,
    valsOf_eq, List.getElem?_map, hx]
  rfl

theorem mem_entList {top : List (Dim × Nat)} {x : Dim × Nat} :
    x ∈ entList top ↔ ∃ n, (x.1, n) ∈ top ∧ x.2 < n := by
  unfold entList
  rw [List.mem_flatMap]
  constructor
  · rintro ⟨p, hp, hx⟩
    obtain ⟨e, he, rfl⟩ := List.mem_map.1 hx
    exact ⟨p.2, (sortBy_perm _ _).mem_iff.1 hp, List.mem_range.1 he⟩
  · rintro ⟨n, hn, hx⟩
    exact ⟨(x.1, n), (sortBy_perm _ _).mem_iff.2 hn, List.mem_map.2 ⟨x.2, List.mem_range.2 hx, rfl⟩⟩

theorem entList_nodup {top : List (Dim × Nat)} (hn : (top.map Prod.fst).Nodup) :
    (entList top).Nodup := by
  unfold entList
  have hs : ((sortTop top).map Prod.fst).Nodup := ((sortBy_perm _ top).map _).nodup_iff.2 hn
  rw [List.nodup_flatMap]
  refine ⟨fun p _ => List.nodup_range.map (by intro a b h; simpa using h), ?_⟩
  rw [List.Nodup, List.pairwise_map] at hs
  refine hs.imp ?_
  intro a b hab
  simp only [Function.onFun]
  intro x hx hy
  obtain ⟨e, _, rfl⟩ := List.mem_map.1 hx
  obtain ⟨e', _, h⟩ := List.mem_map.1 hy
  exact hab (by simpa using (congrArg Prod.fst h).symm)

/-- Every product entity is the unflattening of exactly one flat entity. -/
theorem unflatten_bijective {top : List (Dim × Nat)} (hn : (top.map Prod.fst).Nodup)
    {dim : Dim} {n e : Nat} (hd : (dim, n) ∈ top) (he : e < n) :
    ∃! tk : Nat × Nat, (computeUnflatteningMap (topDict top)).get? tk = some (dim, e) := by
  have hm : (dim, e) ∈ (entList top).filter fun x => x.1.total = dim.total :=
    List.mem_filter.2 ⟨mem_entList.2 ⟨n, hd, he⟩, by simp⟩
  obtain ⟨k, hk⟩ := List.getElem?_of_mem hm
  refine ⟨(dim.total, k), by simpa [computeUnflatteningMap_get?] using hk, ?_⟩
  rintro ⟨t', k'⟩ h'
  simp only [computeUnflatteningMap_get?] at h'
  have h2 := List.mem_of_getElem? h'
  rw [List.mem_filter] at h2
  have ht : dim.total = t' := by simpa using h2.2
  subst ht
  have hnd := (entList_nodup hn).filter fun x => decide (x.1.total = dim.total)
  have hk1 := (List.getElem?_eq_some_iff.1 hk)
  have hk2 := (List.getElem?_eq_some_iff.1 h')
  obtain ⟨hl1, e1⟩ := hk1
  obtain ⟨hl2, e2⟩ := hk2
  have := (List.Nodup.getElem_inj_iff hnd (hi := hl1) (hj := hl2)).1 (e1.trans e2.symm)
  rw [this]

end FInAT
