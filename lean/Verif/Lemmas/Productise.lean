import Verif.Lemmas.Monad
import Verif.Model.EntityDofs
import Verif.Spec.Dofs
import Mathlib.Data.List.Zip
import Mathlib.Data.List.Forall2

/-! # Closed form of `productise` -/

namespace FInAT

open Spec

/-- Data read from one factor of a tensor product. -/
structure PFactor where
  n : Nat
  top : List (Dim × Nat)
  d : EntityDofs

/-- The factor dictionary has the entities of the factor cell and only valid dof numbers. -/
structure PFactor.OK (f : PFactor) : Prop where
  covers : Covers f.d f.top
  nodup : (f.top.map Prod.fst).Nodup
  bound : ∀ v ∈ allDofs f.d, v < f.n

theorem Covers.get {d : EntityDofs} {top : List (Dim × Nat)} (h : Covers d top)
    (hn : (top.map Prod.fst).Nodup) {p : Dim × Nat} (hp : p ∈ top) :
    ∃ ents, d.get? p.1 = some ents ∧ (p.1, ents) ∈ d ∧ (ents.map Prod.fst).Perm (List.range p.2) := by
  obtain ⟨ents, h1, h2⟩ := h.2 p hp
  exact ⟨ents, Dict.get?_eq_some_of_mem (h.1.nodup_iff.2 hn) h1, h1, h2⟩

theorem get?_of_perm_range {ents : Dict Nat (List Nat)} {n e : Nat}
    (h : (ents.map Prod.fst).Perm (List.range n)) (he : e < n) :
    ∃ l, ents.get? e = some l ∧ (e, l) ∈ ents := by
  have hm : e ∈ ents.keys := h.mem_iff.2 (List.mem_range.2 he)
  obtain ⟨l, hl⟩ := Option.isSome_iff_exists.1 (Dict.get?_isSome_iff.2 hm)
  exact ⟨l, hl, Dict.mem_of_get?_eq_some hl⟩

theorem PFactor.OK.get {f : PFactor} (h : f.OK) {p : Dim × Nat} (hp : p ∈ f.top) :
    ∃ ents, f.d.get? p.1 = some ents ∧ sortNat ents.keys = List.range p.2 ∧
      ∀ e < p.2, ents.get? e = some (dofsOn f.d p.1 e) ∧ ∀ v ∈ dofsOn f.d p.1 e, v < f.n := by
  obtain ⟨ents, h1, h2, h3⟩ := Covers.get h.covers h.nodup hp
  refine ⟨ents, h1, sortNat_eq_range h3, fun e he => ?_⟩
  obtain ⟨l, hl, hm⟩ := get?_of_perm_range h3 he
  have hd : dofsOn f.d p.1 e = l := by simp [dofsOn, h1, hl]
  refine ⟨by rw [hd, hl], fun v hv => h.bound v ?_⟩
  rw [hd] at hv
  simp only [allDofs, List.mem_flatMap]
  exact ⟨_, h2, _, hm, hv⟩

/-- The dof lists of the factors on the chosen factor entities. -/
def pick (fs : List PFactor) (ps : List (Dim × Nat)) (ei : List Nat) : List (List Nat) :=
  List.zipWith (fun f (p : Dim × Nat) => dofsOn f.d p.1 p.2) fs ((ps.map Prod.fst).zip ei)

/-- Product of per-factor maps. -/
theorem product_map_fn {γ α β : Type _} (fs : List γ) (l : γ → List α) (g : γ → α → β) :
    product (fs.map fun f => (l f).map (g f)) =
      (product (fs.map l)).map fun x => List.zipWith g fs x := by
  induction fs with
  | nil => rfl
  | cons f fs ih =>
    simp only [List.map_cons, product_cons, ih, List.flatMap_map, List.map_flatMap, List.map_map]
    rfl

theorem productiseDim_eq {fs : List PFactor} (hf : ∀ f ∈ fs, f.OK) {ps : List (Dim × Nat)}
    (hps : ps ∈ product (fs.map (·.top))) :
    productiseDim (fs.map (·.n)) (fs.map (·.d)) (ps.map Prod.fst) =
      .ok (enumFrom 0 ((ndindex (ps.map Prod.snd)).map fun ei =>
        (product (pick fs ps ei)).map (ravel (fs.map (·.n))))) := by
  have hps' : List.Forall₂ (fun p f => p ∈ f.top) ps fs := by
    have := mem_product.1 hps
    rwa [List.forall₂_map_right_iff] at this
  -- the list of entity dictionaries
  obtain ⟨topds, ht, hkeys, hget⟩ : ∃ topds : List (Dict Nat (List Nat)),
      ((fs.map (·.d)).zip (ps.map Prod.fst)).mapM (fun p => p.1.get p.2) = .ok topds ∧
      (topds.map fun t => sortNat t.keys) = (ps.map Prod.snd).map List.range ∧
      ∀ ei, List.Forall₂ (fun i n => i < n) ei (ps.map Prod.snd) →
        (topds.zip ei).mapM (fun p => p.1.get p.2) = .ok (pick fs ps ei) ∧
        List.Forall₂ (fun l (f : PFactor) => ∀ v ∈ l, v < f.n) (pick fs ps ei) fs := by
    clear hps
    induction hps' with
    | nil =>
      refine ⟨[], rfl, rfl, ?_⟩
      intro ei h; cases h; exact ⟨rfl, .nil⟩
    | @cons p f ps fs hp _ ih =>
      obtain ⟨topds, h1, h2, h3⟩ := ih fun f hfm => hf f (by simp [hfm])
      obtain ⟨ents, e1, e2, e3⟩ := (hf f (by simp)).get hp
      refine ⟨ents :: topds, ?_, ?_, ?_⟩
      · simp only [List.map_cons, List.zip_cons_cons, List.mapM_cons, Dict.get_eq_ok_iff.2 e1]
        rw [show List.mapM (fun p : EntityDofs × Dim => Dict.get p.1 p.2)
          ((List.map (fun x => x.d) fs).zip (List.map Prod.fst ps)) = .ok topds from h1]
        rfl
      · simp [h2, e2]
      · intro ei hei
        simp only [List.map_cons] at hei
        cases hei with
        | cons hi hrest =>
          rename_i i is
          obtain ⟨g1, g2⟩ := h3 _ hrest
          obtain ⟨k1, k2⟩ := e3 i hi
          refine ⟨?_, ?_⟩
          · simp only [List.zip_cons_cons, List.mapM_cons, Dict.get_eq_ok_iff.2 k1]
            rw [show List.mapM (fun p : Dict Nat (List Nat) × Nat => Dict.get p.1 p.2)
              (topds.zip is) = .ok (pick fs ps is) from g1]
            rfl
          · exact .cons k2 g2
  unfold productiseDim
  rw [ht]
  simp only [Except.bind, bind, pure, Except.pure]
  rw [hkeys]
  have hnd : product ((ps.map Prod.snd).map List.range) = ndindex (ps.map Prod.snd) := rfl
  rw [hnd]
  have hmap : (ndindex (ps.map Prod.snd)).mapM (m := Except Err) (fun ei => do
      let lists ← (topds.zip ei).mapM fun p => p.1.get p.2
      let vs ← (product lists).mapM fun t => ravelMultiIndex t (fs.map (·.n))
      pure (ei, vs)) = .ok ((ndindex (ps.map Prod.snd)).map fun ei =>
        (ei, (product (pick fs ps ei)).map (ravel (fs.map (·.n))))) := by
    apply mapM_ok
    intro ei hei
    obtain ⟨h1, h2⟩ := hget ei (mem_ndindex.1 hei)
    rw [h1]
    simp only [bind, Except.bind]
    rw [mapM_ok (g := ravel (fs.map (·.n)))]
    · rfl
    · intro t ht
      have hb : inBounds (fs.map (·.n)) t = true := by
        rw [inBounds_iff, List.forall₂_map_right_iff]
        have ht := mem_product.1 ht
        clear h1 hei
        revert ht
        generalize pick fs ps ei = ls at h2
        intro ht
        clear * - h2 ht
        induction h2 generalizing t with
        | nil => cases ht; exact .nil
        | cons h _ ih => cases ht with
          | cons ha hb => exact .cons (h _ ha) (ih _ hb)
      simp [ravelMultiIndex, hb]
  simp only [bind, Except.bind, pure, Except.pure] at hmap
  rw [hmap]
  simp only []
  rw [sortBy_eq_self]
  · simp [Function.comp_def]
  · rw [List.pairwise_map]
    have hp : (ndindex (ps.map Prod.snd)).Pairwise fun a b => lexLe a b = true ∧ a ≠ b := by
      have h1 : (ndindex (ps.map Prod.snd)).Pairwise fun a b => lexLe a b = true := by
        apply product_pairwise_lex
        intro l hl
        simp only [List.mem_map] at hl
        obtain ⟨n, _, rfl⟩ := hl
        exact List.pairwise_lt_range
      have h2 : (ndindex (ps.map Prod.snd)).Nodup := by
        apply nodup_product
        intro l hl
        simp only [List.mem_map] at hl
        obtain ⟨n, _, rfl⟩ := hl
        exact List.nodup_range
      exact h1.and h2
    refine hp.imp ?_
    intro a b hab
    simp [pairLe, hab.1, hab.2]

/-- Closed form of `productise`. -/
theorem productise_eq {fs : List PFactor} (hf : ∀ f ∈ fs, f.OK) :
    productise (fs.map (·.n)) (fs.map fun f => f.top.map Prod.fst) (fs.map (·.d)) =
      .ok ((product (fs.map (·.top))).map fun ps => (Dim.tup (ps.map Prod.fst),
        enumFrom 0 ((ndindex (ps.map Prod.snd)).map fun ei =>
          (product (pick fs ps ei)).map (ravel (fs.map (·.n)))))) := by
  unfold productise
  have hprod : product (fs.map fun f => f.top.map Prod.fst) =
      (product (fs.map (·.top))).map (List.map Prod.fst) := by
    rw [← product_map, List.map_map]; rfl
  rw [hprod, List.foldlM_map]
  have hn : ((product (fs.map (·.top))).map fun ps => Dim.tup (ps.map Prod.fst)).Nodup := by
    have h1 : (product (fs.map fun f => f.top.map Prod.fst)).Nodup := by
      apply nodup_product
      intro l hl
      simp only [List.mem_map] at hl
      obtain ⟨f, hfm, rfl⟩ := hl
      exact (hf f hfm).nodup
    rw [hprod] at h1
    have := h1.map (f := Dim.tup) (by intro a b h; cases h; rfl)
    simpa [List.map_map, Function.comp_def] using this
  have := foldlM_set_ok (ε := Err) (ν := Dict Nat (List Nat)) (κ := Dim)
    (f := fun ps => productiseDim (fs.map (·.n)) (fs.map (·.d)) (ps.map Prod.fst))
    (g := fun ps => enumFrom 0 ((ndindex (ps.map Prod.snd)).map fun ei =>
          (product (pick fs ps ei)).map (ravel (fs.map (·.n)))))
    (key := fun ps => Dim.tup (ps.map Prod.fst)) (l := product (fs.map (·.top)))
    (fun ps hps => productiseDim_eq hf hps) hn
  exact this

/-- The dofs of a factor, entity by entity in topology order. -/
theorem allDofs_perm_top {d : EntityDofs} {top : List (Dim × Nat)} (h : Covers d top)
    (hn : (top.map Prod.fst).Nodup) :
    (allDofs d).Perm (top.flatMap fun p => (List.range p.2).flatMap fun e => dofsOn d p.1 e) := by
  have hdn : d.keys.Nodup := h.1.nodup_iff.2 hn
  -- reorder the outer dictionary
  have h1 : d.Perm (top.map fun p => (p.1, ((d.get? p.1).getD []))) := by
    rw [List.perm_ext_iff_of_nodup (List.Nodup.of_map _ hdn)]
    · rintro ⟨k, v⟩
      constructor
      · intro hm
        have hk : k ∈ top.map Prod.fst := h.1.mem_iff.1 (List.mem_map_of_mem (f := Prod.fst) hm)
        obtain ⟨p, hp, rfl⟩ := List.mem_map.1 hk
        exact List.mem_map.2 ⟨p, hp, by simp [Dict.get?_eq_some_of_mem hdn hm]⟩
      · intro hm
        obtain ⟨p, hp, he⟩ := List.mem_map.1 hm
        obtain ⟨ents, e1, e2, _⟩ := Covers.get h hn hp
        simp only [Prod.mk.injEq] at he
        obtain ⟨rfl, rfl⟩ := he
        simpa [e1] using e2
    · apply List.Nodup.of_map Prod.fst
      simpa [List.map_map, Function.comp_def] using hn
  unfold allDofs
  refine (List.Perm.flatMap_right _ h1).trans ?_
  rw [List.flatMap_map]
  refine List.Perm.flatMap_left _ fun p hp => ?_
  obtain ⟨ents, e1, e2, e3⟩ := Covers.get h hn hp
  simp only [e1, Option.getD_some]
  have hen : ents.keys.Nodup := e3.nodup_iff.2 List.nodup_range
  have h2 : ents.Perm ((List.range p.2).map fun e => (e, dofsOn d p.1 e)) := by
    rw [List.perm_ext_iff_of_nodup (List.Nodup.of_map _ hen)]
    · rintro ⟨k, v⟩
      constructor
      · intro hm
        have hk : k ∈ List.range p.2 := e3.mem_iff.1 (List.mem_map_of_mem (f := Prod.fst) hm)
        exact List.mem_map.2 ⟨k, hk, by simp [dofsOn, e1, Dict.get?_eq_some_of_mem hen hm]⟩
      · intro hm
        obtain ⟨e, he, heq⟩ := List.mem_map.1 hm
        obtain ⟨l, hl, hml⟩ := get?_of_perm_range e3 (List.mem_range.1 he)
        simp only [Prod.mk.injEq] at heq
        obtain ⟨rfl, rfl⟩ := heq
        simpa [dofsOn, e1, hl] using hml
    · apply List.Nodup.of_map Prod.fst
      simpa [List.map_map, Function.comp_def] using List.nodup_range
  refine (List.Perm.flatMap_right _ h2).trans ?_
  rw [List.flatMap_map]

theorem flatMap_flatten_eq {α β : Type _} (l : List α) (f : α → List (List β)) :
    (l.flatMap f).flatten = l.flatMap fun a => (f a).flatten := by
  induction l with
  | nil => rfl
  | cons a l ih => simp [ih]

theorem product_pick (fs : List PFactor) (ps : List (Dim × Nat)) (hlen : ps.length = fs.length) :
    product (List.zipWith (fun (f : PFactor) (p : Dim × Nat) =>
      (List.range p.2).map fun e => dofsOn f.d p.1 e) fs ps) =
    (ndindex (ps.map Prod.snd)).map fun ei => pick fs ps ei := by
  induction fs generalizing ps with
  | nil => cases ps with
    | nil => rfl
    | cons => simp at hlen
  | cons f fs ih =>
    cases ps with
    | nil => simp at hlen
    | cons p ps =>
      have := ih ps (by simpa using hlen)
      simp only [ndindex] at this
      simp only [List.zipWith_cons_cons, product_cons, this, ndindex, List.map_cons,
        List.flatMap_map, List.map_flatMap, List.map_map]
      rfl

theorem enumFrom_flatMap_snd {β : Type} (s : Nat) (l : List (List β)) :
    ((enumFrom s l).flatMap fun q => q.2) = l.flatten := by
  induction l generalizing s with
  | nil => rfl
  | cons a l ih => simp [enumFrom, ih]

/-- All dofs of the product are the raveled tuples of factor dofs. -/
theorem allDofs_productise {fs : List PFactor} (hf : ∀ f ∈ fs, f.OK) :
    (allDofs ((product (fs.map (·.top))).map fun ps => (Dim.tup (ps.map Prod.fst),
        enumFrom 0 ((ndindex (ps.map Prod.snd)).map fun ei =>
          (product (pick fs ps ei)).map (ravel (fs.map (·.n))))))).Perm
      ((product (fs.map fun f => allDofs f.d)).map (ravel (fs.map (·.n)))) := by
  -- right-hand side
  have hR : (product (fs.map fun f => allDofs f.d)).Perm
      ((product (fs.map (·.top))).flatMap fun ps => (ndindex (ps.map Prod.snd)).flatMap fun ei =>
        product (pick fs ps ei)) := by
    have s1 : (product (fs.map fun f => allDofs f.d)).Perm
        (product ((fs.map fun f => f.top.map fun p =>
          (List.range p.2).map fun e => dofsOn f.d p.1 e).map fun L => (L.map List.flatten).flatten)) := by
      apply product_perm
      rw [List.map_map, List.forall₂_map_left_iff, List.forall₂_map_right_iff, List.forall₂_same]
      intro f hfm
      refine (allDofs_perm_top (hf f hfm).covers (hf f hfm).nodup).trans ?_
      simp [List.flatMap_def, Function.comp_def]
    refine s1.trans ?_
    have s2 := product_flatten ((fs.map fun f => f.top.map fun p =>
          (List.range p.2).map fun e => dofsOn f.d p.1 e).map fun L => L.map List.flatten)
    rw [List.map_map] at s2
    refine s2.trans ?_
    -- product of per-factor maps
    rw [show ((fs.map fun f => f.top.map fun p =>
          (List.range p.2).map fun e => dofsOn f.d p.1 e).map fun L => L.map List.flatten) =
        fs.map fun f => f.top.map fun p => ((List.range p.2).map fun e => dofsOn f.d p.1 e).flatten by
      simp [List.map_map, Function.comp_def]]
    rw [product_map_fn, List.flatMap_map]
    refine List.Perm.flatMap_left _ fun ps hps => ?_
    have hlen : ps.length = fs.length := by
      simpa using length_of_mem_product hps
    -- inner product
    have s3 := product_flatten (List.zipWith (fun (f : PFactor) (p : Dim × Nat) =>
      (List.range p.2).map fun e => dofsOn f.d p.1 e) fs ps)
    rw [List.map_zipWith] at s3
    refine s3.trans ?_
    have s4 : product (List.zipWith (fun (f : PFactor) (p : Dim × Nat) =>
        (List.range p.2).map fun e => dofsOn f.d p.1 e) fs ps) =
        (ndindex (ps.map Prod.snd)).map fun ei => pick fs ps ei :=
      product_pick fs ps hlen
    rw [s4, List.flatMap_map]
  refine List.Perm.trans ?_ (hR.map _).symm
  simp only [allDofs, List.flatMap_map, List.map_flatMap, enumFrom_flatMap_snd]
  refine List.Perm.of_eq ?_
  congr 1

/-- The product dictionary has the entities of the product cell. -/
theorem covers_productise (fs : List PFactor) :
    Covers ((product (fs.map (·.top))).map fun ps => (Dim.tup (ps.map Prod.fst),
        enumFrom 0 ((ndindex (ps.map Prod.snd)).map fun ei =>
          (product (pick fs ps ei)).map (ravel (fs.map (·.n))))))
      (Cell.prodTop (fs.map (·.top))) := by
  constructor
  · simp [Cell.prodTop, List.map_map, Function.comp_def]
  · intro p hp
    simp only [Cell.prodTop, List.mem_map] at hp
    obtain ⟨ps, hps, rfl⟩ := hp
    refine ⟨_, List.mem_map.2 ⟨ps, hps, rfl⟩, ?_⟩
    rw [enumFrom_keys]
    simp [length_ndindex]

theorem partition_productise {fs : List PFactor} (hf : ∀ f ∈ fs, f.OK)
    (hp : ∀ f ∈ fs, Partition f.d f.n) :
    Partition ((product (fs.map (·.top))).map fun ps => (Dim.tup (ps.map Prod.fst),
        enumFrom 0 ((ndindex (ps.map Prod.snd)).map fun ei =>
          (product (pick fs ps ei)).map (ravel (fs.map (·.n))))))
      (fs.map (·.n)).prod := by
  unfold Partition
  refine (allDofs_productise hf).trans ?_
  rw [← map_ravel_ndindex]
  apply List.Perm.map
  unfold ndindex
  apply product_perm
  rw [List.map_map, List.forall₂_map_left_iff, List.forall₂_map_right_iff, List.forall₂_same]
  exact hp

end FInAT
