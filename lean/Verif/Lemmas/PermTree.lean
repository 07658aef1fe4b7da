import Verif.Model.PermTree
import Verif.Spec.Perms
import Verif.Lemmas.ElemDofs
import Verif.Lemmas.DofProps
import Mathlib.Data.List.Perm.Subperm
import Mathlib.Data.List.GetD

/-! # Entity permutations of products: closed forms -/

namespace FInAT

open Spec

/-! ## One permutation list -/

theorem forall2_lt_iff {idx shape : List Nat} : List.Forall₂ (fun i n => i < n) idx shape ↔
    idx.length = shape.length ∧ ∀ k < shape.length, idx.getD k 0 < shape.getD k 0 := by
  rw [List.forall₂_iff_get]
  refine and_congr_right fun hl => ⟨fun h k hk => ?_, fun h k h1 h2 => ?_⟩
  · have := h k (hl ▸ hk) hk
    rw [List.getD_eq_getElem _ _ (hl ▸ hk), List.getD_eq_getElem _ _ hk]; exact this
  · have := h k h2
    rw [List.getD_eq_getElem _ _ h1, List.getD_eq_getElem _ _ h2] at this; exact this

theorem scatter_length (sigma v : List Nat) : (scatter sigma v).length = sigma.length := by
  simp [scatter]

theorem scatter_getD {sigma : List Nat} (hs : sigma.Perm (List.range sigma.length)) (v : List Nat) {k : Nat}
    (hk : k < sigma.length) : (scatter sigma v).getD (sigma.getD k 0) 0 = v.getD k 0 := by
  have hm : sigma.getD k 0 < sigma.length := by
    rw [List.getD_eq_getElem _ _ hk]
    exact List.mem_range.1 (hs.mem_iff.1 (List.getElem_mem _))
  have hn : sigma.Nodup := hs.nodup_iff.2 List.nodup_range
  rw [scatter, List.getD_eq_getElem _ _ (by simpa using hm), List.getElem_map, List.getElem_range,
    List.getD_eq_getElem _ _ hk, hn.idxOf_getElem]

theorem scatter_bounds {sigma v shape : List Nat} (hs : sigma.Perm (List.range shape.length))
    (hf : ∀ k < shape.length, shape.getD (sigma.getD k 0) 0 = shape.getD k 0)
    (hv : List.Forall₂ (fun i n => i < n) v shape) :
    List.Forall₂ (fun i n => i < n) (scatter sigma v) shape := by
  have hl : sigma.length = shape.length := by simpa using hs.length_eq
  obtain ⟨h1, h2⟩ := forall2_lt_iff.1 hv
  refine forall2_lt_iff.2 ⟨by rw [scatter_length, hl], fun m hm => ?_⟩
  have hmem : m ∈ sigma := hs.mem_iff.2 (List.mem_range.2 hm)
  obtain ⟨k, hk, rfl⟩ := List.mem_iff_getElem.1 hmem
  have hs' : sigma.Perm (List.range sigma.length) := by rw [hl]; exact hs
  have := scatter_getD hs' v hk
  rw [List.getD_eq_getElem _ _ hk] at this
  rw [this]
  have h3 := hf k (hl ▸ hk)
  rw [List.getD_eq_getElem _ _ hk] at h3
  rw [h3]
  exact h2 k (hl ▸ hk)

theorem scatter_inj {sigma v w : List Nat} (hs : sigma.Perm (List.range sigma.length))
    (hv : v.length = sigma.length) (hw : w.length = sigma.length) (h : scatter sigma v = scatter sigma w) : v = w := by
  refine List.ext_getElem (hv.trans hw.symm) fun k h1 h2 => ?_
  have e1 := scatter_getD hs v (hv ▸ h1)
  have e2 := scatter_getD hs w (hv ▸ h1)
  rw [h, e2] at e1
  rw [List.getD_eq_getElem _ _ h1, List.getD_eq_getElem _ _ h2] at e1; exact e1.symm

/-- The multi-index of the new position `j`: coordinate `k` is looked up in `ps[k]`. -/
def lookups (ps : List (List Nat)) (j : List Nat) : List Nat :=
  List.zipWith (fun (p : List Nat) i => p.getD i 0) ps j

theorem lookups_bounds : ∀ {ps : List (List Nat)} {j : List Nat}, (∀ p ∈ ps, p.Perm (List.range p.length)) →
    List.Forall₂ (fun i n => i < n) j (ps.map List.length) →
    List.Forall₂ (fun i n => i < n) (lookups ps j) (ps.map List.length)
  | [], _, _, h => by cases h; exact .nil
  | p :: ps, _, hp, h => by
    cases h with
    | cons hi hr =>
      refine .cons ?_ (lookups_bounds (fun q hq => hp q (List.mem_cons_of_mem _ hq)) hr)
      simp only []
      rw [List.getD_eq_getElem _ _ hi]
      exact List.mem_range.1 ((hp p List.mem_cons_self).mem_iff.1 (List.getElem_mem _))

theorem lookups_inj : ∀ {ps : List (List Nat)} {j j' : List Nat}, (∀ p ∈ ps, p.Perm (List.range p.length)) →
    List.Forall₂ (fun i n => i < n) j (ps.map List.length) →
    List.Forall₂ (fun i n => i < n) j' (ps.map List.length) → lookups ps j = lookups ps j' → j = j'
  | [], _, _, _, h, h', _ => by cases h; cases h'; rfl
  | p :: ps, _, _, hp, h, h', he => by
    cases h with
    | cons hi hr => cases h' with
      | cons hi' hr' =>
        simp only [lookups, List.zipWith_cons_cons, List.cons.injEq] at he
        have hn : p.Nodup := (hp p List.mem_cons_self).nodup_iff.2 List.nodup_range
        rw [lookups_inj (fun q hq => hp q (List.mem_cons_of_mem _ hq)) hr hr' he.2]
        have := he.1
        rw [List.getD_eq_getElem _ _ hi, List.getD_eq_getElem _ _ hi'] at this
        rw [(List.Nodup.getElem_inj_iff hn).1 this]

theorem ndindex_nodup (shape : List Nat) : (ndindex shape).Nodup := by
  apply nodup_product
  intro l hl
  obtain ⟨n, _, rfl⟩ := List.mem_map.1 hl
  exact List.nodup_range

/-- The list built for one orientation is a permutation. -/
theorem tensorPerm_perm {sigma : List Nat} {ps : List (List Nat)} (hs : sigma.Perm (List.range ps.length))
    (hf : ∀ k < ps.length, (ps.map List.length).getD (sigma.getD k 0) 0 = (ps.map List.length).getD k 0)
    (hp : ∀ p ∈ ps, p.Perm (List.range p.length)) :
    (tensorPerm sigma ps).Perm (List.range (ps.map List.length).prod) := by
  have hs' : sigma.Perm (List.range (ps.map List.length).length) := by simpa using hs
  have hf' : ∀ k < (ps.map List.length).length,
      (ps.map List.length).getD (sigma.getD k 0) 0 = (ps.map List.length).getD k 0 := by simpa using hf
  have hl : sigma.length = ps.length := by simpa using hs.length_eq
  have hmem : ∀ j ∈ ndindex (ps.map List.length), scatter sigma (lookups ps j) ∈ ndindex (ps.map List.length) :=
    fun j hj => mem_ndindex.2 (scatter_bounds hs' hf' (lookups_bounds hp (mem_ndindex.1 hj)))
  have hlen : ∀ j ∈ ndindex (ps.map List.length), (lookups ps j).length = sigma.length := by
    intro j hj
    have := (lookups_bounds hp (mem_ndindex.1 hj)).length_eq
    rw [this, hl, List.length_map]
  have hnd : ((ndindex (ps.map List.length)).map fun j => scatter sigma (lookups ps j)).Nodup := by
    refine List.Nodup.map_on (fun j hj j' hj' he => ?_) (ndindex_nodup _)
    exact lookups_inj hp (mem_ndindex.1 hj) (mem_ndindex.1 hj')
      (scatter_inj (by rw [hl]; exact hs) (hlen j hj) (hlen j' hj') he)
  have hperm : ((ndindex (ps.map List.length)).map fun j => scatter sigma (lookups ps j)).Perm
      (ndindex (ps.map List.length)) := by
    refine (hnd.subperm fun x hx => ?_).perm_of_length_le (by simp)
    obtain ⟨j, hj, rfl⟩ := List.mem_map.1 hx
    exact hmem j hj
  have := hperm.map (ravel (ps.map List.length))
  rw [map_ravel_ndindex, List.map_map] at this
  exact this

/-- Entry of the list at the row-major number of `j`. -/
theorem tensorPerm_getElem {sigma : List Nat} {ps : List (List Nat)} {j : List Nat}
    (hj : List.Forall₂ (fun i n => i < n) j (ps.map List.length)) :
    (tensorPerm sigma ps)[ravel (ps.map List.length) j]? =
      some (ravel (ps.map List.length) (scatter sigma (lookups ps j))) := by
  rw [tensorPerm, ndindex_eq_map_unravel, List.map_map, List.getElem?_map,
    List.getElem?_range (ravel_lt hj)]
  simp [unravel_ravel hj, lookups]

/-! ## The action on products of lists -/

theorem product_eq_lookups (ls : List (List Nat)) :
    product ls = (ndindex (ls.map List.length)).map (lookups ls) := by
  have h := product_map_fn ls (fun l => List.range l.length) (fun l i => l.getD i 0)
  have h1 : (ls.map fun l => (List.range l.length).map fun i => l.getD i 0) = ls := by
    conv_rhs => rw [← List.map_id ls]
    refine List.map_congr_left fun l _ => ?_
    refine List.ext_getElem (by simp) fun i h1 h2 => ?_
    simp only [List.getElem_map, List.getElem_range, id]
    exact List.getD_eq_getElem _ _ h2
  rw [h1] at h
  rw [h]
  unfold ndindex
  rw [List.map_map]
  rfl

theorem product_getElem {ls : List (List Nat)} {j : List Nat}
    (hj : List.Forall₂ (fun i n => i < n) j (ls.map List.length)) :
    (product ls)[ravel (ls.map List.length) j]? = some (lookups ls j) := by
  rw [product_eq_lookups, ndindex_eq_map_unravel, List.map_map, List.getElem?_map, List.getElem?_range (ravel_lt hj)]
  simp [unravel_ravel hj]

theorem scatter_range {v : List Nat} {n : Nat} (h : v.length = n) : scatter (List.range n) v = v := by
  refine List.ext_getElem (by simp [scatter, h]) fun i h1 h2 => ?_
  have hi : i < n := h ▸ h2
  have hr : (List.range n).Nodup := List.nodup_range
  have : (List.range n).idxOf i = i := by
    have h3 := hr.idxOf_getElem i (by simpa using hi)
    rwa [List.getElem_range] at h3
  simp only [scatter, List.getElem_map, List.getElem_range, this]
  rw [List.getD_eq_getElem _ _ h2]

theorem lookups_act : ∀ {ps ls : List (List Nat)} {j : List Nat},
    List.Forall₂ (fun (p l : List Nat) => p.Perm (List.range l.length)) ps ls →
    List.Forall₂ (fun i n => i < n) j (ps.map List.length) →
    lookups (List.zipWith act ps ls) j = lookups ls (lookups ps j)
  | [], _, _, h, hj => by cases h; cases hj; rfl
  | p :: ps, _, _, h, hj => by
    cases h with
    | @cons _ l _ ls hp hr => cases hj with
      | @cons i _ j _ hi hjr =>
        have ih := lookups_act hr hjr
        simp only [lookups, List.zipWith_cons_cons, List.cons.injEq] at ih ⊢
        refine ⟨?_, ih⟩
        have hb : ∀ a ∈ p, a < l.length := fun a ha => List.mem_range.1 (hp.mem_iff.1 ha)
        have hact : act p l = p.map fun a => l.getD a 0 := by
          unfold act
          rw [← List.filterMap_eq_map]
          refine List.filterMap_congr fun a ha => ?_
          simp [List.getD_eq_getElem?_getD, List.getElem?_eq_getElem (hb a ha)]
        have hi' : i < p.length := hi
        rw [hact, List.getD_eq_getElem _ _ (by simpa using hi'), List.getElem_map, List.getD_eq_getElem p _ hi']

theorem act_lengths : ∀ {ps ls : List (List Nat)},
    List.Forall₂ (fun (p l : List Nat) => p.Perm (List.range l.length)) ps ls →
    ps.map List.length = ls.map List.length ∧ (List.zipWith act ps ls).map List.length = ls.map List.length
  | [], _, h => by cases h; exact ⟨rfl, rfl⟩
  | p :: ps, _, h => by
    cases h with
    | @cons _ l _ ls hp hr =>
      obtain ⟨h1, h2⟩ := act_lengths hr
      have hb : ∀ a ∈ p, a < l.length := fun a ha => List.mem_range.1 (hp.mem_iff.1 ha)
      have hl : p.length = l.length := by simpa using hp.length_eq
      have hact : (act p l).length = p.length := by
        unfold act
        clear hl hp
        induction p with
        | nil => rfl
        | cons i p ih =>
          have := hb i List.mem_cons_self
          simp [List.getElem?_eq_getElem this, ih fun j hj => hb j (List.mem_cons_of_mem _ hj)]
      simp [h1, h2, hl, hact]

/-- Without an exchange of axes the list permutes every factor by its own list. -/
theorem act_tensorPerm {ps ls : List (List Nat)}
    (h : List.Forall₂ (fun (p l : List Nat) => p.Perm (List.range l.length)) ps ls) :
    act (tensorPerm (List.range ps.length) ps) (product ls) = product (List.zipWith act ps ls) := by
  obtain ⟨h1, h2⟩ := act_lengths h
  have hp : ∀ p ∈ ps, p.Perm (List.range p.length) := by
    intro p hp
    obtain ⟨i, hi, rfl⟩ := List.mem_iff_getElem.1 hp
    have := (List.forall₂_iff_get.1 h).2 i hi (h.length_eq ▸ hi)
    simp only [List.get_eq_getElem] at this
    have hl : (ps[i]).length = _ := this.length_eq
    rw [List.length_range] at hl
    rw [hl]
    exact this
  rw [product_eq_lookups (List.zipWith act ps ls), h2, ← h1]
  rw [act, tensorPerm, List.filterMap_map]
  rw [← show List.filterMap (some ∘ lookups (List.zipWith act ps ls)) (ndindex (ps.map List.length)) =
    List.map (lookups (List.zipWith act ps ls)) (ndindex (ps.map List.length)) from
      congrFun List.filterMap_eq_map _]
  refine List.filterMap_congr fun j hj => ?_
  have hj := mem_ndindex.1 hj
  have hb := lookups_bounds hp hj
  have hlen : (lookups ps j).length = ps.length := by simpa using hb.length_eq
  simp only [Function.comp_apply]
  rw [show List.zipWith (fun (p : List Nat) i => p.getD i 0) ps j = lookups ps j from rfl, scatter_range hlen]
  rw [h1] at hb ⊢
  rw [product_getElem hb]
  exact congrArg some (lookups_act h (by rw [h1]; rw [h1] at hj; exact hj)).symm

/-- Products of identities are identities. -/
theorem tensorPerm_id (ns : List Nat) :
    tensorPerm (List.range ns.length) (ns.map List.range) = List.range ns.prod := by
  have hl : (ns.map List.range).map List.length = ns := by
    rw [List.map_map]
    conv_rhs => rw [← List.map_id ns]
    exact List.map_congr_left fun n _ => by simp
  rw [tensorPerm, hl, ← map_ravel_ndindex]
  refine List.map_congr_left fun j hj => ?_
  have hj' := mem_ndindex.1 hj
  clear hj
  have hj := hj'
  have : List.zipWith (fun (p : List Nat) i => p.getD i 0) (ns.map List.range) j = j := by
    clear hl hj
    induction hj' with
    | nil => rfl
    | cons hi _ ih => simp only [List.map_cons, List.zipWith_cons_cons, ih]; simp [hi]
  rw [this, scatter_range hj.length_eq]

/-! ## Closed form of `compose_permutations` -/

/-- Data read from one factor. -/
structure QFactor where
  top : List (Dim × Nat)
  m : PermMap
  g : Dim → Nat → Dict Dim (List Nat)

/-- The table of the factor has the entities of the factor cell. -/
structure QFactor.OK (f : QFactor) : Prop where
  vals : HasVals f.m f.top f.g
  nodup : (f.top.map Prod.fst).Nodup

/-- The orientations of the factors on the chosen factor entities. -/
def qpick (fs : List QFactor) (ps : List (Dim × Nat)) (ei : List Nat) : List (Dict Dim (List Nat)) :=
  List.zipWith (fun f (p : Dim × Nat) => f.g p.1 p.2) fs ((ps.map Prod.fst).zip ei)

theorem QFactor.OK.get {f : QFactor} (h : f.OK) {p : Dim × Nat} (hp : p ∈ f.top) :
    ∃ ents, f.m.get? p.1 = some ents ∧ sortNat ents.keys = List.range p.2 ∧
      ∀ e < p.2, ents.get? e = some (f.g p.1 e) := by
  obtain ⟨ents, h1, h2, h3⟩ := h.vals.2 p hp
  exact ⟨ents, Dict.get?_eq_some_of_mem (h.vals.1.nodup_iff.2 h.nodup) h1, sortNat_eq_range h2, h3⟩

theorem composePermsDim_eq (F : FiatPerms) (cells : List Cell) {fs : List QFactor} (hf : ∀ f ∈ fs, f.OK)
    {ps : List (Dim × Nat)} (hps : ps ∈ product (fs.map (·.top))) :
    composePermsDim F cells (fs.map (·.m)) (ps.map Prod.fst) =
      .ok (enumFrom 0 ((ndindex (ps.map Prod.snd)).map fun ei =>
        makeTensorPerms F cells (ps.map Prod.fst) (qpick fs ps ei))) := by
  have hps' : List.Forall₂ (fun p f => p ∈ f.top) ps fs := by
    have := mem_product.1 hps
    rwa [List.forall₂_map_right_iff] at this
  obtain ⟨eops, ht, hkeys, hget⟩ : ∃ eops : List (Dict Nat (Dict Dim (List Nat))),
      ((fs.map (·.m)).zip (ps.map Prod.fst)).mapM (fun p => p.1.get p.2) = .ok eops ∧
      (eops.map fun t => sortNat t.keys) = (ps.map Prod.snd).map List.range ∧
      ∀ ei, List.Forall₂ (fun i n => i < n) ei (ps.map Prod.snd) →
        (eops.zip ei).mapM (fun p => p.1.get p.2) = .ok (qpick fs ps ei) := by
    clear hps
    induction hps' with
    | nil =>
      refine ⟨[], rfl, rfl, ?_⟩
      intro ei h; cases h; rfl
    | @cons p f ps fs hp _ ih =>
      obtain ⟨eops, h1, h2, h3⟩ := ih fun f hfm => hf f (by simp [hfm])
      obtain ⟨ents, e1, e2, e3⟩ := (hf f (by simp)).get hp
      refine ⟨ents :: eops, ?_, ?_, ?_⟩
      · simp only [List.map_cons, List.zip_cons_cons, List.mapM_cons, Dict.get_eq_ok_iff.2 e1]
        rw [show List.mapM (fun p : PermMap × Dim => Dict.get p.1 p.2)
          ((List.map (fun x => x.m) fs).zip (List.map Prod.fst ps)) = .ok eops from h1]
        rfl
      · simp [h2, e2]
      · intro ei hei
        simp only [List.map_cons] at hei
        cases hei with
        | cons hi hrest =>
          rename_i i is
          simp only [List.zip_cons_cons, List.mapM_cons, Dict.get_eq_ok_iff.2 (e3 i hi)]
          rw [show List.mapM (fun p : Dict Nat (Dict Dim (List Nat)) × Nat => Dict.get p.1 p.2)
            (eops.zip is) = .ok (qpick fs ps is) from h3 _ hrest]
          rfl
  unfold composePermsDim
  rw [ht]
  simp only [Except.bind, bind, pure, Except.pure]
  rw [hkeys]
  have hnd : product ((ps.map Prod.snd).map List.range) = ndindex (ps.map Prod.snd) := rfl
  rw [hnd]
  have hmap : (ndindex (ps.map Prod.snd)).mapM (m := Except Err) (fun et => do
      let ops ← (eops.zip et).mapM fun p => p.1.get p.2
      pure (et, makeTensorPerms F cells (ps.map Prod.fst) ops)) = .ok ((ndindex (ps.map Prod.snd)).map fun ei =>
        (ei, makeTensorPerms F cells (ps.map Prod.fst) (qpick fs ps ei))) := by
    apply mapM_ok
    intro ei hei
    rw [hget ei (mem_ndindex.1 hei)]
    rfl
  simp only [bind, Except.bind, pure, Except.pure] at hmap
  rw [hmap]
  simp only []
  rw [sortBy_eq_self]
  · simp [Function.comp_def]
  · rw [List.pairwise_map]
    apply product_pairwise_lex
    intro l hl
    simp only [List.mem_map] at hl
    obtain ⟨n, _, rfl⟩ := hl
    exact List.pairwise_lt_range

theorem composePermutations_eq (F : FiatPerms) (cells : List Cell) {fs : List QFactor} (hf : ∀ f ∈ fs, f.OK)
    (hc : (cells.map fun c => c.topology.map Prod.fst) = fs.map fun f => f.top.map Prod.fst) :
    composePermutations F cells (fs.map (·.m)) =
      .ok ((product (fs.map (·.top))).map fun ps => (Dim.tup (ps.map Prod.fst),
        enumFrom 0 ((ndindex (ps.map Prod.snd)).map fun ei =>
          makeTensorPerms F cells (ps.map Prod.fst) (qpick fs ps ei)))) := by
  unfold composePermutations
  have hprod : product (fs.map fun f => f.top.map Prod.fst) =
      (product (fs.map (·.top))).map (List.map Prod.fst) := by
    rw [← product_map, List.map_map]; rfl
  rw [hc, hprod, List.foldlM_map]
  have hn : ((product (fs.map (·.top))).map fun ps => Dim.tup (ps.map Prod.fst)).Nodup := by
    have h1 : (product (fs.map fun f => f.top.map Prod.fst)).Nodup := by
      apply nodup_product
      intro l hl
      simp only [List.mem_map] at hl
      obtain ⟨f, hfm, rfl⟩ := hl
      exact (hf f hfm).nodup
    rw [hprod] at h1
    have := h1.map (f := Dim.tup) (by intro a b h; cases h; rfl)
    simpa [List.map_map, Function.comp_def] using this
  exact foldlM_set_ok (ε := Err) (ν := Dict Nat (Dict Dim (List Nat))) (κ := Dim)
    (f := fun ps => composePermsDim F cells (fs.map (·.m)) (ps.map Prod.fst))
    (g := fun ps => enumFrom 0 ((ndindex (ps.map Prod.snd)).map fun ei =>
          makeTensorPerms F cells (ps.map Prod.fst) (qpick fs ps ei)))
    (key := fun ps => Dim.tup (ps.map Prod.fst)) (l := product (fs.map (·.top)))
    (fun ps hps => composePermsDim_eq F cells hf hps) hn

/-! ## Tables -/

theorem permOn_eq (m : PermMap) (dim : Dim) (e : Nat) (o : Dim) : permOn m dim e o = (orients m dim e).get? o := by
  unfold permOn orients
  cases (m.get? dim).bind fun x => x.get? e with
  | none => rfl
  | some x => rfl

theorem _root_.FInAT.Spec.PermsFit.vals {top : List (Dim × Nat)} {d : EntityDofs} {m : PermMap} (h : PermsFit top d m)
    (hn : (top.map Prod.fst).Nodup) : HasVals m top (orients m) ∧
    ∀ dim n, (dim, n) ∈ top → ∀ k < n, (orients m dim k).keys.Nodup ∧
      ∀ q ∈ orients m dim k, q.2.Perm (List.range (dofsOn d dim k).length) := by
  have hmn : (m.map Prod.fst).Nodup := h.table.dims.nodup_iff.2 hn
  have key : ∀ p ∈ top, ∃ ents, (p.1, ents) ∈ m ∧ (ents.map Prod.fst).Perm (List.range p.2) ∧
      (∀ e < p.2, ents.get? e = some (orients m p.1 e)) ∧ ∀ q ∈ ents, q.2.keys.Nodup := by
    intro p hp
    obtain ⟨ents, h1, h2, h3⟩ := h.table.ents p hp
    refine ⟨ents, h1, h2, fun e he => ?_, h3⟩
    have hm : e ∈ ents.keys := h2.mem_iff.2 (List.mem_range.2 he)
    obtain ⟨l, hl⟩ := Option.isSome_iff_exists.1 (Dict.get?_isSome_iff.2 hm)
    rw [hl]
    simp [orients, Dict.get?_eq_some_of_mem hmn h1, hl]
  refine ⟨⟨h.table.dims, fun p hp => ?_⟩, fun dim n hd k hk => ?_⟩
  · obtain ⟨ents, h1, h2, h3, _⟩ := key p hp
    exact ⟨ents, h1, h2, h3⟩
  · obtain ⟨ents, h1, h2, h3, h4⟩ := key _ hd
    have hq := h4 _ (Dict.mem_of_get?_eq_some (h3 k hk))
    refine ⟨hq, fun q hm => h.perm dim n hd k hk q.1 q.2 ?_⟩
    rw [permOn_eq]
    exact Dict.get?_eq_some_of_mem hq hm

theorem orients_of_vals {top : List (Dim × Nat)} {m : PermMap} {g : Dim → Nat → Dict Dim (List Nat)}
    (h : HasVals m top g) (hn : (top.map Prod.fst).Nodup) {dim : Dim} {n k : Nat} (hd : (dim, n) ∈ top) (hk : k < n) :
    orients m dim k = g dim k := by
  obtain ⟨ents, h1, _, h3⟩ := h.2 _ hd
  simp [orients, Dict.get?_eq_some_of_mem (h.1.nodup_iff.2 hn) h1, h3 k hk]

theorem fit_of_vals {top : List (Dim × Nat)} {d : EntityDofs} {m : PermMap} {g : Dim → Nat → Dict Dim (List Nat)}
    (h : HasVals m top g) (hn : (top.map Prod.fst).Nodup)
    (hg : ∀ dim n, (dim, n) ∈ top → ∀ k < n, (g dim k).keys.Nodup ∧
      ∀ q ∈ g dim k, q.2.Perm (List.range (dofsOn d dim k).length)) : PermsFit top d m := by
  refine ⟨⟨h.1, fun p hp => ?_⟩, fun dim n hd k hk o p ho => ?_⟩
  · obtain ⟨ents, h1, h2, h3⟩ := h.2 p hp
    refine ⟨ents, h1, h2, fun q hq => ?_⟩
    have hlt : q.1 < p.2 := List.mem_range.1 (h2.mem_iff.1 (List.mem_map_of_mem (f := Prod.fst) hq))
    have := h3 q.1 hlt
    rw [Dict.get?_eq_some_of_mem (h2.nodup_iff.2 List.nodup_range) hq] at this
    rw [Option.some.inj this]
    exact (hg p.1 p.2 hp q.1 hlt).1
  · rw [permOn_eq, orients_of_vals h hn hd hk] at ho
    exact (hg dim n hd k hk).2 _ (Dict.mem_of_get?_eq_some ho)

/-! ## Products -/

theorem makeTensorPerms_keys {F : FiatPerms} (hF : AxesOK F) (cells : List Cell) (dims : List Dim)
    {ops : List (Dict Dim (List Nat))} (ho : ∀ d ∈ ops, d.keys.Nodup) :
    (makeTensorPerms F cells dims ops).keys.Nodup := by
  have hp : ((product ops).map fun sel => sel.map Prod.fst).Nodup := by
    rw [← product_map]
    apply nodup_product
    intro l hl
    obtain ⟨d, hd, rfl⟩ := List.mem_map.1 hl
    exact ho d hd
  unfold makeTensorPerms Dict.keys
  rw [List.map_flatMap, List.nodup_flatMap]
  refine ⟨fun ax _ => ?_, ?_⟩
  · rw [List.map_map]
    have : (Prod.fst ∘ fun sel : List (Dim × List Nat) =>
        (Dim.tup (.int ax.1 :: sel.map Prod.fst), tensorPerm ax.2 (sel.map Prod.snd))) =
        (fun os => Dim.tup (.int ax.1 :: os)) ∘ fun sel => sel.map Prod.fst := rfl
    rw [this, ← List.map_map]
    exact hp.map (by intro a b h; simpa using h)
  · have h := (hF cells dims (ops.map fun d => (d.values.headD []).length)).1
    rw [List.nodup_iff_pairwise_ne, List.pairwise_map] at h
    refine h.imp fun {a b} hab x hx hy => ?_
    simp only [List.map_map, List.mem_map, Function.comp_apply] at hx hy
    obtain ⟨s, _, rfl⟩ := hx
    obtain ⟨t, _, ht⟩ := hy
    simp only [Dim.tup.injEq, List.cons.injEq, Dim.int.injEq] at ht
    exact hab ht.1.symm

/-- When all lists of factor `k` have length `ns[k]`, the shape read off the first lists is `ns`, or there is a factor without
orientations. -/
theorem shape_of_ops {ops : List (Dict Dim (List Nat))} {ns : List Nat}
    (h : List.Forall₂ (fun (d : Dict Dim (List Nat)) n => ∀ q ∈ d, q.2.Perm (List.range n)) ops ns)
    {sel : List (Dim × List Nat)} (hs : sel ∈ product ops) :
    (ops.map fun d => (d.values.headD []).length) = ns ∧ (sel.map Prod.snd).map List.length = ns ∧
      ∀ p ∈ sel.map Prod.snd, p.Perm (List.range p.length) := by
  have hs := mem_product.1 hs
  induction h generalizing sel with
  | nil => cases hs; exact ⟨rfl, rfl, by simp⟩
  | @cons d n ops ns hd _ ih =>
    cases hs with
    | cons ha hb =>
      rename_i a sel
      obtain ⟨h1, h2, h3⟩ := ih (mem_product.2 hb) hb
      have hl : ∀ q ∈ d, q.2.length = n := fun q hq => by simpa using (hd q hq).length_eq
      refine ⟨?_, ?_, ?_⟩
      · rw [List.map_cons, h1]
        cases d with
        | nil => simp at ha
        | cons q d => simp [Dict.values, hl q (by simp)]
      · simp only [List.map_cons, h2, hl a ha]
      · intro p hp
        rcases List.mem_cons.1 hp with rfl | hp
        · rw [hl a ha]; exact hd a ha
        · exact h3 p hp

theorem makeTensorPerms_perm {F : FiatPerms} (hF : AxesOK F) (cells : List Cell) (dims : List Dim)
    {ops : List (Dict Dim (List Nat))} {ns : List Nat}
    (h : List.Forall₂ (fun (d : Dict Dim (List Nat)) n => ∀ q ∈ d, q.2.Perm (List.range n)) ops ns)
    {q : Dim × List Nat} (hq : q ∈ makeTensorPerms F cells dims ops) : q.2.Perm (List.range ns.prod) := by
  unfold makeTensorPerms at hq
  obtain ⟨ax, hax, hq⟩ := List.mem_flatMap.1 hq
  obtain ⟨sel, hsel, rfl⟩ := List.mem_map.1 hq
  obtain ⟨h1, h2, h3⟩ := shape_of_ops h hsel
  rw [h1] at hax
  obtain ⟨a1, a2⟩ := (hF cells dims ns).2 ax hax
  have hl : (sel.map Prod.snd).length = ns.length := by simp [← h2]
  have := tensorPerm_perm (sigma := ax.2) (ps := sel.map Prod.snd) (by rw [hl]; exact a1)
    (by rw [hl, h2]; exact a2) h3
  rwa [h2] at this

/-- The dictionary built for a product. -/
def composed (F : FiatPerms) (cells : List Cell) (fs : List QFactor) : PermMap :=
  (product (fs.map (·.top))).map fun ps => (Dim.tup (ps.map Prod.fst),
    enumFrom 0 ((ndindex (ps.map Prod.snd)).map fun ei =>
      makeTensorPerms F cells (ps.map Prod.fst) (qpick fs ps ei)))

theorem orients_composed (F : FiatPerms) (cells : List Cell) {fs : List QFactor}
    (hf : ∀ f ∈ fs, (f.top.map Prod.fst).Nodup) {ps : List (Dim × Nat)}
    (hps : ps ∈ product (fs.map (·.top))) {ei : List Nat}
    (hei : List.Forall₂ (fun i n => i < n) ei (ps.map Prod.snd)) :
    orients (composed F cells fs) (.tup (ps.map Prod.fst)) (ravel (ps.map Prod.snd) ei) =
      makeTensorPerms F cells (ps.map Prod.fst) (qpick fs ps ei) := by
  have hnd : (composed F cells fs).keys.Nodup := by
    have := prodTop_nodup (tops := fs.map (·.top)) (by
      intro t ht
      obtain ⟨f, hfm, rfl⟩ := List.mem_map.1 ht
      exact hf f hfm)
    simpa [Cell.prodTop, composed, Dict.keys, List.map_map, Function.comp_def] using this
  unfold orients
  rw [Dict.get?_eq_some_of_mem hnd (List.mem_map.2 ⟨ps, hps, rfl⟩), Option.bind_some,
    enumFrom_zero_get?, List.getElem?_map]
  have hlt := ravel_lt hei
  rw [ndindex_eq_map_unravel, List.getElem?_map, List.getElem?_range hlt]
  simp only [Option.map_some, Option.getD_some, unravel_ravel hei]

theorem composed_vals (F : FiatPerms) (cells : List Cell) {fs : List QFactor}
    (hf : ∀ f ∈ fs, (f.top.map Prod.fst).Nodup) :
    HasVals (composed F cells fs) (Cell.prodTop (fs.map (·.top))) (orients (composed F cells fs)) := by
  have hnd : (composed F cells fs).keys.Nodup := by
    have := prodTop_nodup (tops := fs.map (·.top)) (by
      intro t ht
      obtain ⟨f, hfm, rfl⟩ := List.mem_map.1 ht
      exact hf f hfm)
    simpa [Cell.prodTop, composed, Dict.keys, List.map_map, Function.comp_def] using this
  constructor
  · simp [Cell.prodTop, composed, List.map_map, Function.comp_def]
  · intro p hp
    simp only [Cell.prodTop, List.mem_map] at hp
    obtain ⟨ps, hps, rfl⟩ := hp
    refine ⟨_, List.mem_map.2 ⟨ps, hps, rfl⟩, by rw [enumFrom_keys]; simp [length_ndindex], fun e he => ?_⟩
    have hm : (enumFrom 0 ((ndindex (ps.map Prod.snd)).map fun ei =>
        makeTensorPerms F cells (ps.map Prod.fst) (qpick fs ps ei))).get? e ≠ none := by
      rw [enumFrom_zero_get?]
      simpa [length_ndindex] using he
    obtain ⟨v, hv⟩ := Option.ne_none_iff_exists'.1 hm
    rw [hv]
    unfold orients
    rw [Dict.get?_eq_some_of_mem hnd (List.mem_map.2 ⟨ps, hps, rfl⟩), Option.bind_some, hv]
    rfl

/-- The lists of the factors on the chosen entities are permutations of the factors' dofs there. -/
theorem factor_ops {ps : List PFactor} {ms : List PermMap}
    (hp : ∀ p ∈ ps, p.OK) (hfit : List.Forall₂ (fun (p : PFactor) m => PermsFit p.top p.d m) ps ms)
    {qs : List (Dim × Nat)} (hqs : qs ∈ product (ps.map (·.top))) {ei : List Nat}
    (hei : List.Forall₂ (fun i n => i < n) ei (qs.map Prod.snd)) :
    List.Forall₂ (fun (d : Dict Dim (List Nat)) n => d.keys.Nodup ∧ ∀ q ∈ d, q.2.Perm (List.range n))
      (List.zipWith (fun m (x : Dim × Nat) => orients m x.1 x.2) ms ((qs.map Prod.fst).zip ei))
      ((pick ps qs ei).map List.length) := by
  have hqs' := mem_product.1 hqs
  rw [List.forall₂_map_right_iff] at hqs'
  clear hqs
  induction hfit generalizing qs ei with
  | nil => cases hqs'; exact .nil
  | @cons p m ps ms h _ ih =>
    cases hqs' with
    | cons hq hqs' =>
      simp only [List.map_cons] at hei
      cases hei with
      | cons hi hei =>
        refine .cons ?_ (ih (fun q hq => hp q (by simp [hq])) hei hqs')
        exact (h.vals (hp p (by simp)).nodup).2 _ _ hq _ hi

/-- Factors with their dof tables and permutation tables. -/
theorem product_fit {F : FiatPerms} (hF : AxesOK F) (cells : List Cell) {ps : List PFactor} {ms : List PermMap}
    (hp : ∀ p ∈ ps, p.OK) (hfit : List.Forall₂ (fun (p : PFactor) m => PermsFit p.top p.d m) ps ms)
    (hc : (cells.map fun c => c.topology.map Prod.fst) = ps.map fun f => f.top.map Prod.fst)
    {m : PermMap} (hm : composePermutations F cells ms = .ok m) :
    (∀ qs ∈ product (ps.map (·.top)), ∀ ei, List.Forall₂ (fun i n => i < n) ei (qs.map Prod.snd) →
      orients m (.tup (qs.map Prod.fst)) (ravel (qs.map Prod.snd) ei) =
        makeTensorPerms F cells (qs.map Prod.fst) (List.zipWith (fun m (x : Dim × Nat) => orients m x.1 x.2) ms
          ((qs.map Prod.fst).zip ei))) ∧
    PermsFit (Cell.prodTop (ps.map (·.top)))
      ((product (ps.map (·.top))).map fun qs => (Dim.tup (qs.map Prod.fst),
        enumFrom 0 ((ndindex (qs.map Prod.snd)).map fun ei =>
          (product (pick ps qs ei)).map (ravel (ps.map (·.n)))))) m := by
  obtain ⟨fs, htop, hms, hok⟩ : ∃ fs : List QFactor, fs.map (·.top) = ps.map (·.top) ∧ fs.map (·.m) = ms ∧
      ∀ f ∈ fs, f.OK ∧ f.g = orients f.m := by
    clear hc hm
    induction hfit with
    | nil => exact ⟨[], rfl, rfl, by simp⟩
    | @cons p m ps ms h _ ih =>
      obtain ⟨fs, h1, h2, h3⟩ := ih fun q hq => hp q (by simp [hq])
      refine ⟨⟨p.top, m, orients m⟩ :: fs, by simp [h1], by simp [h2], ?_⟩
      intro f hf
      rcases List.mem_cons.1 hf with rfl | hf
      · exact ⟨⟨(h.vals (hp p (by simp)).nodup).1, (hp p (by simp)).nodup⟩, rfl⟩
      · exact h3 f hf
  have hc' : (cells.map fun c => c.topology.map Prod.fst) = fs.map fun f => f.top.map Prod.fst := by
    have h1 : (fs.map fun f => f.top.map Prod.fst) = (fs.map (·.top)).map (List.map Prod.fst) := by
      rw [List.map_map]; rfl
    have h2 : (ps.map fun f => f.top.map Prod.fst) = (ps.map (·.top)).map (List.map Prod.fst) := by
      rw [List.map_map]; rfl
    rw [hc, h1, h2, htop]
  rw [← hms, composePermutations_eq F cells (fun f hf => (hok f hf).1) hc'] at hm
  cases hm
  have hnodup : ∀ f ∈ fs, (f.top.map Prod.fst).Nodup := fun f hf => (hok f hf).1.nodup
  have hpick : ∀ qs ei, qpick fs qs ei = List.zipWith (fun m (x : Dim × Nat) => orients m x.1 x.2) ms
      ((qs.map Prod.fst).zip ei) := by
    intro qs ei
    rw [← hms, List.zipWith_map_left]
    unfold qpick
    have : ∀ (l : List (Dim × Nat)) (fs : List QFactor), (∀ f ∈ fs, f.OK ∧ f.g = orients f.m) →
        List.zipWith (fun f (p : Dim × Nat) => f.g p.1 p.2) fs l =
          List.zipWith (fun (f : QFactor) (x : Dim × Nat) => orients f.m x.1 x.2) fs l := by
      intro l fs
      induction fs generalizing l with
      | nil => intro _; rfl
      | cons f fs ih =>
        intro h
        cases l with
        | nil => rfl
        | cons x l =>
          simp only [List.zipWith_cons_cons]
          rw [ih l fun g hg => h g (by simp [hg]), (h f (by simp)).2]
    exact this _ _ hok
  have hor : ∀ qs ∈ product (ps.map (·.top)), ∀ ei, List.Forall₂ (fun i n => i < n) ei (qs.map Prod.snd) →
      orients (composed F cells fs) (.tup (qs.map Prod.fst)) (ravel (qs.map Prod.snd) ei) =
        makeTensorPerms F cells (qs.map Prod.fst) (List.zipWith (fun m (x : Dim × Nat) => orients m x.1 x.2) ms
          ((qs.map Prod.fst).zip ei)) := by
    intro qs hqs ei hei
    rw [← hpick]
    exact orients_composed F cells hnodup (by rw [htop]; exact hqs) hei
  refine ⟨hor, ?_⟩
  have hv := composed_vals F cells hnodup
  rw [htop] at hv
  have htn : ((Cell.prodTop (ps.map (·.top))).map Prod.fst).Nodup := prodTop_nodup (by
    intro t ht
    obtain ⟨f, hfm, rfl⟩ := List.mem_map.1 ht
    exact (hp f hfm).nodup)
  refine fit_of_vals hv htn fun dim n hd k hk => ?_
  simp only [Cell.prodTop, List.mem_map, Prod.mk.injEq] at hd
  obtain ⟨qs, hqs, rfl, rfl⟩ := hd
  have hei := unravel_bounds hk
  rw [← ravel_unravel hk, hor qs hqs _ hei, dofsOn_productise hp hqs hei, List.length_map, length_product]
  have hall := factor_ops hp hfit hqs hei
  refine ⟨makeTensorPerms_keys hF _ _ ?_, fun q hq =>
    makeTensorPerms_perm hF _ _ (hall.imp fun _ _ h => h.2) hq⟩
  intro d hd
  obtain ⟨i, hi, rfl⟩ := List.mem_iff_getElem.1 hd
  exact ((List.forall₂_iff_get.1 hall).2 i hi (hall.length_eq ▸ hi)).1

/-! ## Flattening -/

/-- The orientations of one entity after flattening. -/
def flatOrients (f : Dim → Dim) (d : Dict Dim (List Nat)) : Dict Dim (List Nat) :=
  d.foldl (fun acc r => acc.set (f r.1) r.2) []

theorem keys_set_nodup {κ ν : Type} [DecidableEq κ] {d : Dict κ ν} (h : d.keys.Nodup) (k : κ) (v : ν) :
    (d.set k v).keys.Nodup := by
  by_cases hk : k ∈ d.keys
  · rw [Dict.keys_set d k v hk]; exact h
  · rw [Dict.set_of_not_mem hk]
    simp only [Dict.keys, List.map_append, List.map_cons, List.map_nil]
    exact List.nodup_append.2 ⟨h, by simp, by
      intro a ha b hb
      simp only [List.mem_singleton] at hb
      subst hb
      rintro rfl
      exact hk ha⟩

theorem mem_set {κ ν : Type} [DecidableEq κ] {d : Dict κ ν} {k : κ} {v : ν} {q : κ × ν} (h : q ∈ d.set k v) :
    q ∈ d ∨ q = (k, v) := by
  induction d with
  | nil => right; simpa [Dict.set] using h
  | cons a d ih =>
    obtain ⟨a, b⟩ := a
    simp only [Dict.set] at h
    split at h
    · rename_i hk
      rcases List.mem_cons.1 h with rfl | h
      · right; rw [hk]
      · left; simp [h]
    · rcases List.mem_cons.1 h with rfl | h
      · left; simp
      · rcases ih h with h | h
        · left; simp [h]
        · right; exact h

theorem flatOrients_spec (f : Dim → Dim) (d : Dict Dim (List Nat)) : (flatOrients f d).keys.Nodup ∧
    ∀ q ∈ flatOrients f d, ∃ r ∈ d, q = (f r.1, r.2) := by
  unfold flatOrients
  have : ∀ (l : Dict Dim (List Nat)) (acc : Dict Dim (List Nat)), acc.keys.Nodup →
      (∀ q ∈ acc, ∃ r ∈ d, q = (f r.1, r.2)) → (∀ r ∈ l, r ∈ d) →
      (l.foldl (fun acc r => acc.set (f r.1) r.2) acc).keys.Nodup ∧
      ∀ q ∈ l.foldl (fun acc r => acc.set (f r.1) r.2) acc, ∃ r ∈ d, q = (f r.1, r.2) := by
    intro l
    induction l with
    | nil => intro acc h1 h2 _; exact ⟨h1, h2⟩
    | cons r l ih =>
      intro acc h1 h2 h3
      refine ih _ (keys_set_nodup h1 _ _) (fun q hq => ?_) fun r' hr' => h3 r' (by simp [hr'])
      rcases mem_set hq with hq | rfl
      · exact h2 q hq
      · exact ⟨r, h3 r (by simp), rfl⟩
  exact this d [] (by simp [Dict.keys]) (by simp) fun _ h => h

/-- When different orientations stay different, the flattened entity has the same permutations. -/
theorem flatOrients_inj {f : Dim → Dim} {d : Dict Dim (List Nat)} (hd : d.keys.Nodup)
    (hf : ∀ a ∈ d.keys, ∀ b ∈ d.keys, f a = f b → a = b) :
    flatOrients f d = d.map fun r => (f r.1, r.2) := by
  unfold flatOrients
  have : ∀ (l : Dict Dim (List Nat)) (acc : Dict Dim (List Nat)), (acc.keys ++ l.keys.map f).Nodup →
      l.foldl (fun acc r => acc.set (f r.1) r.2) acc = acc ++ l.map fun r => (f r.1, r.2) := by
    intro l
    induction l with
    | nil => intro acc _; simp
    | cons r l ih =>
      intro acc h
      simp only [Dict.keys, List.map_cons] at h
      have hr : f r.1 ∉ acc.keys := by
        intro hm
        exact (List.nodup_append.1 h).2.2 _ hm _ (by simp) rfl
      rw [List.foldl_cons, Dict.set_of_not_mem hr, ih]
      · simp
      · simpa [Dict.keys, List.append_assoc] using h
  have := this d [] (by simpa [Dict.keys] using List.Nodup.map_on hf hd)
  simpa using this

theorem flatten_fit (F : FiatPerms) {top : List (Dim × Nat)} {d : EntityDofs} {m : PermMap}
    (hn : (top.map Prod.fst).Nodup) (hd : Covers d top) (h : PermsFit top d m) :
    (∀ t k x, (computeUnflatteningMap (topDict top)).get? (t, k) = some x →
      orients (flattenPermutations F m) (.int t) k = flatOrients (F.flat x.1) (orients m x.1 x.2)) ∧
    PermsFit (Cell.flattenTop top) (flattenEntities d) (flattenPermutations F m) := by
  obtain ⟨hv, hq⟩ := h.vals hn
  have hv' : HasVals (m.map fun p => (p.1, p.2.map fun q => (q.1, flatOrients (F.flat p.1) q.2))) top
      (fun dim e => flatOrients (F.flat dim) (orients m dim e)) := by
    refine ⟨by rw [List.map_map]; exact hv.1, fun p hp => ?_⟩
    obtain ⟨ents, h1, h2, h3⟩ := hv.2 p hp
    refine ⟨_, List.mem_map.2 ⟨_, h1, rfl⟩, by rw [List.map_map]; exact h2, fun e he => ?_⟩
    rw [Dict.map_get? (flatOrients (F.flat p.1)), h3 e he]
    rfl
  have hor : ∀ t k x, (computeUnflatteningMap (topDict top)).get? (t, k) = some x →
      orients (flattenPermutations F m) (.int t) k = flatOrients (F.flat x.1) (orients m x.1 x.2) := by
    intro t k x hx
    rw [computeUnflatteningMap_get?] at hx
    have hmem := List.mem_of_getElem? hx
    rw [List.mem_filter] at hmem
    obtain ⟨p, hp, hxp⟩ := List.mem_flatMap.1 hmem.1
    obtain ⟨e, _, rfl⟩ := List.mem_map.1 hxp
    have ht : t ∈ top.map fun p => p.1.total :=
      List.mem_map.2 ⟨p, (sortBy_perm _ _).mem_iff.1 hp, by simpa using hmem.2⟩
    unfold orients
    have hfl : flattenPermutations F m = flattenEntities (m.map fun p =>
        (p.1, p.2.map fun q => (q.1, flatOrients (F.flat p.1) q.2))) := rfl
    have := hasVals_flatten hv' hn t
    rw [if_pos ht] at this
    rw [hfl, this]
    rw [Option.bind_some, enumFrom_zero_get?, valsOf_eq, List.getElem?_map, hx]
    rfl
  refine ⟨hor, ?_⟩
  have hcov := covers_flatten hd hn
  -- the flattened table has the flattened entities
  have htab : ((flattenPermutations F m).map Prod.fst).Perm ((Cell.flattenTop top).map Prod.fst) ∧
      ∀ p ∈ Cell.flattenTop top, ∃ ents, (p.1, ents) ∈ flattenPermutations F m ∧
        (ents.map Prod.fst).Perm (List.range p.2) := by
    rw [show flattenPermutations F m = flattenEntities (m.map fun p =>
        (p.1, p.2.map fun q => (q.1, flatOrients (F.flat p.1) q.2))) from rfl,
      flattenEntities_eq hv' hn, flattenTop_eq hn (fun dim e => flatOrients (F.flat dim) (orients m dim e))]
    constructor
    · simp [Function.comp_def]
    · intro p hp
      obtain ⟨q, hq, rfl⟩ := List.mem_map.1 hp
      refine ⟨_, List.mem_map.2 ⟨q, hq, rfl⟩, ?_⟩
      simp [enumFrom_keys]
  have hfn := flattenTop_nodup hn
  have hmn := htab.1.nodup_iff.2 hfn
  have hvals : HasVals (flattenPermutations F m) (Cell.flattenTop top) (orients (flattenPermutations F m)) := by
    refine ⟨htab.1, fun p hp => ?_⟩
    obtain ⟨ents, h1, h2⟩ := htab.2 p hp
    refine ⟨ents, h1, h2, fun e he => ?_⟩
    obtain ⟨l, hl⟩ := Option.isSome_iff_exists.1 (Dict.get?_isSome_iff.2 (h2.mem_iff.2 (List.mem_range.2 he)))
    rw [hl]
    simp [orients, Dict.get?_eq_some_of_mem hmn h1, hl]
  refine fit_of_vals hvals hfn fun dim n hdn k hk => ?_
  -- the entity comes from an entity of the product
  obtain ⟨t, x, rfl, hx⟩ : ∃ t x, dim = .int t ∧ (computeUnflatteningMap (topDict top)).get? (t, k) = some x := by
    have hft := hdn
    rw [flattenTop_eq hn (fun dim e => (dim, e))] at hft
    obtain ⟨q, hq', he⟩ := List.mem_map.1 hft
    simp only [Prod.mk.injEq] at he
    obtain ⟨rfl, rfl⟩ := he
    have hg := (sortBy_perm _ _).mem_iff.1 hq'
    have hg := Dict.get?_eq_some_of_mem (groupTop_keys_nodup _ _) hg
    rw [groupTop_get?] at hg
    split at hg
    · have hg := Option.some.inj hg
      rw [valsOf_eq] at hg
      rw [← hg] at hk
      simp only [List.length_map] at hk
      refine ⟨q.1, ((entList top).filter fun x => x.1.total = q.1)[k], rfl, ?_⟩
      rw [computeUnflatteningMap_get?, List.getElem?_eq_getElem hk]
    · cases hg
  rw [hor t k x hx, dofsOn_flatten hd hn hx]
  have hxm : ∃ n, (x.1, n) ∈ top ∧ x.2 < n := by
    rw [computeUnflatteningMap_get?] at hx
    have := List.mem_of_getElem? hx
    rw [List.mem_filter] at this
    exact mem_entList.1 this.1
  obtain ⟨n', hn', hlt⟩ := hxm
  obtain ⟨s1, s2⟩ := flatOrients_spec (F.flat x.1) (orients m x.1 x.2)
  refine ⟨s1, fun q hqm => ?_⟩
  obtain ⟨r, hr, rfl⟩ := s2 q hqm
  exact (hq _ _ hn' _ hlt).2 r hr

/-! ## Concatenation -/

/-- `d` has exactly the keys in `K`, each once, with values in `V`. -/
def RowTab {κ ν : Type} [DecidableEq κ] (K : κ → Prop) (V : κ → ν → Prop) (d : Dict κ ν) : Prop :=
  d.keys.Nodup ∧ (∀ k, k ∈ d.keys ↔ K k) ∧ ∀ k v, d.get? k = some v → V k v

theorem mem_keys_set {κ ν : Type} [DecidableEq κ] (d : Dict κ ν) (k k' : κ) (v : ν) :
    k' ∈ (d.set k v).keys ↔ k' ∈ d.keys ∨ k' = k := by
  rw [← Dict.get?_isSome_iff, ← Dict.get?_isSome_iff, Dict.get?_set]
  by_cases h : k = k'
  · simp [h]
  · simp [h, Ne.symm h]

theorem tab_foldl {κ ν μ : Type} [DecidableEq κ] {K : κ → Prop} {V : κ → ν → Prop} {V' : κ → μ → Prop}
    {f : Option ν → μ → ν} {d : Dict κ μ} {acc : Dict κ ν} (hd : RowTab K V' d) (ha : RowTab K V acc ∨ acc = [])
    (hf : ∀ k v old, V' k v → (old = none ∨ ∃ w, old = some w ∧ V k w) → V k (f old v)) :
    RowTab K V (d.foldl (fun acc q => acc.set q.1 (f (acc.get? q.1) q.2)) acc) := by
  have ha1 : acc.keys.Nodup := by rcases ha with h | rfl; exact h.1; simp [Dict.keys]
  have ha2 : ∀ k, k ∈ acc.keys → K k := by
    rcases ha with h | rfl
    · exact fun k => (h.2.1 k).1
    · simp [Dict.keys]
  have ha3 : ∀ k v, acc.get? k = some v → V k v := by
    rcases ha with h | rfl
    · exact h.2.2
    · simp [Dict.get?]
  have hdK : ∀ q ∈ d, K q.1 ∧ V' q.1 q.2 := fun q hq =>
    ⟨(hd.2.1 _).1 (List.mem_map_of_mem (f := Prod.fst) hq), hd.2.2 _ _ (Dict.get?_eq_some_of_mem hd.1 hq)⟩
  have main : ∀ (l : Dict κ μ) (acc : Dict κ ν), (∀ q ∈ l, K q.1 ∧ V' q.1 q.2) → acc.keys.Nodup →
      (∀ k, k ∈ acc.keys → K k) → (∀ k v, acc.get? k = some v → V k v) →
      (l.foldl (fun acc q => acc.set q.1 (f (acc.get? q.1) q.2)) acc).keys.Nodup ∧
      (∀ k, k ∈ (l.foldl (fun acc q => acc.set q.1 (f (acc.get? q.1) q.2)) acc).keys → K k) ∧
      (∀ k, k ∈ acc.keys ∨ k ∈ l.keys → k ∈ (l.foldl (fun acc q => acc.set q.1 (f (acc.get? q.1) q.2)) acc).keys) ∧
      ∀ k v, (l.foldl (fun acc q => acc.set q.1 (f (acc.get? q.1) q.2)) acc).get? k = some v → V k v := by
    intro l
    induction l with
    | nil => intro acc _ h1 h2 h3; exact ⟨h1, h2, fun k hk => by simpa [Dict.keys] using hk, h3⟩
    | cons q l ih =>
      intro acc hl h1 h2 h3
      obtain ⟨i1, i2, i3, i4⟩ := ih (acc.set q.1 (f (acc.get? q.1) q.2)) (fun r hr => hl r (by simp [hr]))
        (keys_set_nodup h1 _ _)
        (fun k hk => by
          rcases (mem_keys_set _ _ _ _).1 hk with hk | rfl
          · exact h2 k hk
          · exact (hl q (by simp)).1)
        (fun k v hk => by
          rw [Dict.get?_set] at hk
          split at hk
          · rename_i hkq
            cases hk
            subst hkq
            refine hf _ _ _ (hl q (by simp)).2 ?_
            cases ho : acc.get? q.1 with
            | none => exact .inl rfl
            | some w => exact .inr ⟨w, rfl, h3 _ _ ho⟩
          · exact h3 k v hk)
      refine ⟨i1, i2, fun k hk => i3 k ?_, i4⟩
      simp only [Dict.keys, List.map_cons, List.mem_cons] at hk
      rcases hk with hk | rfl | hk
      · exact .inl ((mem_keys_set _ _ _ _).2 (.inl hk))
      · exact .inl ((mem_keys_set _ _ _ _).2 (.inr rfl))
      · exact .inr hk
  obtain ⟨m1, m2, m3, m4⟩ := main d acc hdK ha1 ha2 ha3
  exact ⟨m1, fun k => ⟨m2 k, fun hk => m3 k (.inr ((hd.2.1 k).2 hk))⟩, m4⟩

theorem permTable_iff {top : List (Dim × Nat)} (hn : (top.map Prod.fst).Nodup) (m : PermMap) :
    PermTable top m ↔ RowTab (· ∈ top.map Prod.fst) (fun dim ents => ∀ n, (dim, n) ∈ top →
      RowTab (· < n) (fun _ (os : Dict Dim (List Nat)) => os.keys.Nodup) ents) m := by
  constructor
  · intro h
    have hm : m.keys.Nodup := h.dims.nodup_iff.2 hn
    refine ⟨hm, fun k => h.dims.mem_iff, fun dim ents he n hd => ?_⟩
    obtain ⟨ents', h1, h2, h3⟩ := h.ents _ hd
    rw [Dict.get?_eq_some_of_mem hm h1] at he
    cases he
    exact ⟨h2.nodup_iff.2 List.nodup_range, fun k => by rw [Dict.keys, h2.mem_iff, List.mem_range],
      fun k v hk => h3 _ (Dict.mem_of_get?_eq_some hk)⟩
  · rintro ⟨h1, h2, h3⟩
    refine ⟨(List.perm_ext_iff_of_nodup h1 hn).2 h2, fun p hp => ?_⟩
    obtain ⟨ents, he⟩ := Option.isSome_iff_exists.1
      (Dict.get?_isSome_iff.2 ((h2 p.1).2 (List.mem_map_of_mem (f := Prod.fst) hp)))
    obtain ⟨g1, g2, g3⟩ := h3 p.1 ents he p.2 hp
    exact ⟨ents, Dict.mem_of_get?_eq_some he,
      (List.perm_ext_iff_of_nodup g1 List.nodup_range).2 fun k => by rw [List.mem_range]; exact g2 k,
      fun q hq => g3 q.1 q.2 (Dict.get?_eq_some_of_mem g1 hq)⟩

theorem concatOrientations_keys {acc d : Dict Dim (List Nat)} (h : acc.keys.Nodup) :
    (concatOrientations acc d).keys.Nodup := by
  unfold concatOrientations
  induction d generalizing acc with
  | nil => exact h
  | cons q d ih => exact ih (keys_set_nodup h _ _)

/-- The concatenation of tables for a cell is a table for this cell. -/
theorem concat_table {top : List (Dim × Nat)} (hn : (top.map Prod.fst).Nodup) {ds : List PermMap} (hne : ds ≠ [])
    (h : ∀ d ∈ ds, PermTable top d) : PermTable top (concatenateEntityPermutations ds) := by
  have step : ∀ (acc d : PermMap), PermTable top d → (PermTable top acc ∨ acc = []) →
      PermTable top (concatDimPerms acc d) := by
    intro acc d hd ha
    rw [permTable_iff hn] at hd ha ⊢
    unfold concatDimPerms
    refine tab_foldl (f := fun old v => concatEntityPerms (old.getD []) v) hd ha fun dim ents old he ho n hdn => ?_
    unfold concatEntityPerms
    refine tab_foldl (f := fun old v => concatOrientations (old.getD []) v) (he n hdn) ?_ fun k v o hv ho => ?_
    · rcases ho with rfl | ⟨w, rfl, hw⟩
      · right; rfl
      · left; exact hw n hdn
    · refine concatOrientations_keys ?_
      rcases ho with rfl | ⟨w, rfl, hw⟩
      · simp [Dict.keys]
      · exact hw
  unfold concatenateEntityPermutations
  cases ds with
  | nil => exact absurd rfl hne
  | cons d ds =>
    simp only [List.foldl_cons]
    have h0 := step [] d (h d (by simp)) (.inr rfl)
    have : ∀ (l : List PermMap) (acc : PermMap), (∀ d ∈ l, PermTable top d) → PermTable top acc →
        PermTable top (l.foldl concatDimPerms acc) := by
      intro l
      induction l with
      | nil => intro acc _ h; exact h
      | cons d l ih =>
        intro acc hl ha
        exact ih _ (fun e he => hl e (by simp [he])) (step acc d (hl d (by simp)) (.inl ha))
    exact this ds _ (fun e he => h e (by simp [he])) h0

theorem PermTable.dictKeys {top : List (Dim × Nat)} (hn : (top.map Prod.fst).Nodup) {m : PermMap}
    (h : PermTable top m) : DictKeys m := by
  obtain ⟨h1, h2, h3⟩ := (permTable_iff hn m).1 h
  refine ⟨h1, fun x hx => ?_⟩
  obtain ⟨p, hp, hpx⟩ := List.mem_map.1 ((h2 x.1).1 (List.mem_map_of_mem (f := Prod.fst) hx))
  obtain ⟨g1, _, g3⟩ := h3 x.1 x.2 (Dict.get?_eq_some_of_mem h1 hx) p.2 (by rw [← hpx]; exact hp)
  exact ⟨g1, fun y hy => g3 y.1 y.2 (Dict.get?_eq_some_of_mem g1 hy)⟩

end FInAT
