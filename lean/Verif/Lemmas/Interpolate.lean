import Verif.Spec.Interpolate
import Verif.Lemmas.DualEval
import Verif.Lemmas.Duality
import Verif.Lemmas.Admits
import Verif.Lemmas.QuadOrient

/-!
# Interpolating finite element functions: proofs
-/

namespace FInAT

open Spec Elem Props

variable {K : Type}

/-- A point set with points of one dimension. -/
def PSet.Fits (ps : PSet K) (d : Nat) : Prop :=
  ps.dimension = .ok d ∧ ps.pts ≠ [] ∧ ∀ pt ∈ ps.pts, pt.length = d

theorem PSet.fits_of {ps : PSet K} {d : Nat} (hne : ps.pts ≠ []) (hl : ∀ pt ∈ ps.pts, pt.length = d)
    (hu : ∀ pts d i, ps ≠ .unknown pts d i) : ps.Fits d := by
  refine ⟨?_, hne, hl⟩
  obtain ⟨p, l, hp⟩ := List.exists_cons_of_ne_nil hne
  have hd := hl p (by rw [hp]; exact List.mem_cons_self)
  cases ps with
  | unknown pts d i => exact absurd rfl (hu pts d i)
  | singleton q => simp only [PSet.dimension, hp, hd]
  | points c pts i => simp only [PSet.dimension, hp, hd]
  | tensor fs => simp only [PSet.dimension, hp, hd]

theorem PSet.tensor_fits {qs : List (PSet K)} {cs : List Cell}
    (h : List.Forall₂ (fun q (c : Cell) => q.Fits c.spatialDim) qs cs) :
    (PSet.tensor qs).Fits (Cell.spatialDimL cs) := by
  have key : PSet.pts (.tensor qs) ≠ [] ∧ ∀ pt ∈ PSet.pts (.tensor qs), pt.length = Cell.spatialDimL cs := by
    simp only [PSet.pts]
    induction h with
    | nil => simp [PSet.ptsL, Cell.spatialDimL]
    | @cons q c qs cs hq _ ih =>
      simp only [PSet.ptsL, product_cons, Cell.spatialDimL]
      constructor
      · obtain ⟨p, l, hp⟩ := List.exists_cons_of_ne_nil hq.2.1
        obtain ⟨x, hx⟩ := List.exists_mem_of_ne_nil _ ih.1
        obtain ⟨y, hy, _⟩ := List.mem_map.1 hx
        refine List.ne_nil_of_mem (a := (p :: y).flatten) (List.mem_map.2 ⟨p :: y, ?_, rfl⟩)
        exact List.mem_flatMap.2 ⟨p, by rw [hp]; exact List.mem_cons_self, List.mem_map.2 ⟨y, hy, rfl⟩⟩
      · intro pt hpt
        obtain ⟨w, hw, rfl⟩ := List.mem_map.1 hpt
        obtain ⟨x, hx, hw⟩ := List.mem_flatMap.1 hw
        obtain ⟨y, hy, rfl⟩ := List.mem_map.1 hw
        have h1 := hq.2.2 x hx
        have h2 := ih.2 y.flatten (List.mem_map.2 ⟨y, hy, rfl⟩)
        rw [List.flatten_cons, List.length_append, h1, h2]
  exact PSet.fits_of key.1 key.2 (by intro _ _ _ h; cases h)

theorem fits_dims {qs : List (PSet K)} {cs : List Cell}
    (h : List.Forall₂ (fun q (c : Cell) => PSet.Fits q c.spatialDim) qs cs) :
    qs.mapM PSet.dimension = .ok (cs.map Cell.spatialDim) := by
  induction h with
  | nil => rfl
  | cons h1 _ ih => simp [List.mapM_cons, h1.1, ih, bind, Except.bind, pure, Except.pure]

/-- The only entity of full dimension is the cell. -/
theorem top_entity {c : Cell} {ent : Dim × Nat} (h : IsEntity c ent) (ht : ent.1.total = c.spatialDim) :
    ent = (c.dimension, 0) := by
  obtain ⟨n, hn, hk⟩ := h
  obtain ⟨d, k⟩ := ent
  have hd : d = c.dimension := (c.total_le d n hn).2 ht
  subst hd
  have h1 := c.dimension_mem
  have hnd := c.topology_nodup
  have : n = 1 := by
    have e1 := Dict.get?_eq_some_of_mem (d := c.topology) hnd hn
    have e2 := Dict.get?_eq_some_of_mem (d := c.topology) hnd h1
    rw [e1] at e2
    exact Option.some.inj e2
  subst this
  have hk : k < 1 := hk
  rw [show k = 0 by omega]

theorem cell_isEntity (c : Cell) : IsEntity c (c.dimension, 0) := ⟨1, c.dimension_mem, Nat.one_pos⟩

theorem entities_full {cs : List Cell} {ents : List (Dim × Nat)} (h : List.Forall₂ IsEntity cs ents) :
    (ents.map fun x => x.1.total).sum ≤ Cell.spatialDimL cs ∧
      ((ents.map fun x => x.1.total).sum = Cell.spatialDimL cs → ents = cs.map fun c => (c.dimension, 0)) := by
  induction h with
  | nil => simp [Cell.spatialDimL]
  | @cons c ent cs ents hc _ ih =>
    have h1 : ent.1.total ≤ c.spatialDim := by
      obtain ⟨n, hn, _⟩ := hc
      exact (c.total_le _ n hn).1
    simp only [List.map_cons, List.sum_cons, Cell.spatialDimL, List.cons.injEq]
    exact ⟨by omega, fun he => ⟨top_entity hc (by omega), ih.2 (by omega)⟩⟩

/-- The entities of the factors of a product cell are the factor cells. -/
theorem factorEntity_cell (cs : List Cell) :
    factorEntity cs (some ((Cell.prod cs).dimension, 0)) = .ok (cs.map fun c => (c.dimension, 0)) := by
  obtain ⟨ents, h1, h2, h3⟩ := isEntity_factor (cell_isEntity (.prod cs))
  rw [Cell.total_dimension, Cell.spatialDim] at h3
  rw [h1, (entities_full h2).2 h3]

theorem unflatten_cell {p : Elem} {c cf : Cell} (hc : p.cell = .ok c)
    (hcf : (Elem.flattened p).cell = .ok cf) (hcube : IsCube c) :
    unflattenEntity p (some (cf.dimension, 0)) = .ok (c.dimension, 0) ∧ cf.spatialDim = c.spatialDim := by
  obtain ⟨ent', h1, h2, h3⟩ := isEntity_unflatten hc hcf hcube (cell_isEntity cf)
  rw [Cell.total_dimension] at h3
  have hd : cf.spatialDim = c.spatialDim := by
    simp only [Elem.cell, hc, bind, Except.bind] at hcf
    split at hcf
    · next h => cases hcf; exact h.symm
    · split at hcf
      · next h => cases hcf; exact h.symm
      · cases hcf
  rw [top_entity h2 (by rw [h3, hd])] at h1
  exact ⟨h1, hd⟩

section
variable [CommRing K] [DecidableEq K] {F : Fiat K} {D : FiatDual K} {R : Rules K}

theorem liftE_run {α : Type} {x : Except Err α} {n m : Nat} {a : α} (h : liftE x n = .ok (a, m)) :
    x = .ok a := by
  cases x with
  | error e => cases h
  | ok b => cases h; rfl

/-- What is known of the points of a dual basis. -/
def OwnPoints (F : Fiat K) (R : Rules K) (e : Elem) (c : Cell) (ps : PSet K) : Prop :=
  ps.Fits c.spatialDim ∧ Admits (basisSem F R) 0 e ps (c.dimension, 0)

theorem leaf_own {l : Leaf} {n0 n m : Nat} {r : Gem K × PSet K} (hok : DualOK D R n0 (.leaf l))
    (hi : InterpOK F D R (.leaf l)) (h : leafDualBasis D l n = .ok (r, m)) :
    OwnPoints F R (.leaf l) l.cell r.2 := by
  simp only [DualOK] at hok
  simp only [InterpOK] at hi
  obtain ⟨hN, hlen, _⟩ := hok
  unfold leafDualBasis at h
  obtain ⟨st, k, h1, h⟩ := ORule.bind_run h
  have h1 := liftE_run h1
  obtain ⟨q, k, _, h⟩ := ORule.bind_run h
  obtain ⟨Q, k, _, h⟩ := ORule.bind_run h
  obtain ⟨x, k, _, h⟩ := ORule.bind_run h
  obtain ⟨st', hst, hseen, hkeys, hpts, hcov⟩ := collect_spec D.le (D.nodes l) ([], [])
    (by intro pts r hr; simp [Dict.get?] at hr) hN.noDeriv (by simp)
  have hst' : collectPoints D.le (D.nodes l) = .ok st' := hst
  rw [h1] at hst'
  cases hst'
  have hr : r.2 = .points .plain st.2 x := by
    generalize Q.shape = sh at h
    match sh, h with
    | [], h => cases h
    | [_], h => cases h
    | _ :: _ :: _, h =>
      obtain ⟨_, k, _, h⟩ := ORule.bind_run h
      obtain ⟨_, k, _, h⟩ := ORule.bind_run h
      obtain ⟨_, k, _, h⟩ := ORule.bind_run h
      obtain ⟨_, k, _, h⟩ := ORule.bind_run h
      cases h
      rfl
  rw [hr]
  have hpl : PlainPoints (.points .plain st.2 x : PSet K) l.cell.spatialDim := by
    refine ⟨_, _, rfl, ?_, ?_⟩
    · obtain ⟨nd, hnd⟩ := List.exists_mem_of_ne_nil _ hN.nonempty
      have hk := (hkeys _).2 (.inr ⟨nd, hnd, rfl⟩)
      obtain ⟨rg, hrg⟩ := Option.isSome_iff_exists.1 (Dict.get?_isSome_iff.2 hk)
      have hs := hseen _ _ hrg
      have hpos : 0 < (sortBy D.le nd.ptDict.keys).length := by
        rw [(sortBy_perm _ _).length_eq]
        have := List.length_pos_of_ne_nil (hN.points nd hnd).1
        simpa [Dict.keys] using this
      have := hs.2 0 hpos
      intro hnil
      rw [hnil] at this
      rw [List.getElem?_eq_getElem hpos] at this
      simp at this
    · intro pt hpt
      rcases hpts pt hpt with h | ⟨nd, hm, h⟩
      · simp at h
      · exact hi.2 nd hm pt h
  refine ⟨?_, ?_⟩
  · obtain ⟨pts, idx, he, hne, hl⟩ := hpl
    cases he
    exact PSet.fits_of hne hl (by intro _ _ _ h; cases h)
  · simp only [Admits]
    exact hi.1 _ _ (cell_isEntity _) (by rw [Cell.total_dimension]; exact hpl)

mutual
/-- An element can be tabulated at the points of its dual basis. -/
theorem own_points : ∀ (e : Elem) (c : Cell) {n0 n m : Nat} {r : Gem K × PSet K}, DualOK D R n0 e →
    InterpOK F D R e → e.cell = .ok c → dualBasis D R e n = .ok (r, m) → OwnPoints F R e c r.2
  | .leaf l, c, n0, n, m, r, hd, hi, hc, h => by
    simp only [Elem.cell, Except.ok.injEq] at hc
    subst hc
    rw [dualBasis] at h
    exact leaf_own hd hi h
  | .tensorProduct fs, c, n0, n, m, r, hd, hi, hc, h => by
    simp only [DualOK] at hd
    simp only [InterpOK] at hi
    simp only [Elem.cell] at hc
    rw [bind_ok] at hc
    obtain ⟨cs, hcs, hc⟩ := hc
    cases hc
    rw [dualBasis] at h
    obtain ⟨qps, k, hq, h⟩ := ORule.bind_run h
    have hr : r.2 = .tensor (qps.map Prod.snd) := by
      split at h
      · cases h
      · obtain ⟨_, k, _, h⟩ := ORule.bind_run h
        obtain ⟨_, k, _, h⟩ := ORule.bind_run h
        cases h
        rfl
    have hL := own_pointsL fs cs hd hi hcs hq
    rw [hr]
    have hfit : List.Forall₂ (fun q (c : Cell) => PSet.Fits q c.spatialDim) (qps.map Prod.snd) cs := hL.1
    refine ⟨by rw [Cell.spatialDim]; exact PSet.tensor_fits hfit, ?_⟩
    simp only [Admits]
    refine ⟨cs, _, qps.map Prod.snd, hcs, factorEntity_cell cs, ?_, hL.2⟩
    intro m
    simp only [basisInterp]
    have hlen := hfit.length_eq
    have hdims := fits_dims hfit
    have : factorPointSet cs (List.map Prod.fst (cs.map fun c => (c.dimension, 0))) (.tensor (qps.map Prod.snd)) =
        .ok (qps.map Prod.snd) := by
      unfold factorPointSet
      simp [hlen, hdims, Function.comp_def, Cell.total_dimension, bind, Except.bind]
    rw [this]
    rfl
  | .flattened p, cf, n0, n, m, r, hd, hi, hc, h => by
    simp only [DualOK] at hd
    simp only [InterpOK] at hi
    rw [dualBasis] at h
    have hc' := hc
    simp only [Elem.cell] at hc'
    rw [bind_ok] at hc'
    obtain ⟨c, hpc, _⟩ := hc'
    have := own_points p c hd hi.1 hpc h
    have hu := unflatten_cell hpc hc (hi.2 c hpc)
    exact ⟨by rw [hu.2]; exact this.1, by simp only [Admits]; exact ⟨_, hu.1, this.2⟩⟩
  | .enriched es, c, n0, n, m, r, hd, hi, hc, h => by simp only [DualOK] at hd
  | .mixedSub e _ _, c, n0, n, m, r, hd, hi, hc, h => by simp only [DualOK] at hd
  | .discontinuous e, c, n0, n, m, r, hd, hi, hc, h => by
    simp only [DualOK] at hd
    simp only [InterpOK] at hi
    simp only [Elem.cell] at hc
    rw [dualBasis] at h
    have := own_points e c hd hi hc h
    exact ⟨this.1, by simp only [Admits]; exact this.2⟩
  | .tensorFE e _ _, c, n0, n, m, r, hd, hi, hc, h => by
    simp only [DualOK] at hd
    simp only [InterpOK] at hi
    simp only [Elem.cell] at hc
    rw [dualBasis] at h
    obtain ⟨qp, k, hq, h⟩ := ORule.bind_run h
    obtain ⟨_, k, _, h⟩ := ORule.bind_run h
    obtain ⟨_, k, _, h⟩ := ORule.bind_run h
    cases h
    have := own_points e c hd hi hc hq
    exact ⟨this.1, by simp only [Admits]; exact this.2⟩
  | .hdiv e, c, n0, n, m, r, hd, hi, hc, h => by
    simp only [DualOK] at hd
    simp only [InterpOK] at hi
    simp only [Elem.cell] at hc
    rw [dualBasis] at h
    obtain ⟨qp, k, hq, h⟩ := ORule.bind_run h
    obtain ⟨_, k, _, h⟩ := ORule.bind_run h
    obtain ⟨_, k, _, h⟩ := ORule.bind_run h
    obtain ⟨_, k, _, h⟩ := ORule.bind_run h
    obtain ⟨_, k, _, h⟩ := ORule.bind_run h
    obtain ⟨_, k, _, h⟩ := ORule.bind_run h
    cases h
    have := own_points e c hd hi hc hq
    exact ⟨this.1, by simp only [Admits]; exact this.2⟩
  | .hcurl e, c, n0, n, m, r, hd, hi, hc, h => by
    simp only [DualOK] at hd
    simp only [InterpOK] at hi
    simp only [Elem.cell] at hc
    rw [dualBasis] at h
    obtain ⟨qp, k, hq, h⟩ := ORule.bind_run h
    obtain ⟨_, k, _, h⟩ := ORule.bind_run h
    obtain ⟨_, k, _, h⟩ := ORule.bind_run h
    obtain ⟨_, k, _, h⟩ := ORule.bind_run h
    obtain ⟨_, k, _, h⟩ := ORule.bind_run h
    obtain ⟨_, k, _, h⟩ := ORule.bind_run h
    cases h
    have := own_points e c hd hi hc hq
    exact ⟨this.1, by simp only [Admits]; exact this.2⟩
  | .quadrature q c' ext, c, n0, n, m, r, hd, hi, hc, h => by
    simp only [DualOK] at hd
    simp only [InterpOK] at hi
    simp only [Elem.cell, Except.ok.injEq] at hc
    subst hc
    rw [dualBasis, quadDualBasis] at h
    obtain ⟨_, k, _, h⟩ := ORule.bind_run h
    obtain ⟨_, k, _, h⟩ := ORule.bind_run h
    obtain ⟨_, k, _, h⟩ := ORule.bind_run h
    cases h
    exact ⟨⟨hi.2.2.1, hi.2.2.2.1, hi.2.2.2.2⟩, by
      simp only [Admits]
      exact ⟨rfl, rfl, hi.1, rfl, hd.2.1, hd.2.2, hi.2.1⟩⟩
theorem own_pointsL : ∀ (fs : List Elem) (cs : List Cell) {n0 n m : Nat} {qps : List (Gem K × PSet K)},
    DualOKL D R n0 fs → InterpOKL F D R fs → Elem.cellL fs = .ok cs → dualBasisL D R fs n = .ok (qps, m) →
    List.Forall₂ (fun q (c : Cell) => PSet.Fits q c.spatialDim) (qps.map Prod.snd) cs ∧
      AdmitsZip (basisSem F R) 0 fs (qps.map Prod.snd) (cs.map fun c => (c.dimension, 0))
  | [], cs, n0, n, m, qps, hd, hi, hc, h => by
    simp only [Elem.cellL, Except.ok.injEq] at hc
    subst hc
    rw [dualBasisL] at h
    cases h
    simp [AdmitsZip]
  | f :: fs, cs, n0, n, m, qps, hd, hi, hc, h => by
    simp only [DualOKL] at hd
    simp only [InterpOKL] at hi
    obtain ⟨c, cs', h1, h2, rfl⟩ := cellL_cons hc
    rw [dualBasisL] at h
    obtain ⟨qp, k, hq, h⟩ := ORule.bind_run h
    obtain ⟨qs, k, hqs, h⟩ := ORule.bind_run h
    cases h
    have a := own_points f c hd.1 hi.1 h1 hq
    have b := own_pointsL fs cs' hd.2 hi.2 h2 hqs
    simp only [List.map_cons, AdmitsZip]
    exact ⟨.cons a.1 b.1, a.2, b.2⟩
end

/-- The client's expression has the values of the finite element function. -/
theorem feExpression_spec {e : Elem} {c : Cell} {vs : List Nat} {m : Nat} {ps : PSet K} {coeffs : Gem K}
    (hs : Shaped e) (hc : e.cell = .ok c) (hv : e.valueShape = .ok vs) (hw : ps.WF m)
    (ha : Admits (basisSem F R) 0 e ps (c.dimension, 0)) (hsh : coeffs.shape = e.indexShape)
    (hloc : ∀ ρ ρ', Agree m ρ ρ' → coeffs.eval ρ = coeffs.eval ρ') :
    Runs (feExpression F R e coeffs ps) m fun t m' => m ≤ m' ∧
      Den ps.Valid t vs fun ρ z => feFunction (leafVals F R) e c (coeffs.eval ρ) (ps.pointAt ρ) z := by
  unfold feExpression
  apply Runs.bind
  refine (evaluate_ok (basisSem F R) e hs 0 ps none c vs m m hw (Nat.le_refl _) hc hv ha).mono ?_
  rintro T m1 ⟨hm1, hT⟩
  apply Runs.bind
  refine Runs.liftE hc ?_
  apply Runs.bind
  refine Runs.liftE hv ?_
  have hk : List.replicate c.spatialDim 0 ∈ T.keys := (hT.keys _).2 (by simp)
  obtain ⟨t, ht⟩ := Option.isSome_iff_exists.1 (Dict.get?_isSome_iff.2 hk)
  have hden := hT.den _ t ht
  apply Runs.bind
  refine Runs.liftE (a := t) (by simp only [Dict.get, ht]) ?_
  apply Runs.bind
  apply Runs.freshIndices
  intro beta m2 hb eb
  apply Runs.bind
  apply Runs.freshIndices
  intro zeta m3 hz ez
  apply Runs.bind
  apply Runs.mkIndexed
  · rw [hden.shape]; exact fitsShape_free (by simp [eb, ez])
  intro x hx1 hx2
  apply Runs.bind
  apply Runs.mkIndexed
  · rw [hsh]; exact fitsShape_free eb
  intro y hy1 hy2
  apply Runs.bind
  apply Runs.mkProduct hy1 hx1
  intro p hp1 hp2
  apply Runs.bind
  apply Runs.mkIndexSum hp1
  intro s hs1 hs2
  apply Runs.mkComponentTensor hs1
  intro r hr1 hr2
  have h2 := hb.2.2
  have h3 := hz.2.2
  refine ⟨by omega, by rw [hr1, ez], fun ρ z hV hzr => ?_⟩
  rw [hr2 ρ z (by rw [hzr.length, ← ez]; simp), hs2, eb, feFunction]
  refine lsum_congr fun j hj => ?_
  have hj : InB j _ := mem_ndindex.1 hj
  rw [hp2, hx2, hy2, map_val_free, map_val_free]
  set ρ1 := bindIx ρ zeta z with hρ1
  have mj := map_bindIx ρ1 hb.1 (v := j) (by rw [hj.length, ← eb]; simp)
  have mz : zeta.map (fun i => bindIx ρ1 beta j i.id) = z := by
    rw [map_bindIx_other, hρ1, map_bindIx ρ hz.1 (by rw [hzr.length, ← ez]; simp)]
    intro a ha b hb'
    have := (hz.2.1 a ha).1
    have := (hb.2.1 b hb').2
    omega
  have hag : Agree m (bindIx ρ1 beta j) ρ := by
    refine ((bindIx_agree hb j ρ1).mono (by omega)).trans ((bindIx_agree hz z ρ).mono (by omega))
  have hV' : ps.Valid (bindIx ρ1 beta j) := PSet.valid_local hw _ _ hag.symm hV
  rw [List.map_append, mj, mz, hloc _ _ hag, hden.val _ _ hV' (InB.append hj hzr)]
  simp only [elemF]
  rw [← hj.length, List.take_left, List.drop_left]
  show _ * basisValue _ e _ _ (ps.pointAt (bindIx ρ1 beta j)) j z = _
  rw [PSet.pointAt_local hw hag]
  rfl

/-- `dual_evaluation` for every element, with the order in which it returns the coefficients. -/
theorem dualEval_all (hone : ∀ w, D.isOne w = true → w = 1) (e : Elem) (n : Nat)
    (vs : List Nat) (hs : Shaped e) (hok : DualOK D R n e) (hq : (quadIds R e).Nodup)
    (hv : e.valueShape = .ok vs) {fn : PSet K → M (Gem K)} {f : Env → List K → List Nat → K}
    (hf : ∀ ρ ρ', (∀ k < n, k ∉ quadIds R e → ρ k = ρ' k) → f ρ = f ρ')
    (hfn : ∀ r m, dualBasis D R e n = .ok (r, m) → n ≤ m → r.2.WF m → Runs (fn r.2) m fun t m' => m ≤ m' ∧
      Den r.2.Valid t vs fun ρ z => f ρ (r.2.pointAt ρ) z) :
    Yields (dualEvaluation D R e fn) n fun r => r.1.shape = [] ∧ (r.2.map Index.id).Nodup ∧
      r.2.map Index.extent = interpolatedShape e ∧ ∀ ρ i, InRange i e.indexShape →
        r.1.eval (bindIx ρ r.2 (interpolated e i)) [] = dualValue (fiatDuals D R) e i (f ρ) := by
  have hd := dualRuns (R := R) hone e hs
  have base := dualEval_base hd hok hq hv hf hfn
  by_cases ht : ∃ b shape tr, e = .tensorFE b shape tr
  · obtain ⟨b, shape, tr, rfl⟩ := ht
    simp only [Elem.valueShape] at hv
    rw [bind_ok] at hv
    obtain ⟨bvs, hbv, hv⟩ := hv
    cases hv
    obtain ⟨r, n', h1, _, h2, h3, h4, h5⟩ := dualEval_tensor hd hok hq hbv hf hfn
    refine ⟨r, n', h1, h3, h2.1, ?_, fun ρ i hi => ?_⟩
    · cases tr <;> simpa [interpolatedShape, Elem.indexShape] using h4
    · cases tr with
      | false =>
        simp only [Elem.indexShape, Bool.false_eq_true, if_false] at hi
        have hi : InB i _ := hi
        have := h5 ρ (i.take b.indexShape.length) (i.drop b.indexShape.length) hi.split.1 hi.split.2
        rw [List.take_append_drop] at this
        simpa [dualValue, interpolated] using this
      | true =>
        simp only [Elem.indexShape, if_true] at hi
        have hi : InB i _ := hi
        have := h5 ρ (i.drop shape.length) (i.take shape.length) hi.split.2 hi.split.1
        simpa [dualValue, interpolated] using this
  · have hsh : interpolatedShape e = e.indexShape := by
      cases e <;> first | rfl | exact absurd ⟨_, _, _, rfl⟩ ht
    have hix : ∀ i, interpolated e i = i := by
      intro i
      cases e <;> first | rfl | exact absurd ⟨_, _, _, rfl⟩ ht
    have key : Yields (dualEvaluation D R e fn) n fun r => r.1.shape = [] ∧ (r.2.map Index.id).Nodup ∧
        r.2.map Index.extent = e.indexShape ∧ ∀ ρ i, InRange i e.indexShape →
          r.1.eval (bindIx ρ r.2 i) [] = dualValue (fiatDuals D R) e i (f ρ) := by
      obtain ⟨r, n', h1, _, h2, h3, h4, h5⟩ := base
      refine ⟨r, n', ?_, h3, h2.1, h4, h5⟩
      cases e <;> first | exact h1 | exact absurd ⟨_, _, _, rfl⟩ ht
    obtain ⟨r, n', h1, h2, h3, h4, h5⟩ := key
    exact ⟨r, n', h1, h2, h3, by rw [hsh]; exact h4, fun ρ i hi => by rw [hix]; exact h5 ρ i hi⟩

end

end FInAT
