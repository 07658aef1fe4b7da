import Verif.Spec.Exact
import Verif.Lemmas.Kronecker
import Verif.Lemmas.EntityPoint

/-!
# Elements can be tabulated at the points of the rules for their cells
-/

namespace FInAT

open Spec Elem Props

section
variable {K : Type}

theorem rulePoints_pts {c : Cell} {ps : PSet K} (h : RulePoints c ps) :
    ps.pts ≠ [] ∧ ∀ x ∈ ps.pts, x.length = c.spatialDim := by
  cases c <;> simp only [RulePoints] at h <;> exact h.1

theorem rulePoints_known {c : Cell} {ps : PSet K} (h : RulePoints c ps) : ∀ pts d i, ps ≠ .unknown pts d i := by
  intro pts d i he
  subst he
  cases c <;> simp [RulePoints] at h

theorem rulePoints_fits {c : Cell} {ps : PSet K} (h : RulePoints c ps) : ps.Fits c.spatialDim :=
  PSet.fits_of (rulePoints_pts h).1 (rulePoints_pts h).2 (rulePoints_known h)

theorem rulePointsL_fits : ∀ {cs : List Cell} {pss : List (PSet K)}, RulePointsL cs pss →
    List.Forall₂ (fun q (c : Cell) => PSet.Fits q c.spatialDim) pss cs
  | [], [], _ => .nil
  | c :: cs, p :: ps, h => by
    simp only [RulePointsL] at h
    exact .cons (rulePoints_fits h.1) (rulePointsL_fits h.2)
  | [], _ :: _, h => by simp [RulePointsL] at h
  | _ :: _, [], h => by simp [RulePointsL] at h

theorem rulePoints_square {ps : PSet K} (h : RulePoints .quad ps) : RulePoints (.prod [.simplex 1, .simplex 1]) ps := by
  simp only [RulePoints] at h
  obtain ⟨h0, cls₁, pts₁, i₁, cls₂, pts₂, i₂, rfl, h1, h2⟩ := h
  simp only [RulePoints, RulePointsL]
  exact ⟨h0, _, rfl, ⟨h1, _, _, _, rfl⟩, ⟨h2, _, _, _, rfl⟩, trivial⟩

end

section
variable {K : Type} [CommRing K] [DecidableEq K]

/-- What a FIAT leaf has to satisfy to be tabulated at the points of the rules for its cell. -/
def RuleLeafOK (F : Fiat K) (order : Nat) (l : Leaf) : Prop :=
  ∀ p, RulePoints l.cell p → F.mapped l = none ∧ LeafOK F l order p (l.cell.dimension, 0)

omit [CommRing K] [DecidableEq K] in
theorem factor_tensor {cs : List Cell} {pss : List (PSet K)} (h : RulePointsL cs pss) :
    factorPointSet cs (List.map Prod.fst (cs.map fun c => (c.dimension, 0))) (.tensor pss) = .ok pss := by
  have hfit := rulePointsL_fits h
  have hlen := hfit.length_eq
  have hdims := fits_dims hfit
  unfold factorPointSet
  simp [hlen, hdims, Function.comp_def, Cell.total_dimension, bind, Except.bind]

mutual
/-- Every element tree can be tabulated at the points of the rules for its cell. -/
theorem admits_rule (F : Fiat K) (R : Rules K) (order : Nat) : ∀ (e : Elem) (ps : PSet K) (c : Cell), Squares e →
    AllLeaves (RuleLeafOK F order) e → e.cell = .ok c → RulePoints c ps →
    Admits (basisSem F R) order e ps (c.dimension, 0)
  | .leaf l, ps, c, _, hl, hc, hp => by
    simp only [Elem.cell, Except.ok.injEq] at hc
    subst hc
    exact hl ps hp
  | .tensorProduct fs, ps, c, hs, hl, hc, hp => by
    obtain ⟨cs, hcs, rfl⟩ := cell_tensorProduct hc
    simp only [RulePoints] at hp
    obtain ⟨-, pss, rfl, hp⟩ := hp
    simp only [Squares] at hs
    simp only [AllLeaves] at hl
    simp only [Admits]
    refine ⟨cs, _, pss, hcs, factorEntity_cell cs, fun m => ?_, admits_ruleZip F R order fs pss cs hs hl hcs hp⟩
    simp only [basisInterp]
    rw [factor_tensor hp]
    rfl
  | .flattened p, ps, c, hs, hl, hc, hp => by
    simp only [Squares] at hs
    simp only [AllLeaves] at hl
    have hq : c = .quad := by
      simp only [Elem.cell, hs.2, bind, Except.bind, pure, Except.pure] at hc
      simp [Cell.spatialDim, Cell.spatialDimL] at hc
      exact hc.symm
    have hu := (unflatten_cell hs.2 hc ⟨Nat.le_refl 1, Nat.le_refl 1, trivial⟩).1
    subst hq
    simp only [Admits]
    exact ⟨_, hu, admits_rule F R order p ps _ hs.1 hl hs.2 (rulePoints_square hp)⟩
  | .enriched es, ps, c, hs, hl, hc, hp => by
    obtain ⟨cs, hcs, hall⟩ := cell_enriched hc
    simp only [Squares] at hs
    simp only [AllLeaves] at hl
    simp only [Admits]
    exact admits_ruleL F R order es ps cs c hs hl hcs hall hp
  | .mixedSub e _ _, ps, c, hs, hl, hc, hp => by
    simp only [Admits]
    exact admits_rule F R order e ps c hs hl hc hp
  | .discontinuous e, ps, c, hs, hl, hc, hp => by
    simp only [Admits]
    exact admits_rule F R order e ps c hs hl hc hp
  | .tensorFE e _ _, ps, c, hs, hl, hc, hp => by
    simp only [Admits]
    exact admits_rule F R order e ps c hs hl hc hp
  | .hdiv w, ps, c, hs, hl, hc, hp => by
    simp only [Admits]
    exact admits_rule F R order w ps c hs hl hc hp
  | .hcurl w, ps, c, hs, hl, hc, hp => by
    simp only [Admits]
    exact admits_rule F R order w ps c hs hl hc hp
  | .quadrature _ _ _, _, _, _, hl, _, _ => by
    simp only [AllLeaves] at hl
theorem admits_ruleZip (F : Fiat K) (R : Rules K) (order : Nat) : ∀ (fs : List Elem) (pss : List (PSet K)) (cs : List Cell),
    SquaresL fs → AllLeavesL (RuleLeafOK F order) fs → Elem.cellL fs = .ok cs → RulePointsL cs pss →
    AdmitsZip (basisSem F R) order fs pss (cs.map fun c => (c.dimension, 0))
  | [], pss, cs, _, _, hc, hp => by
    simp only [Elem.cellL, Except.ok.injEq] at hc
    subst hc
    cases pss with
    | nil => simp [AdmitsZip]
    | cons p ps => simp [RulePointsL] at hp
  | f :: fs, pss, cs, hs, hl, hc, hp => by
    obtain ⟨c, cs', h1, h2, rfl⟩ := cellL_cons hc
    simp only [SquaresL] at hs
    simp only [AllLeavesL] at hl
    match pss, hp with
    | [], hp => simp [RulePointsL] at hp
    | p :: ps, hp =>
      simp only [RulePointsL] at hp
      simp only [List.map_cons, AdmitsZip]
      exact ⟨admits_rule F R order f p c hs.1 hl.1 h1 hp.1, admits_ruleZip F R order fs ps cs' hs.2 hl.2 h2 hp.2⟩
theorem admits_ruleL (F : Fiat K) (R : Rules K) (order : Nat) : ∀ (es : List Elem) (ps : PSet K) (cs : List Cell) (c : Cell),
    SquaresL es → AllLeavesL (RuleLeafOK F order) es → Elem.cellL es = .ok cs → (∀ c' ∈ cs, c' = c) → RulePoints c ps →
    AdmitsL (basisSem F R) order es ps (c.dimension, 0)
  | [], _, _, _, _, _, _, _, _ => by simp only [AdmitsL]
  | e :: es, ps, cs, c, hs, hl, hc, hall, hp => by
    obtain ⟨c1, cs', h1, h2, rfl⟩ := cellL_cons hc
    simp only [SquaresL] at hs
    simp only [AllLeavesL] at hl
    have h3 := hall c1 List.mem_cons_self
    simp only [AdmitsL]
    exact ⟨admits_rule F R order e ps c hs.1 hl.1 (h3 ▸ h1) hp,
      admits_ruleL F R order es ps cs' c hs.2 hl.2 h2 (fun c' h => hall c' (List.mem_cons_of_mem _ h)) hp⟩
end

end

mutual
theorem squares_cubes : ∀ e : Elem, Squares e → Cubes e
  | .leaf _, _ => trivial
  | .tensorProduct fs, h => by
    simp only [Squares, Cubes] at h ⊢
    exact squares_cubesL fs h
  | .flattened p, h => by
    simp only [Squares, Cubes] at h ⊢
    refine ⟨squares_cubes p h.1, fun c hc => ?_⟩
    rw [h.2] at hc
    cases hc
    exact ⟨Nat.le_refl 1, Nat.le_refl 1, trivial⟩
  | .enriched es, h => by
    simp only [Squares, Cubes] at h ⊢
    exact squares_cubesL es h
  | .mixedSub e _ _, h => by
    simp only [Squares, Cubes] at h ⊢
    exact squares_cubes e h
  | .discontinuous e, h => by
    simp only [Squares, Cubes] at h ⊢
    exact squares_cubes e h
  | .tensorFE e _ _, h => by
    simp only [Squares, Cubes] at h ⊢
    exact squares_cubes e h
  | .hdiv w, h => by
    simp only [Squares, Cubes] at h ⊢
    exact squares_cubes w h
  | .hcurl w, h => by
    simp only [Squares, Cubes] at h ⊢
    exact squares_cubes w h
  | .quadrature _ _ _, _ => trivial
theorem squares_cubesL : ∀ es : List Elem, SquaresL es → CubesL es
  | [], _ => trivial
  | e :: es, h => by
    simp only [SquaresL, CubesL] at h ⊢
    exact ⟨squares_cubes e h.1, squares_cubesL es h.2⟩
end

/-! ### The rules of `make_quadrature` -/

section
variable {K : Type} [Field K] [CharZero K]

theorem run_bind {α β : Type} {x : M α} {f : α → M β} {n m : Nat} {b : β} (h : (x >>= f) n = .ok (b, m)) :
    ∃ a k, x n = .ok (a, k) ∧ f a k = .ok (b, m) := by
  simp only [bind, StateT.bind, Except.bind] at h
  split at h
  · cases h
  · rename_i v hv
    exact ⟨v.1, v.2, hv, h⟩

theorem mkRule_points {cls : PSClass} {pw : List (List K) × List K} {n n' : Nat} {q : QRule K}
    (h : mkRule cls pw n = .ok (q, n')) : ∃ cls pts i, q.pointSet = .points cls pts [i] := by
  obtain ⟨-, k, -, h⟩ := run_bind h
  obtain ⟨x, k', hx, h⟩ := run_bind h
  cases hx
  cases h
  exact ⟨_, _, _, rfl⟩

theorem makeSimple_points {F : FiatQuad K} {s : String} {c : Cell} {deg : Degree} {n n' : Nat} {q : QRule K}
    (h : makeSimple F s c deg n = .ok (q, n')) : ∃ cls pts i, q.pointSet = .points cls pts [i] := by
  cases deg with
  | tup ds => cases h
  | int d =>
    simp only [makeSimple] at h
    split at h
    · cases h
    · split at h
      · exact mkRule_points h
      · obtain ⟨pw, k, -, h⟩ := run_bind h
        exact mkRule_points h

mutual
/-- The points of the rules made for a cell. -/
theorem makeQuadrature_points {F : FiatQuad K} {s : String} {D : Nat} (hF : FiatExact F s D) :
    ∀ (c : Cell) (deg : Degree) (n n' : Nat) (q : QRule K), GoodDegree F s D c deg →
      makeQuadrature F s c deg n = .ok (q, n') → RulePoints c q.pointSet
  | .prod cs, deg, n, n', q, hd, h => by
    have hM := makeQuadrature_spec hF _ deg n hd
    obtain ⟨q', m, hq, hM⟩ := hM
    rw [h] at hq
    cases hq
    rw [GoodDegree] at hd
    rw [makeQuadrature] at h
    obtain ⟨-, k, -, h⟩ := run_bind h
    obtain ⟨rs, k', hr, h⟩ := run_bind h
    cases h
    simp only [RulePoints]
    exact ⟨⟨hM.ne, hM.width⟩, _, rfl, makeQuadratureL_points hF cs _ k _ rs hd.2 hr⟩
  | .quad, deg, n, n', q, hd, h => by
    have hM := makeQuadrature_spec hF _ deg n hd
    obtain ⟨q', m, hq, hM⟩ := hM
    rw [h] at hq
    cases hq
    rw [GoodDegree] at hd
    obtain ⟨d, e, hde, h1, h2, a1, a2⟩ := hd
    have g1 : GoodDegree F s D (.simplex 1) (.int d) := by simp [GoodDegree, h1, a1]
    have g2 : GoodDegree F s D (.simplex 1) (.int e) := by simp [GoodDegree, h2, a2]
    rw [makeQuadrature] at h
    obtain ⟨-, k, -, h⟩ := run_bind h
    obtain ⟨rs, k', hr, h⟩ := run_bind h
    cases h
    rw [hde, show List.take 2 [Degree.int d, Degree.int e] = [Degree.int d, Degree.int e] from rfl, List.mapM_cons] at hr
    obtain ⟨q₁, k₁, hq₁, hr⟩ := run_bind hr
    obtain ⟨ls, k₂, hl, hr⟩ := run_bind hr
    cases hr
    rw [List.mapM_cons] at hl
    obtain ⟨q₂, k₃, hq₂, hl⟩ := run_bind hl
    cases hl
    obtain ⟨r₁, j₁, hr₁, hM₁⟩ := made_simple hF (by simp) (by simp) g1 k
    rw [hq₁] at hr₁
    cases hr₁
    obtain ⟨r₂, j₂, hr₂, hM₂⟩ := made_simple hF (by simp) (by simp) g2 k₁
    rw [hq₂] at hr₂
    cases hr₂
    obtain ⟨c1, p1, i1, e1⟩ := makeSimple_points hq₁
    obtain ⟨c2, p2, i2, e2⟩ := makeSimple_points hq₂
    have w1 := hM₁.width
    have w2 := hM₂.width
    have n1 := hM₁.ne
    have n2 := hM₂.ne
    rw [e1] at w1 n1
    rw [e2] at w2 n2
    simp only [RulePoints]
    exact ⟨⟨hM.ne, hM.width⟩, c1, p1, i1, c2, p2, i2, by simp [QRule.pointSet, QRule.pointSetL, e1, e2], ⟨n1, w1⟩, n2, w2⟩
  | .simplex d, deg, n, n', q, hd, h => by
    obtain ⟨q', m, hq, hM⟩ := makeQuadrature_spec hF _ deg n hd
    rw [h] at hq
    cases hq
    rw [makeQuadrature] at h
    · simp only [RulePoints]
      exact ⟨⟨hM.ne, hM.width⟩, makeSimple_points h⟩
    all_goals simp
  | .hex, deg, n, n', q, hd, h => by
    obtain ⟨q', m, hq, hM⟩ := makeQuadrature_spec hF _ deg n hd
    rw [h] at hq
    cases hq
    rw [makeQuadrature] at h
    · simp only [RulePoints]
      exact ⟨⟨hM.ne, hM.width⟩, makeSimple_points h⟩
    all_goals simp
theorem makeQuadratureL_points {F : FiatQuad K} {s : String} {D : Nat} (hF : FiatExact F s D) :
    ∀ (cs : List Cell) (ds : List Degree) (n n' : Nat) (qs : List (QRule K)), GoodDegreeL F s D cs ds →
      makeQuadratureL F s cs ds n = .ok (qs, n') → RulePointsL cs (QRule.pointSetL qs)
  | [], [], n, n', qs, _, h => by
    rw [makeQuadratureL] at h
    · cases h
      simp [QRule.pointSetL, RulePointsL]
    · simp
  | c :: cs, d :: ds, n, n', qs, hd, h => by
    simp only [GoodDegreeL] at hd
    rw [makeQuadratureL] at h
    obtain ⟨q, k, hq, h⟩ := run_bind h
    obtain ⟨qs', k', hqs, h⟩ := run_bind h
    cases h
    simp only [QRule.pointSetL, RulePointsL]
    exact ⟨makeQuadrature_points hF c d n k q hd.1 hq, makeQuadratureL_points hF cs ds k _ qs' hd.2 hqs⟩
  | [], _ :: _, _, _, _, h, _ => by simp [GoodDegreeL] at h
  | _ :: _, [], _, _, _, h, _ => by simp [GoodDegreeL] at h
end

end

end FInAT
