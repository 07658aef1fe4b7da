import Verif.Lemmas.QuadratureElement
import Verif.Props.Quadrature

/-!
# C87: quadrature elements reproduce their rule
-/

namespace FInAT.Props

open FInAT FInAT.Spec

variable {K : Type}

/-- **C87**, construction: `make_quadrature_element` succeeds for every cell and degree for which FIAT has
the rules; the element is scalar, sits on the given cell and has one degree of freedom for each point. -/
theorem C87_construct [Field K] [CharZero K] {F : FiatQuad K} {scheme : String} {D : Nat}
    (hF : FiatExact F scheme D) (r : Nat) (c : Cell) (deg : Degree) (hd : GoodDegree F scheme D c deg) (n : Nat) :
    Yields (makeQuadratureElement F scheme r c deg) n fun qe =>
      qe.2.cell = .ok c ∧ qe.2.valueShape = .ok [] ∧ qe.2.spaceDim = qe.1.pointSet.pts.length ∧
      0 < qe.2.spaceDim := by
  obtain ⟨qe, n', h1, m, h2⟩ := makeQuadratureElement_spec hF r c deg n hd
  have hl : qe.2.spaceDim = qe.1.pointSet.pts.length := by
    rw [h2, (PSet.pts_at m.wf).1]
    rfl
  refine ⟨qe, n', h1, by rw [h2]; rfl, by rw [h2]; rfl, hl, ?_⟩
  rw [hl]
  exact List.length_pos_iff.2 m.ne

/-- **C87**, arguments: the constructor accepts exactly the quadrature rules whose points have as many
coordinates as the cell; other objects give `TypeError`, other rules with points `ValueError`. -/
theorem C87_arguments (r : Nat) (c : Cell) (arg : RuleArg K) :
    ((∃ e, newQuadratureElement r c arg = .ok e) ↔ ∃ q, arg = .rule q ∧ q.pointSet.dimension = .ok c.spatialDim) ∧
    (arg = .other → newQuadratureElement r c arg = .error .typeError) ∧
    (∀ q d, arg = .rule q → q.pointSet.dimension = .ok d → d ≠ c.spatialDim →
      newQuadratureElement r c arg = .error .valueError) := by
  have key : ∀ (q : QRule K) d, q.pointSet.dimension = .ok d → newQuadratureElement r c (.rule q) =
      if c.spatialDim ≠ d then .error .valueError
      else .ok (.quadrature r c (q.pointSet.indices.map Index.extent)) := by
    intro q d h
    simp only [newQuadratureElement, h]
    rfl
  refine ⟨⟨?_, ?_⟩, ?_, ?_⟩
  · rintro ⟨e, he⟩
    cases arg with
    | other => cases he
    | rule q =>
      refine ⟨q, rfl, ?_⟩
      obtain ⟨d, h1, h2⟩ := bind_ok.1 he
      split at h2
      · cases h2
      · rename_i h
        rw [h1, not_not.1 h]
  · rintro ⟨q, rfl, h⟩
    rw [key q _ h, if_neg (by simp)]
    exact ⟨_, rfl⟩
  · rintro rfl
    rfl
  · rintro q d rfl h hne
    rw [key q d h, if_pos hne.symm]

/-- **C87**, sums: tabulated at the points of its own rule, the element turns every coefficient vector into
the function with these values at the points: the quadrature sum of `u g` is the sum over the degrees of
freedom of weight, coefficient and value of `g` at the point with the same number. -/
theorem C87_sum [CommRing K] (Fi : Fiat K) {close : List K → List K → Bool} (hclose : ∀ x, close x x = true)
    (r : Nat) (c : Cell) (q : QRule K) (e : Elem) (n m : Nat) (hq : RuleOK q)
    (hn : (q.pointSet.indices.map Index.id).Nodup) (hw : q.pointSet.WF n) (hm : n ≤ m)
    (he : newQuadratureElement r c (.rule q) = .ok e) :
    Yields (do let T ← evaluate (basisInterp Fi (onlyRule q close)) e 0 q.pointSet none
               let t ← liftE (Dict.get T (List.replicate c.spatialDim 0))
               let W ← q.weightExpr
               pure (t, W)) m fun tW =>
      ∀ ρ a g, formSum tW.2 q.pointSet ρ e.indexShape tW.1 a g = ((ndindex e.indexShape).map fun i =>
        weightAt q i * a i * g (q.pointSet.pts.getD (ravel e.indexShape i) [])).sum := by
  have he' : e = .quadrature r c (q.pointSet.indices.map Index.extent) := by
    obtain ⟨d, -, h2⟩ := bind_ok.1 he
    split at h2 <;> cases h2
    rfl
  subst he'
  suffices h : Runs _ m fun tW _ => _ from h
  apply Runs.bind
  have hT := quadBasisEvaluation_index (R := onlyRule q close) (r := r) (c := c) (order := 0)
    (ext := q.pointSet.indices.map Index.extent) (ps := q.pointSet) (entity := none) hw hm rfl rfl
    (almostEqual_self hclose _ (arrays_of_ok hq)) rfl (by simpa using indices_of_ok hq)
  refine (show Runs (evaluate _ _ _ _ _) m _ from by rw [evaluate]; exact hT).mono ?_
  rintro T n1 ⟨-, h⟩
  have hk : List.replicate c.spatialDim 0 ∈ T.keys := (h.keys _).2 ⟨by simp, by simp⟩
  obtain ⟨t, ht⟩ := Option.isSome_iff_exists.1 (Dict.get?_isSome_iff.2 hk)
  apply Runs.bind
  refine Runs.liftE (a := t) (by rw [Dict.get, ht]) ?_
  apply Runs.bind
  refine (weightExpr_spec hq).mono ?_
  rintro W n2 ⟨-, -, hW⟩
  refine Runs.pure fun ρ a g => ?_
  have := formSum_identity hq hn hW (fun ρ v hv => (h.den _ _ ht).val ρ v trivial hv) ρ a g
  rw [show (Elem.quadrature r c (q.pointSet.indices.map Index.extent)).indexShape =
    q.pointSet.indices.map Index.extent from rfl, this]
  refine lsum_congr fun v hv => ?_
  have hv' : InB v _ := mem_ndindex.1 hv
  rw [at_getD hw hn hv']

/-- **C87**, exactness: a function interpolated into the quadrature element and integrated against `g` with
the rule of the element gives the exact integral whenever the product of the two is, at every point, a
polynomial of at most the degree for which the element was made. -/
theorem C87_exact [Field K] [CharZero K] [DecidableEq K] {F : FiatQuad K} {scheme : String} {D : Nat}
    (hF : FiatExact F scheme D) (Fi : Fiat K) (Du : FiatDual K) (hone : ∀ w, Du.isOne w = true → w = 1)
    {close : List K → List K → Bool} (hclose : ∀ x, close x x = true) (c : Cell) (deg : Degree)
    (hd : GoodDegree F scheme D c deg) (n : Nat) {fn : PSet K → M (Gem K)} {f : List K → K}
    (hfn : Evaluates fn (fun _ x _ => f x) [] n) :
    Yields (storeAndTabulate F scheme Fi Du close c deg fn) n fun s =>
      (s.coeffs.2.map Index.id).Nodup ∧ s.coeffs.2.map Index.extent = s.elem.indexShape ∧
      ∀ (g : List K → K) (ts : List (K × List Nat)),
        (∀ t ∈ ts, t.2.length = c.spatialDim ∧ Within c deg t.2) →
        (∀ x, x.length = c.spatialDim → f x * g x = polyVal ts x) → ∀ ρ,
        formSum s.weight s.rule.pointSet ρ s.elem.indexShape s.table
          (fun i => s.coeffs.1.eval (bindIx ρ s.coeffs.2 i) []) g = polyInt c ts := by
  suffices h : Runs (storeAndTabulate F scheme Fi Du close c deg fn) n fun s _ => _ from h
  unfold storeAndTabulate
  apply Runs.bind
  refine (makeQuadratureElement_spec hF 0 c deg n hd).mono ?_
  rintro ⟨q, e⟩ n1 ⟨m, he⟩
  dsimp only at m he
  subst he
  have hne : q.pointSet.indices.map Index.extent ≠ [] := by simpa using indices_of_ok m.ok
  apply Runs.bind
  have hT := quadBasisEvaluation_index (R := onlyRule q close) (r := 0) (c := c) (order := 0)
    (ext := q.pointSet.indices.map Index.extent) (ps := q.pointSet) (entity := none) m.wf (Nat.le_refl _) rfl rfl
    (almostEqual_self hclose _ (arrays_of_ok m.ok)) rfl hne
  refine (show Runs (evaluate _ _ _ _ _) n1 _ from by rw [evaluate]; exact hT).mono ?_
  rintro T n2 ⟨hn2, h⟩
  have hk : List.replicate c.spatialDim 0 ∈ T.keys := (h.keys _).2 ⟨by simp, by simp⟩
  obtain ⟨t, ht⟩ := Option.isSome_iff_exists.1 (Dict.get?_isSome_iff.2 hk)
  apply Runs.bind
  refine Runs.liftE (a := t) (by rw [Dict.get, ht]) ?_
  apply Runs.bind
  refine (weightExpr_spec m.ok).mono ?_
  rintro W n3 ⟨rfl, -, hW⟩
  have hnn : n ≤ n3 := Nat.le_trans m.fresh.2.2 hn2
  have hdual := dualEval_all (R := onlyRule q close) hone
    (.quadrature 0 c (q.pointSet.indices.map Index.extent)) n3 [] (by rw [Shaped]; trivial)
    (by rw [DualOK]; exact ⟨m.wf.mono hn2, rfl, hne⟩) (by rw [quadIds]; exact m.fresh.1) rfl (fn := fn) (f := fun _ x _ => f x) (fun _ _ _ => rfl)
    (fun r k _ hk hr => by
      obtain ⟨t, m', h1, h2, h3, h4⟩ := hfn r.2 k (Nat.le_trans hnn hk) hr
      exact ⟨t, m', h1, h2, ⟨h3, fun ρ v hV hv => h4 ρ v hV hv⟩⟩)
  obtain ⟨r, n4, h1, -, h3, h4, h5⟩ := hdual
  apply Runs.bind
  refine ⟨r, n4, h1, Runs.pure ⟨h3, h4, fun g ts hts hfg ρ => ?_⟩⟩
  have hsum := formSum_identity m.ok m.fresh.1 hW (fun ρ v hv => (h.den _ _ ht).val ρ v trivial hv) ρ
    (fun i => r.1.eval (bindIx ρ r.2 i) []) g
  refine hsum.trans ?_
  have : (lsum (ndindex (q.pointSet.indices.map Index.extent)) fun v =>
      weightAt q v * (r.1.eval (bindIx ρ r.2 v) []) * g (q.pointSet.at_ v)) = iterSum q (polyVal ts) := by
    rw [← sum_eq_iterSum m.ok m.fresh.1]
    refine lsum_congr fun v hv => ?_
    have hv' : InB v _ := mem_ndindex.1 hv
    have h6 := h5 ρ v hv'
    have hp := (PSet.pts_at m.wf).2 (ρ := bindIx (fun _ => 0) q.pointSet.indices v)
      (PSet.valid_bindIx m.fresh.1 _ hv')
    rw [map_bindIx _ m.fresh.1 (by rw [hv'.length]; simp)] at hp
    have h7 : dualValue (fiatDuals Du (onlyRule q close))
        (.quadrature 0 c (q.pointSet.indices.map Index.extent)) v (fun x _ => f x) = f (q.pointSet.at_ v) := by
      simp only [dualValue, fiatDuals, onlyRule, hp]
      rfl
    rw [← hfg (q.pointSet.at_ v) (m.width _ (List.mem_of_getElem? hp)), ← mul_assoc]
    congr 2
    exact h6.trans h7
  rw [this]
  show iterSum _ (fun x => lsum ts fun t => _) = lsum ts _
  rw [iterSum_sum]
  refine lsum_congr fun t ht => ?_
  beta_reduce
  rw [iterSum_mul, m.exact _ (hts t ht).1 (hts t ht).2]

/-! ## The hypotheses are met -/

namespace QuadratureElementExample

/-- A prism over a triangle times a quadrilateral. -/
def cell : Cell := .prod [.simplex 2, .quad]

/-- Degree 1 on the triangle, degrees 2 and 3 on the quadrilateral. -/
def deg : Degree := .tup [.int 1, .tup [.int 2, .int 3]]

theorem good : GoodDegree exF "default" 3 cell deg := by
  simp [cell, deg, GoodDegree, GoodDegreeL, Degree.expand, Available, exF]
  exact ⟨2, 3, by simp⟩

/-- The first coordinate of the point: an array of the first coordinates, indexed by the point indices. -/
def firstCoordinate (ps : PSet ℚ) : M (Gem ℚ) :=
  pure (.indexed (.literal (ps.indices.map Index.extent) fun v =>
    ((ps.pts.getD (ravel (ps.indices.map Index.extent) v) []).headD 0)) (ps.indices.map .free))

theorem firstCoordinate_evaluates : Evaluates firstCoordinate (fun _ x _ => x.headD 0) [] 0 := by
  intro ps m _ hw
  refine ⟨_, m, rfl, Nat.le_refl _, ?_, fun ρ z hV hz => ?_⟩
  · simp [Gem.shape]
  · have h := (PSet.pts_at hw).2 hV
    cases hz
    simp only [Gem.eval, List.map_map]
    show (ps.pts.getD (ravel _ (ps.indices.map fun i => ρ i.id)) []).headD 0 = _
    rw [List.getD_eq_getElem?_getD, h]
    rfl

/-- No FIAT element is involved. -/
def fiat : Fiat ℚ := ⟨fun _ _ _ _ _ _ => 0, fun _ => false, fun _ => false, fun _ => none, fun _ => none⟩

/-- ... nor its nodes. -/
def nodes : FiatDual ℚ := ⟨fun _ => [], fun _ _ => true, fun w => decide (w = 1)⟩

/-- The construction succeeds on the prism ... -/
example := C87_construct exF_exact 0 cell deg good 0

/-- ... a rule with points in the plane does not fit an interval ... -/
example := (C87_arguments 0 (.simplex 1) (.rule (.rule (.points .plain [[1 / 3, 1 / 3]] [⟨0, 1⟩]) [(1 / 2 : ℚ)]))).2.2
  _ 2 rfl rfl (by decide)

/-- ... a product rule of two and three points does fit its cell ... -/
example := C87_sum fiat (close := fun x y => decide (x = y)) (by simp) 0 (.prod [.simplex 1, .simplex 1])
  (.tensor [.rule (.points .plain [[1], [2]] [⟨0, 2⟩]) [3, 4],
    .rule (.points .plain [[0], [1], [2]] [⟨1, 3⟩]) [8, 9, 10]]) _ 2 2 (by simp [RuleOK, RuleOKL])
  (by simp [QRule.pointSet, QRule.pointSetL, PSet.indices, PSet.indicesL])
  (by simp [QRule.pointSet, QRule.pointSetL, PSet.WF, PSet.WFL]) (Nat.le_refl _) rfl

/-- ... and the first coordinate `x` of the triangle is integrated exactly against `3 z^2 w^3`, where `z` and
`w` are the coordinates of the quadrilateral. -/
example : Yields (storeAndTabulate exF "default" fiat nodes (fun x y => decide (x = y)) cell deg firstCoordinate) 0
    fun s => ∀ ρ, formSum s.weight s.rule.pointSet ρ s.elem.indexShape s.table
      (fun i => s.coeffs.1.eval (bindIx ρ s.coeffs.2 i) [])
      (fun x => 3 * (x.getD 2 0 ^ 2 * x.getD 3 0 ^ 3)) = 1 / 24 := by
  obtain ⟨s, n', h, -, -, h3⟩ := C87_exact exF_exact fiat nodes (by simp [nodes])
    (close := fun x y => decide (x = y)) (by simp) cell deg good 0 firstCoordinate_evaluates
  refine ⟨s, n', h, fun ρ => ?_⟩
  rw [h3 _ [(3, [1, 0, 2, 3])] (by simp [cell, deg, Within, WithinL, Degree.expand, Cell.spatialDim, Cell.spatialDimL])
    (fun x hx => ?_) ρ]
  · simp [cell, polyInt, moment, momentL, Cell.spatialDim, Nat.factorial]
    norm_num
  · match x, hx with
    | [x, y, z, w], _ =>
      simp [polyVal, monoVal]
      ring

end QuadratureElementExample

end FInAT.Props
