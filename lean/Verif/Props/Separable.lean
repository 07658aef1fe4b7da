import Verif.Lemmas.Separable

/-!
# C102: interpolation is linear, local, and separable on tensor products
-/

namespace FInAT.Props

open FInAT FInAT.Spec

variable {K : Type} [CommRing K] [DecidableEq K] (D : FiatDual K) (R : Rules K)

/-- **C102**, linear: `dual_evaluation` of `f`, of `g` and of `a f + b g` succeed, and the coefficients of the
third are the combination of those of the first two. -/
theorem C102_linear (hone : ∀ w, D.isOne w = true → w = 1) (e : Elem) (n : Nat) (vs : List Nat) (hs : Shaped e)
    (hok : DualOK D R n e) (hq : (quadIds R e).Nodup) (hv : e.valueShape = .ok vs) (a b : K)
    (fnf fng fnh : PSet K → M (Gem K)) (f g : (Nat → Nat) → List K → List Nat → K)
    (hf : Evaluates fnf f vs n) (hg : Evaluates fng g vs n)
    (hh : Evaluates fnh (fun ρ x z => a * f ρ x z + b * g ρ x z) vs n)
    (fi : IndependentOf f (quadIds R e) n) (gi : IndependentOf g (quadIds R e) n) :
    Yields (dualEvaluation D R e fnf) n fun rf => Yields (dualEvaluation D R e fng) n fun rg =>
      Yields (dualEvaluation D R e fnh) n fun rh => ∀ ρ i, InRange i e.indexShape →
        coefficient e rh ρ i = a * coefficient e rf ρ i + b * coefficient e rg ρ i := by
  obtain ⟨rf, nf, f1, -, -, -, f2⟩ := dualEval_all (D := D) (R := R) hone e n vs hs hok hq hv fi
    (fun r m _ h1 h2 => evaluates_runs hf r.2 m h1 h2)
  obtain ⟨rg, ng, g1, -, -, -, g2⟩ := dualEval_all (D := D) (R := R) hone e n vs hs hok hq hv gi
    (fun r m _ h1 h2 => evaluates_runs hg r.2 m h1 h2)
  obtain ⟨rh, nh, k1, -, -, -, k2⟩ := dualEval_all (D := D) (R := R) hone e n vs hs hok hq hv
    (f := fun ρ x z => a * f ρ x z + b * g ρ x z) (fun ρ ρ' h => by rw [fi ρ ρ' h, gi ρ ρ' h])
    (fun r m _ h1 h2 => evaluates_runs hh r.2 m h1 h2)
  obtain ⟨r, n', -, hd⟩ := C20_dual_basis_partial D R hone e n vs hs hok hq hv
  refine ⟨rf, nf, f1, rg, ng, g1, rh, nh, k1, fun ρ i hi => ?_⟩
  simp only [coefficient, f2 ρ i hi, g2 ρ i hi, k2 ρ i hi]
  exact isDualBasis_linear hd hi a b _ _

/-- **C102**, local: two functions with the same values at the points of the dual basis (`dual_basis[1]`) have
the same coefficients, whatever they do elsewhere. -/
theorem C102_local (hone : ∀ w, D.isOne w = true → w = 1) (e : Elem) (n : Nat) (vs : List Nat) (hs : Shaped e)
    (hok : DualOK D R n e) (hq : (quadIds R e).Nodup) (hv : e.valueShape = .ok vs)
    (fnf fng : PSet K → M (Gem K)) (f g : (Nat → Nat) → List K → List Nat → K)
    (hf : Evaluates fnf f vs n) (hg : Evaluates fng g vs n)
    (fi : IndependentOf f (quadIds R e) n) (gi : IndependentOf g (quadIds R e) n) :
    Yields (dualBasis D R e) n fun qp => Yields (dualEvaluation D R e fnf) n fun rf =>
      Yields (dualEvaluation D R e fng) n fun rg =>
        ∀ ρ, (∀ x ∈ qp.2.pts, ∀ z, InRange z vs → f ρ x z = g ρ x z) →
          ∀ i, InRange i e.indexShape → coefficient e rf ρ i = coefficient e rg ρ i := by
  obtain ⟨rf, nf, f1, -, -, -, f2⟩ := dualEval_all (D := D) (R := R) hone e n vs hs hok hq hv fi
    (fun r m _ h1 h2 => evaluates_runs hf r.2 m h1 h2)
  obtain ⟨rg, ng, g1, -, -, -, g2⟩ := dualEval_all (D := D) (R := R) hone e n vs hs hok hq hv gi
    (fun r m _ h1 h2 => evaluates_runs hg r.2 m h1 h2)
  obtain ⟨r, n', h1, _, h2⟩ := dualRuns hone e hs n n vs hok (Nat.le_refl _) hq hv
  refine ⟨r, n', h1, rf, nf, f1, rg, ng, g1, fun ρ h i hi => ?_⟩
  simp only [coefficient, f2 ρ i hi, g2 ρ i hi]
  exact isDualBasis_local (isDualBasis_of h2) h2.wf hi _ _ h

theorem mem_quadIdsL_pieces {k : Nat} {p : Piece K} : ∀ {parts : List (Piece K)}, p ∈ parts →
    k ∈ quadIds R p.elem → k ∈ quadIdsL R (parts.map (·.elem))
  | q :: parts, hp, hk => by
    simp only [List.map_cons, quadIdsL, List.mem_append]
    rcases List.mem_cons.1 hp with rfl | hp
    · exact .inl hk
    · exact .inr (mem_quadIdsL_pieces hp hk)

/-- `dual_evaluation` of every factor. -/
theorem pieces_evaluate (hone : ∀ w, D.isOne w = true → w = 1) (n : Nat) : ∀ parts : List (Piece K),
    (∀ p ∈ parts, Shaped p.elem) → DualOKL D R n (parts.map (·.elem)) →
    (quadIdsL R (parts.map (·.elem))).Nodup →
    (∀ p ∈ parts, ∃ vs, p.elem.valueShape = .ok vs ∧ Evaluates p.fn p.func vs n ∧
      IndependentOf p.func (quadIds R p.elem) n) →
    ∃ rs : List (Gem K × List Index),
      List.Forall₂ (fun p r => ∃ n', dualEvaluation D R p.elem p.fn n = .ok (r, n')) parts rs ∧
      ∀ ρ is, List.Forall₂ InRange is (Elem.indexShapeL (parts.map (·.elem))) →
        coefficientProduct ρ parts rs is =
          (List.zipWith (fun p i => dualValue (fiatDuals D R) p.elem i (p.func ρ)) parts is).prod
  | [], _, _, _, _ => ⟨[], .nil, fun ρ is _ => by simp [coefficientProduct]⟩
  | p :: parts, hs, hok, hq, he => by
    simp only [List.map_cons, DualOKL] at hok
    simp only [List.map_cons, quadIdsL] at hq
    rw [List.nodup_append] at hq
    obtain ⟨rs, h1, h2⟩ := pieces_evaluate hone n parts (fun q h => hs q (List.mem_cons_of_mem _ h)) hok.2 hq.2.1
      (fun q h => he q (List.mem_cons_of_mem _ h))
    obtain ⟨vs, hv, hf, fi⟩ := he p List.mem_cons_self
    obtain ⟨r, n', f1, -, -, -, f2⟩ := dualEval_all (D := D) (R := R) hone p.elem n vs (hs p List.mem_cons_self)
      hok.1 hq.1 hv fi (fun r m _ h1 h2 => evaluates_runs hf r.2 m h1 h2)
    refine ⟨r :: rs, .cons ⟨n', f1⟩ h1, fun ρ is hi => ?_⟩
    simp only [List.map_cons, Elem.indexShapeL] at hi
    cases hi with
    | @cons i _ is _ hi his =>
    simp only [coefficientProduct, coefficient, f2 ρ i hi, h2 ρ is his, List.zipWith_cons_cons, List.prod_cons]

/-- **C102**, separable: the coefficients of a function `g(x) h(y) …`, interpolated into the tensor product of
elements, are the products of the coefficients of `g`, `h`, … interpolated into the factors. -/
theorem C102_separable (hone : ∀ w, D.isOne w = true → w = 1) (φ : LeafVals K) (parts : List (Piece K)) (n : Nat)
    (vs : List Nat) (c : Cell) (hs : Shaped (.tensorProduct (parts.map (·.elem))))
    (hok : DualOK D R n (.tensorProduct (parts.map (·.elem))))
    (hq : (quadIds R (.tensorProduct (parts.map (·.elem)))).Nodup)
    (hv : (Elem.tensorProduct (parts.map (·.elem))).valueShape = .ok vs)
    (hc : (Elem.tensorProduct (parts.map (·.elem))).cell = .ok c)
    (hp : DualPair φ (fiatDuals D R) (.tensorProduct (parts.map (·.elem))))
    (hparts : ∀ p ∈ parts, ∃ vs, p.elem.valueShape = .ok vs ∧ Evaluates p.fn p.func vs n ∧
      IndependentOf p.func (quadIds R (.tensorProduct (parts.map (·.elem)))) n)
    (fn : PSet K → M (Gem K)) (hfn : Evaluates fn (fun ρ => productFunction ρ parts) vs n) :
    Yields (dualEvaluation D R (.tensorProduct (parts.map (·.elem))) fn) n fun r =>
      ∃ rs : List (Gem K × List Index),
        List.Forall₂ (fun p r => ∃ n', dualEvaluation D R p.elem p.fn n = .ok (r, n')) parts rs ∧
        ∀ ρ is, List.Forall₂ InRange is (parts.map fun p => p.elem.indexShape) →
          coefficient (.tensorProduct (parts.map (·.elem))) r ρ is.flatten = coefficientProduct ρ parts rs is := by
  have hix := indexShapeL_pieces parts
  obtain ⟨r, n', f1, -, -, -, f2⟩ := dualEval_all (D := D) (R := R) hone _ n vs hs hok hq hv
    (f := fun ρ => productFunction ρ parts)
    (fun ρ ρ' h => productFunction_congr parts fun p hp => by
      obtain ⟨_, _, _, hi⟩ := hparts p hp
      exact hi ρ ρ' h)
    (fun r m _ h1 h2 => evaluates_runs hfn r.2 m h1 h2)
  rw [Shaped] at hs
  simp only [DualOK] at hok
  simp only [DualPair] at hp
  simp only [quadIds] at hq hparts
  simp only [Elem.cell] at hc
  rw [bind_ok] at hc
  obtain ⟨cs, hcs, -⟩ := hc
  simp only [Elem.valueShape] at hv
  rw [bind_ok] at hv
  obtain ⟨ss, hss, -⟩ := hv
  have hsh : ∀ p ∈ parts, Shaped p.elem := fun p h => hs.2 _ (List.mem_map_of_mem h)
  obtain ⟨rs, h1, h2⟩ := pieces_evaluate D R hone n parts hsh hok hq fun p hp => by
    obtain ⟨vs, h1, h2, h3⟩ := hparts p hp
    refine ⟨vs, h1, h2, fun ρ ρ' h => h3 ρ ρ' fun k hk hn => h k hk fun hm => hn ?_⟩
    exact mem_quadIdsL_pieces R hp hm
  refine ⟨r, n', f1, rs, h1, fun ρ is hi => ?_⟩
  rw [hix] at hi
  rw [h2 ρ is hi, coefficient, f2 ρ _ (by simp only [Elem.indexShape]; exact inB_flatten hi)]
  simp only [dualValue]
  exact prodDual_separable ρ hsh hcs hss hp hi

namespace SeparableCases

/-- A constant function, of given shape. -/
def constFn (vs : List Nat) (f : List Nat → ℤ) (_ : PSet ℤ) : M (Gem ℤ) := pure (.literal vs f)

theorem constFn_evaluates (vs : List Nat) (f : List Nat → ℤ) (n : Nat) :
    Evaluates (constFn vs f) (fun _ _ => f) vs n :=
  fun _ m _ _ => ⟨_, m, rfl, Nat.le_refl _, rfl, fun _ _ _ _ => rfl⟩

/-- Factors: a vector-valued element on interval x interval with the function (3, 4), and a quadrature element
on an interval with the function 5. -/
def pieces : List (Piece ℤ) :=
  [⟨.hdiv (.tensorProduct [.leaf cg1, .leaf dg0]), constFn [2] (fun z => 3 + z.headD 0), fun _ _ z => 3 + z.headD 0⟩,
   ⟨.discontinuous exQuad, constFn [] (fun _ => 5), fun _ _ _ => 5⟩]

/-- Linearity applies to the transposed and the plain tree of `C20`. -/
example (tr : Bool) := C102_linear exDual twoRule exDual_one (exTree tr) 1 [3, 2] (exTree_shaped tr) (exTree_ok tr)
  (by simp [exTree, quadIds, quadIdsL, exQuad, twoRule, PSet.indices]) rfl 2 7
  exFn (constFn [3, 2] fun z => z.headD 0) (constFn [3, 2] _) _ _ exFn_evaluates (constFn_evaluates _ _ _)
  (constFn_evaluates _ _ _) (fun _ _ _ => rfl) (fun _ _ _ => rfl)

/-- Locality applies. -/
example (tr : Bool) := C102_local exDual twoRule exDual_one (exTree tr) 1 [3, 2] (exTree_shaped tr) (exTree_ok tr)
  (by simp [exTree, quadIds, quadIdsL, exQuad, twoRule, PSet.indices]) rfl
  exFn (constFn [3, 2] fun z => z.headD 0) _ _ exFn_evaluates (constFn_evaluates _ _ _)
  (fun _ _ _ => rfl) (fun _ _ _ => rfl)

/-- Separability applies to (3, 4) times 5. -/
example := C102_separable exDual twoRule exDual_one (leafVals exFiat twoRule) pieces 1 [2]
  (.prod [.prod [.simplex 1, .simplex 1], .simplex 1])
  (by have := exTree_shaped true; simp only [exTree] at this; rw [Shaped] at this; exact this.1)
  (by have := exTree_ok true; simp only [exTree] at this; rw [DualOK] at this; exact this)
  (by simp [pieces, quadIds, quadIdsL, exQuad, twoRule, PSet.indices]) rfl rfl
  (by have := exTree_pair true; simp only [exTree] at this; rw [DualPair] at this; exact this)
  (by
    intro p hp
    simp only [pieces, List.mem_cons, List.not_mem_nil, or_false] at hp
    rcases hp with rfl | rfl
    · exact ⟨[2], rfl, constFn_evaluates _ _ _, fun _ _ _ => rfl⟩
    · exact ⟨[], rfl, constFn_evaluates _ _ _, fun _ _ _ => rfl⟩)
  (constFn [2] fun z => (3 + z.headD 0) * 5)
  (fun _ m _ _ => ⟨_, m, rfl, Nat.le_refl _, rfl, fun _ z _ hz => by
    cases hz with
    | cons _ h => cases h; rfl⟩)

end SeparableCases

end FInAT.Props
