import Verif.Lemmas.Complete
import Verif.Props.Interpolate
import Verif.Props.Independent

/-!
# C107: the functions of an element include the polynomials of its degree
-/

namespace FInAT.Props

open FInAT Spec Elem MvPolynomial

section
variable {K : Type} [CommRing K] (φ : LeafVals K) (S : Nat → List K → Prop)

/-- **C107.** Composition keeps completeness: if the leaves of the tree contain all monomials of their degrees, then
the element contains, in every component, all monomials of the degree that the element reports. -/
theorem C107_complete (e : Elem) (hs : Shaped e) (h : CompleteTree φ S e) : Complete φ S e := complete e hs h

/-- A sum of functions of the element is a function of the element. -/
theorem represents_sum {ι : Type} (e : Elem) (c : Cell) (vs : List Nat) (l : List ι) (w : ι → K) (a : ι → List Nat → K)
    (u : ι → List K → List Nat → K) (h : ∀ i ∈ l, Represents φ S e c vs (a i) (u i)) :
    Represents φ S e c vs (fun j => lsum l fun i => w i * a i j) fun x z => lsum l fun i => w i * u i x z := by
  intro x z hx hz
  rw [feFunction_eq, lsum_congr (fun j _ => by rw [← lsum_mul_right]), lsum_comm]
  refine lsum_congr fun i hi => ?_
  rw [← h i hi x z hx hz, feFunction_eq, ← lsum_mul_left]
  exact lsum_congr fun j _ => by ring

/-- **C107.** A complete element contains every function whose components are polynomials of the degree of the element. -/
theorem C107_polynomials (e : Elem) (h : Complete φ S e) (c : Cell) (t : DegTree) (vs : List Nat) (hc : e.cell = .ok c)
    (ht : e.degree = .ok t) (hv : e.valueShape = .ok vs) (p : List Nat → MvPolynomial ℕ K)
    (hp : ∀ z, InRange z vs → p z ∈ PolyLt K c.spatialDim) (hd : ∀ z, InRange z vs → PolyOfDegree c t (p z)) :
    ∃ a, Represents φ S e c vs a fun x z => evalAt x (p z) := by
  classical
  have h1 : ∀ (m : ℕ →₀ ℕ) z₀, ∃ a, OfDegree c t m → InRange z₀ vs → Represents φ S e c vs a (unitMonomial c m z₀) := by
    intro m z₀
    by_cases h1 : OfDegree c t m
    · by_cases h2 : InRange z₀ vs
      · obtain ⟨a, ha⟩ := h c t vs hc ht hv m z₀ h1 h2
        exact ⟨a, fun _ _ => ha⟩
      · exact ⟨fun _ => 0, fun _ h => absurd h h2⟩
    · exact ⟨fun _ => 0, fun h => absurd h h1⟩
  choose a ha using h1
  have h2 : ∀ z₀ ∈ ndindex vs, Represents φ S e c vs
      (fun j => lsum (p z₀).support.toList fun m => coeff m (p z₀) * a m z₀ j)
      fun x z => lsum (p z₀).support.toList fun m => coeff m (p z₀) * unitMonomial c m z₀ x z := by
    intro z₀ hz₀
    have hz₀ : InRange z₀ vs := mem_ndindex.1 hz₀
    exact represents_sum φ S e c vs _ _ (fun m => a m z₀) _ fun m hm =>
      ha m z₀ (hd z₀ hz₀ m (Finset.mem_toList.1 hm)) hz₀
  refine ⟨_, fun x z hx hz => (represents_sum φ S e c vs (ndindex vs) (fun _ => 1) _ _ h2 x z hx hz).trans ?_⟩
  show (lsum (ndindex vs) fun z₀ => 1 * lsum (p z₀).support.toList fun m => coeff m (p z₀) * unitMonomial c m z₀ x z) =
    evalAt x (p z)
  rw [lsum_congr (g := fun z₀ => if z = z₀ then evalAt x (p z₀) else 0) (fun z₀ hz₀ => by
    have hz₀ : InRange z₀ vs := mem_ndindex.1 hz₀
    rw [one_mul]
    by_cases hzz : z = z₀
    · simp only [unitMonomial, if_pos hzz]
      exact (evalAt_mono (hp z₀ hz₀) (inCell_length hx)).symm
    · simp only [unitMonomial, if_neg hzz, mul_zero]
      exact lsum_zero fun _ _ => rfl)]
  exact lsum_delta (nodup_ndindex vs) (mem_ndindex.2 hz) fun z₀ => evalAt x (p z₀)

mutual
theorem inCell_all : ∀ (c : Cell) (x : List K), x.length = c.spatialDim → InCell (fun _ _ => True) c x
  | .simplex _, _, h => ⟨h, trivial⟩
  | .quad, _, h => ⟨h, fun _ _ => trivial⟩
  | .hex, _, h => ⟨h, fun _ _ => trivial⟩
  | .prod cs, x, h => inCellL_all cs x h
theorem inCellL_all : ∀ (cs : List Cell) (x : List K), x.length = Cell.spatialDimL cs → InCellL (fun _ _ => True) cs x
  | [], x, h => List.length_eq_zero_iff.1 h
  | c :: cs, x, h => by
    simp only [Cell.spatialDimL] at h
    exact ⟨x.take c.spatialDim, x.drop c.spatialDim, (List.take_append_drop _ _).symm,
      inCell_all c _ (by rw [List.length_take]; omega), inCellL_all cs _ (by rw [List.length_drop]; omega)⟩
end

end

section
variable {K : Type} [CommRing K] [DecidableEq K] (D : FiatDual K) (R : Rules K)

/-- **C107.** Interpolation is exact for polynomials: let the element have a dual basis and contain the monomials of its
degree, and let `fn` evaluate, at any point set, a function whose components are polynomials of the degree of the
element. Then `dual_evaluation` succeeds, and the finite element function with the coefficients it returns is the
polynomial, at all points and in all components. -/
theorem C107_interpolation (hone : ∀ w, D.isOne w = true → w = 1) (φ : LeafVals K) (e : Elem) (c : Cell) (t : DegTree)
    (n : Nat) (vs : List Nat) (hs : Shaped e) (hok : DualOK D R n e) (hq : (quadIds R e).Nodup)
    (hv : e.valueShape = .ok vs) (hc : e.cell = .ok c) (ht : e.degree = .ok t) (hp : DualPair φ (fiatDuals D R) e)
    (hcomp : CompleteTree φ (fun _ _ => True) e) (p : List Nat → MvPolynomial ℕ K)
    (hpv : ∀ z, InRange z vs → p z ∈ PolyLt K c.spatialDim) (hd : ∀ z, InRange z vs → PolyOfDegree c t (p z))
    (fn : PSet K → M (Gem K)) (hfn : Evaluates fn (fun _ x z => evalAt x (p z)) vs n) :
    Yields (dualEvaluation D R e fn) n fun r => ∀ ρ x z, x.length = c.spatialDim → InRange z vs →
      feFunction φ e c (fun i => r.1.eval (bindIx ρ r.2 (interpolated e i)) []) x z = evalAt x (p z) := by
  obtain ⟨a, ha⟩ := C107_polynomials φ _ e (complete e hs hcomp) c t vs hc ht hv p hpv hd
  obtain ⟨r, n', h1, _, _, _, h5⟩ := dualEval_all (D := D) (R := R) hone e n vs hs hok hq hv
    (f := fun _ x z => evalAt x (p z)) (fun _ _ _ => rfl) (fun r m _ h1 h2 => evaluates_runs hfn r.2 m h1 h2)
  refine ⟨r, n', h1, fun ρ x z hx hz => ?_⟩
  refine Eq.trans ?_ (ha x z (inCell_all c x hx) hz)
  rw [feFunction_eq, feFunction_eq]
  refine lsum_congr fun i hi => ?_
  have hi : InRange i _ := mem_ndindex.1 hi
  rw [h5 ρ i hi, (lawful_dual hs hp hc hv hi).congr _ (feFunction φ e c a) fun y w hy hw =>
    (ha y w (inCell_all c y hy) hw).symm, dualValue_feFunction D R hone φ e c n vs hs hok hq hv hc hp a i hi]

end

/-! ### The hypotheses are met -/

namespace CompleteCases

open IndependentExample

/-- All points. -/
def everywhere : Nat → List ℤ → Prop := fun _ _ => True

theorem cg1_at (j : Nat) (x : List ℤ) : basisValue (leafVals exFiat twoRule) (.leaf cg1)
    (List.replicate (Cell.simplex 1).spatialDim 0) ((Cell.simplex 1).dimension, 0) x [j] [] = evalAt x (exPoly cg1 j []) := rfl

theorem cg1_complete : Complete (leafVals exFiat twoRule) everywhere (.leaf cg1) := by
  intro c t vs hc ht hv m z₀ hm hz
  have hc : c = .simplex 1 := (Except.ok.inj hc).symm
  subst hc
  cases ht
  cases hv
  cases hz
  have hm : m 0 ≤ 1 := by simpa [OfDegree, cg1, List.range_succ] using hm
  refine ⟨fun j => if m 0 = 0 then 1 else if j = [1] then 1 else 0, fun x z hx hz => ?_⟩
  cases hz
  obtain ⟨s, rfl⟩ := List.length_eq_one_iff.1 (inCell_length hx)
  have hi : ndindex (Elem.leaf cg1).indexShape = [[0], [1]] := rfl
  have hdim : (Cell.simplex 1).spatialDim = 1 := rfl
  rw [feFunction_eq, hi]
  simp only [lsum_cons, lsum_nil, cg1_at, unitMonomial]
  rw [hdim]
  rcases (by omega : m 0 = 0 ∨ m 0 = 1) with h | h <;>
    simp [h, exPoly, cg1, evalAt, monoVal, List.range_succ]

/-- The bilinear element of the square. -/
def bilinear : Elem := .flattened (.tensorProduct [.leaf cg1, .leaf cg1])

theorem bilinear_shaped : Shaped bilinear := by simp [bilinear, Shaped]

theorem bilinear_tree : CompleteTree (leafVals exFiat twoRule) everywhere bilinear := by
  simp only [bilinear, CompleteTree, CompleteTreeL]
  exact ⟨⟨cg1_complete, cg1_complete, trivial⟩, ⟨1, rfl⟩, _, [.simplex 1, .simplex 1], rfl, rfl, by simp [cg1]⟩

/-- The bilinear function `3 + 2 x + x y`. -/
noncomputable def poly : MvPolynomial ℕ ℤ := C 3 + C 2 * X 0 + X 0 * X 1

theorem poly_vars : poly ∈ PolyLt ℤ Cell.quad.spatialDim := by
  have h0 : (X 0 : MvPolynomial ℕ ℤ) ∈ PolyLt ℤ Cell.quad.spatialDim := X_mem_supported.2 (by show 0 < 2; decide)
  have h1 : (X 1 : MvPolynomial ℕ ℤ) ∈ PolyLt ℤ Cell.quad.spatialDim := X_mem_supported.2 (by show 1 < 2; decide)
  exact add_mem (add_mem (Subalgebra.algebraMap_mem _ 3) (mul_mem (Subalgebra.algebraMap_mem _ 2) h0)) (mul_mem h0 h1)

theorem poly_degree : PolyOfDegree .quad (.leaf 1) poly := by
  classical
  intro m hm
  have h1 : ∀ j, m j ≤ degreeOf j poly := fun j => monomial_le_degreeOf j hm
  have h2 : ∀ j, degreeOf j poly ≤ 1 := by
    intro j
    refine (degreeOf_add_le _ _ _).trans (max_le ((degreeOf_add_le _ _ _).trans (max_le ?_ ?_)) ?_)
    · rw [degreeOf_C]; exact Nat.zero_le 1
    · refine (degreeOf_C_mul_le _ _ _).trans ?_
      rw [degreeOf_X]; split_ifs <;> simp
    · refine (degreeOf_mul_le _ _ _).trans ?_
      rw [degreeOf_X, degreeOf_X]
      by_cases h : j = 0
      · subst h; simp
      · rw [if_neg h]; split_ifs <;> simp
  exact ⟨(h1 0).trans (h2 0), (h1 1).trans (h2 1)⟩

/-- Vectors of such functions are functions of the vector-valued bilinear element. -/
example (tr : Bool) : ∃ a, Represents (leafVals exFiat twoRule) everywhere (.tensorFE bilinear [3] tr) .quad [3] a
    fun x z => evalAt x (C (z.headD 0 : ℤ) * poly) :=
  C107_polynomials _ _ _ (C107_complete _ _ (.tensorFE bilinear [3] tr)
    (by rw [Shaped]; exact ⟨bilinear_shaped, by simp⟩) (by rw [CompleteTree]; exact bilinear_tree))
    .quad (.leaf 1) [3] rfl rfl rfl (fun z => C (z.headD 0 : ℤ) * poly)
    (fun _ _ => mul_mem (Subalgebra.algebraMap_mem _ _) poly_vars)
    (fun _ _ m hm => poly_degree m (by
      rw [mem_support_iff, coeff_C_mul] at hm
      exact mem_support_iff.2 (right_ne_zero_of_mul hm)))

/-- A sum that contains the bilinear element and has its degree. -/
example : Complete (leafVals exFiat twoRule) everywhere (.enriched [.flattened (.tensorProduct [.leaf dg0, .leaf dg0]), bilinear]) :=
  C107_complete _ _ _ (by simp [Shaped, bilinear])
    (by simp only [CompleteTree, SomeComplete]; exact ⟨.leaf 1, rfl, .inr (.inl ⟨bilinear_tree, rfl⟩)⟩)

/-- An expression for the values of a function at the points of a point set: a table, indexed with the indices of the
point set. -/
noncomputable def table (f : List ℤ → ℤ) (ps : PSet ℤ) : M (Gem ℤ) :=
  pure (.indexed (.literal (ps.indices.map Index.extent) fun v => f (ps.pointAt (bindIx (fun _ => 0) ps.indices v)))
    (ps.indices.map .free))

theorem bindIx_values (ρ : Nat → Nat) : ∀ (ixs : List Index) (σ : Nat → Nat) (k : Nat), k ∈ ixs.map Index.id →
    bindIx σ ixs (ixs.map fun i => ρ i.id) k = ρ k
  | [], _, _, h => by simp at h
  | i :: ixs, σ, k, h => by
    simp only [List.map_cons, bindIx]
    by_cases hk : k ∈ ixs.map Index.id
    · exact bindIx_values ρ ixs _ k hk
    · rw [bindIx_of_not_mem hk]
      have : k = i.id := by simpa [hk] using h
      subst this
      simp

theorem table_evaluates (f : List ℤ → ℤ) (n : Nat) : Evaluates (table f) (fun _ x _ => f x) [] n := by
  intro ps m _ _
  refine ⟨_, m, rfl, Nat.le_refl _, rfl, fun ρ z _ _ => ?_⟩
  simp only [Gem.eval, List.map_map]
  congr 1
  refine PSet.pointAt_congr ps (List.map_congr_left fun i hi => ?_)
  exact bindIx_values ρ ps.indices _ i.id (List.mem_map.2 ⟨i, hi, rfl⟩)

/-- Interpolating `3 + 2 x + x y` in the bilinear element gives `3 + 2 x + x y`. -/
example := C107_interpolation exDual twoRule exDual_one (leafVals exFiat twoRule) bilinear .quad (.leaf 1) 1 []
  bilinear_shaped
  (by
    have h := exDual_ok cg1 (.inl rfl) 1
    simp only [bilinear, DualOK, DualOKL] at h ⊢
    exact ⟨h, h, trivial⟩)
  (by simp [bilinear, quadIds, quadIdsL]) rfl rfl rfl
  (by
    have h := exDual_pair cg1 (.inl rfl)
    simp only [bilinear]
    rw [DualPair, DualPair, DualPairL, DualPairL, DualPairL]
    exact ⟨h, h, trivial⟩)
  bilinear_tree (fun _ => poly) (fun _ _ => poly_vars) (fun _ _ => poly_degree) _
  (table_evaluates (fun x => evalAt x poly) 1)

/-- Values of the functions of the interval: constants, and the hat functions. -/
def values : LeafVals ℤ :=
  ⟨fun l _ _ x i _ => if l.degree = 0 then 1 else if i = [0] then 1 - x.headD 0 else x.headD 0, fun _ _ _ _ _ => 0⟩

end CompleteCases

open CompleteCases IndependentExample in
/-- **C107**, why H(div) and H(curl) elements are left out: the Raviart-Thomas element of the square reports degree 1, and
does not contain the function with components `y` and 0. -/
theorem C107_hdiv : rt.degree = .ok (.leaf 1) ∧ ¬ Complete values everywhere rt := by
  refine ⟨rfl, fun h => ?_⟩
  obtain ⟨a, ha⟩ := h .quad (.leaf 1) [2] rfl rfl rfl (fun j => if j = 1 then 1 else 0) [0]
    ⟨by decide, by decide⟩ (.cons (by decide) .nil)
  have h0 := ha [0, 0] [0] ⟨rfl, fun _ _ => trivial⟩ (.cons (by decide) .nil)
  have h1 := ha [0, 1] [0] ⟨rfl, fun _ _ => trivial⟩ (.cons (by decide) .nil)
  have he : feFunction values rt .quad a [0, 0] [0] = feFunction values rt .quad a [0, 1] [0] := by
    rw [feFunction_eq, feFunction_eq]
    have hb : ∀ j ∈ ndindex rt.indexShape, basisValue values rt (List.replicate Cell.quad.spatialDim 0) (Cell.quad.dimension, 0)
        [0, 0] j [0] = basisValue values rt (List.replicate Cell.quad.spatialDim 0) (Cell.quad.dimension, 0) [0, 1] j [0] := by
      decide +kernel
    exact lsum_congr fun j hj => congrArg (a j * ·) (hb j hj)
  rw [h0, h1] at he
  exact absurd he (by decide)

end FInAT.Props
