import Verif.Lemmas.Interpolate
import Verif.Props.Dual

/-!
# C82: interpolating a finite element function gives back its coefficients
-/

namespace FInAT.Props

open FInAT FInAT.Spec

variable {K : Type} [CommRing K] [DecidableEq K] (F : Fiat K) (D : FiatDual K) (R : Rules K)

/-- The degrees of freedom of an element that has a dual basis are linear, and dual to the basis functions:
applied to a finite element function they give its coefficients. -/
theorem dualValue_feFunction (hone : ∀ w, D.isOne w = true → w = 1) (φ : LeafVals K) (e : Elem) (c : Cell)
    (n : Nat) (vs : List Nat) (hs : Shaped e) (hok : DualOK D R n e) (hq : (quadIds R e).Nodup)
    (hv : e.valueShape = .ok vs) (hc : e.cell = .ok c) (hp : DualPair φ (fiatDuals D R) e)
    (a : List Nat → K) (i : List Nat) (hi : InRange i e.indexShape) :
    dualValue (fiatDuals D R) e i (feFunction φ e c a) = a i := by
  obtain ⟨r, n', _, h2⟩ := C20_dual_basis_partial D R hone e n vs hs hok hq hv
  have hcon := fun f => h2.contract (fun _ => 0) i f hi
  rw [← hcon]
  have e1 : ∀ (x : List K) (z : List Nat), feFunction φ e c a x z = lsum (ndindex e.indexShape) fun j =>
      a j * basisValue φ e (List.replicate c.spatialDim 0) (c.dimension, 0) x j z := fun _ _ => rfl
  show (lsum _ fun v => lsum (ndindex vs) fun z => _ * feFunction φ e c a _ z) = _
  rw [lsum_congr (fun v _ => lsum_congr fun z _ => by rw [e1, ← lsum_mul_left])]
  rw [lsum_congr (fun v _ => lsum_comm _ _ _), lsum_comm]
  rw [lsum_congr (g := fun j => if i = j then a j else 0)]
  · exact lsum_delta (nodup_ndindex _) (mem_ndindex.2 hi) a
  · intro j hj
    have hj : InRange j _ := mem_ndindex.1 hj
    have hd := C20_duality φ (fiatDuals D R) e c vs i j hs hp hc hv hi hj
    rw [← hcon] at hd
    rw [lsum_congr (g := fun v => a j * lsum (ndindex vs) fun z =>
      r.1.eval (bindIx (fun _ => 0) r.2.indices v) (i ++ z) *
        basisValue φ e (List.replicate c.spatialDim 0) (c.dimension, 0)
          (r.2.pointAt (bindIx (fun _ => 0) r.2.indices v)) j z)]
    · rw [lsum_mul_left]
      refine (congrArg (a j * ·) hd).trans ?_
      split_ifs <;> simp
    · intro v _
      rw [← lsum_mul_left]
      exact lsum_congr fun z _ => by ring

/-- **C82.** Interpolating a finite element function of the same element: let `fn` evaluate, at any point
set, the function with coefficients `a` (which may depend on other indices). Then `dual_evaluation` succeeds,
and the expression it returns has, for every coefficient index `i`, the value `a i`. -/
theorem C82_coefficients (hone : ∀ w, D.isOne w = true → w = 1) (φ : LeafVals K) (e : Elem) (c : Cell)
    (n : Nat) (vs : List Nat) (hs : Shaped e) (hok : DualOK D R n e) (hq : (quadIds R e).Nodup)
    (hv : e.valueShape = .ok vs) (hc : e.cell = .ok c) (hp : DualPair φ (fiatDuals D R) e)
    (a : (Nat → Nat) → List Nat → K) (ha : IndependentOf a (quadIds R e) n)
    (fn : PSet K → M (Gem K)) (hfn : Evaluates fn (fun ρ => feFunction φ e c (a ρ)) vs n) :
    Yields (dualEvaluation D R e fn) n fun r => r.1.shape = [] ∧ (r.2.map Index.id).Nodup ∧
      r.2.map Index.extent = interpolatedShape e ∧ ∀ ρ i, InRange i e.indexShape →
        r.1.eval (bindIx ρ r.2 (interpolated e i)) [] = a ρ i := by
  obtain ⟨r, n', h1, h2, h3, h4, h5⟩ := dualEval_all (D := D) (R := R) hone e n vs hs hok hq hv
    (f := fun ρ => feFunction φ e c (a ρ)) (fun ρ ρ' h => by rw [ha ρ ρ' h])
    (fun r m _ h1 h2 => evaluates_runs hfn r.2 m h1 h2)
  refine ⟨r, n', h1, h2, h3, h4, fun ρ i hi => ?_⟩
  rw [h5 ρ i hi]
  exact dualValue_feFunction D R hone φ e c n vs hs hok hq hv hc hp (a ρ) i hi

/-- **C82**, end to end: the function is evaluated by tabulating the element (`basis_evaluation`) at whatever
points `dual_evaluation` asks for and contracting with a tensor of coefficients. The element accepts its own
points, and the result of the interpolation is the tensor of coefficients. -/
theorem C82_interpolation (hone : ∀ w, D.isOne w = true → w = 1) (e : Elem) (c : Cell)
    (n : Nat) (vs : List Nat) (hs : Shaped e) (hok : DualOK D R n e) (hi : InterpOK F D R e)
    (hq : (quadIds R e).Nodup) (hv : e.valueShape = .ok vs) (hc : e.cell = .ok c)
    (hp : DualPair (leafVals F R) (fiatDuals D R) e)
    (coeffs : Gem K) (hsh : coeffs.shape = e.indexShape) (ha : IndependentOf coeffs.eval (quadIds R e) n) :
    Yields (dualEvaluation D R e (feExpression F R e coeffs)) n fun r => r.1.shape = [] ∧
      (r.2.map Index.id).Nodup ∧ r.2.map Index.extent = interpolatedShape e ∧
      ∀ ρ i, InRange i e.indexShape →
        r.1.eval (bindIx ρ r.2 (interpolated e i)) [] = coeffs.eval ρ i := by
  obtain ⟨r, n', h1, h2, h3, h4, h5⟩ := dualEval_all (D := D) (R := R) hone e n vs hs hok hq hv
    (f := fun ρ => feFunction (leafVals F R) e c (coeffs.eval ρ)) (fun ρ ρ' h => congrArg (feFunction _ e c) (ha ρ ρ' h))
    (fn := feExpression F R e coeffs)
    (fun r m hr hm hw => feExpression_spec hs hc hv hw (own_points e c hok hi hc hr).2 hsh
      fun ρ ρ' hag => ha ρ ρ' fun k hk _ => hag k (Nat.lt_of_lt_of_le hk hm))
  refine ⟨r, n', h1, h2, h3, h4, fun ρ i hi => ?_⟩
  rw [h5 ρ i hi]
  exact dualValue_feFunction D R hone _ e c n vs hs hok hq hv hc hp (coeffs.eval ρ) i hi

/-- **C82.** Interpolating twice is interpolating once: let `fn` evaluate any function `f`, and let `fn₂`
evaluate the finite element function whose coefficients are the results of the first interpolation. Then the
second interpolation gives the same coefficients as the first. -/
theorem C82_twice (hone : ∀ w, D.isOne w = true → w = 1) (φ : LeafVals K) (e : Elem) (c : Cell)
    (n : Nat) (vs : List Nat) (hs : Shaped e) (hok : DualOK D R n e) (hq : (quadIds R e).Nodup)
    (hv : e.valueShape = .ok vs) (hc : e.cell = .ok c) (hp : DualPair φ (fiatDuals D R) e)
    (fn : PSet K → M (Gem K)) (f : (Nat → Nat) → List K → List Nat → K) (hfn : Evaluates fn f vs n)
    (hf : IndependentOf f (quadIds R e) n) :
    Yields (dualEvaluation D R e fn) n fun r => ∀ fn₂ : PSet K → M (Gem K),
      Evaluates fn₂ (fun ρ => feFunction φ e c fun j => r.1.eval (bindIx ρ r.2 (interpolated e j)) []) vs n →
      Yields (dualEvaluation D R e fn₂) n fun r₂ => ∀ ρ i, InRange i e.indexShape →
        r₂.1.eval (bindIx ρ r₂.2 (interpolated e i)) [] = r.1.eval (bindIx ρ r.2 (interpolated e i)) [] := by
  obtain ⟨r, n', h1, h2, h3, h4, h5⟩ := dualEval_all (D := D) (R := R) hone e n vs hs hok hq hv
    (f := f) hf (fun r m _ h1 h2 => evaluates_runs hfn r.2 m h1 h2)
  refine ⟨r, n', h1, fun fn₂ hfn₂ => ?_⟩
  have hext : ∀ ρ, feFunction φ e c (fun j => r.1.eval (bindIx ρ r.2 (interpolated e j)) []) =
      feFunction φ e c (fun j => dualValue (fiatDuals D R) e j (f ρ)) := by
    intro ρ
    funext x z
    exact lsum_congr fun j hj => congrArg (· * _) (h5 ρ j (mem_ndindex.1 hj))
  have hfn₂' : Evaluates fn₂ (fun ρ => feFunction φ e c fun j => dualValue (fiatDuals D R) e j (f ρ)) vs n := by
    intro ps m hm hw
    obtain ⟨t, m', a1, a2, a3, a4⟩ := hfn₂ ps m hm hw
    exact ⟨t, m', a1, a2, a3, fun ρ z h1 h2 =>
      (a4 ρ z h1 h2).trans (congrFun (congrFun (hext ρ) _) z)⟩
  obtain ⟨r₂, n₂, b1, _, _, _, b5⟩ := C82_coefficients D R hone φ e c n vs hs hok hq hv hc hp
    (fun ρ j => dualValue (fiatDuals D R) e j (f ρ)) (fun ρ ρ' h => funext fun j => congrArg (dualValue _ e j) (hf ρ ρ' h))
    fn₂ hfn₂'
  exact ⟨r₂, n₂, b1, fun ρ i hi => by rw [b5 ρ i hi, h5 ρ i hi]⟩

/-! ### The hypotheses are met -/

namespace InterpolateCases

theorem own_tree (tr : Bool) : InterpOK exFiat exDual twoRule (exTree tr) := by
  have h1 := (exLeaf 0 cg1 (.inl rfl)).1
  have h0 := (exLeaf 0 dg0 (.inr (.inr rfl))).1
  simp only [exTree, InterpOK, InterpOKL, and_true, exQuad]
  refine ⟨⟨⟨h1, ?_⟩, ⟨h0, ?_⟩⟩, ?_⟩
  · decide +kernel
  · decide +kernel
  · decide +kernel

/-- The coefficients 100, 101, ... -/
def coeffs (tr : Bool) : Gem ℤ := .literal (exTree tr).indexShape fun v => 100 + ravel (exTree tr).indexShape v

/-- A tree with 12 basis functions with values of shape (3, 2) on a product of three intervals: interpolating
the function with coefficients 100, ..., 111 gives 100, ..., 111. -/
example (tr : Bool) := C82_interpolation exFiat exDual twoRule exDual_one (exTree tr)
  (.prod [.prod [.simplex 1, .simplex 1], .simplex 1]) 1 [3, 2] (exTree_shaped tr) (exTree_ok tr) (own_tree tr)
  (by simp [exTree, quadIds, quadIdsL, exQuad, twoRule, PSet.indices]) rfl rfl (exTree_pair tr)
  (coeffs tr) rfl (fun _ _ _ => rfl)

end InterpolateCases

end FInAT.Props
