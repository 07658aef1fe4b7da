import Verif.Spec.PiolaNodes
import Mathlib.Algebra.Module.Submodule.Basic
import Mathlib.RingTheory.Polynomial.DegreeLT

/-!
# Fields on two cells with a common facet

`T` is a space of functions on a facet, `on f` restricts scalar functions of the cell to facet `f`. Facets of different
cells that are the same set of points have the same functions on them.
-/

namespace FInAT.Spec.PiolaNodes

open Finset

variable {K A T : Type} [Field K] [AddCommGroup A] [Module K A] [AddCommGroup T] [Module K T] {d : Nat}

/-- The field with coefficients `a` in the basis `ψ`. -/
def fieldOf {F : Type} [AddCommGroup F] [Module K F] (n : Nat) (a : Nat → K) (ψ : Nat → F) : F :=
  ∑ i ∈ range n, a i • ψ i

/-- A function of the space `W` on a facet for which the functionals `l 0, ..., l (P - 1)` vanish is zero. -/
def Unisolvent (W : Submodule K T) (l : Nat → T →ₗ[K] K) (P : Nat) : Prop :=
  ∀ p ∈ W, (∀ m < P, l m p = 0) → p = 0

/-- Two more functionals, before the others. -/
def withEnds (a b : T →ₗ[K] K) (l : Nat → T →ₗ[K] K) : Nat → T →ₗ[K] K
  | 0 => a
  | 1 => b
  | m + 2 => l m

/-- Facets with tangents `t` and `t'` have the same tangents. -/
def SameTangents (d : Nat) (t t' : Nat → Nat → K) : Prop := ∀ k, k + 1 < d → ∀ i < d, t k i = t' k i

/-- The integral over the unit interval against `w`. -/
noncomputable def moment (w : Polynomial K) : Polynomial K →ₗ[K] K where
  toFun p := Zany.integral 0 1 (p * w)
  map_add' p q := by
    rw [add_mul]
    exact Polynomial.sum_add_index _ _ _ (by simp) (by intros; ring)
  map_smul' c p := by
    rw [smul_mul_assoc]
    unfold Zany.integral
    rw [Polynomial.sum_smul_index _ _ _ (by simp)]
    simp only [Polynomial.sum, RingHom.id_apply, smul_eq_mul, Finset.mul_sum]
    exact Finset.sum_congr rfl fun i _ => by ring

end FInAT.Spec.PiolaNodes
