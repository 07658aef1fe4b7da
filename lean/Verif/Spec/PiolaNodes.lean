import Verif.Spec.Zany
import Mathlib.Algebra.Module.LinearMap.Defs
import Mathlib.Algebra.Module.Pi
import Mathlib.Algebra.BigOperators.GroupWithZero.Action
import Mathlib.LinearAlgebra.Matrix.NonsingularInverse

/-!
# Degrees of freedom of the Piola-mapped elements

`A` is a space of scalar functions on the cell; a function on the physical cell and its composition with the map from
the reference cell are the same element of `A`, so that values at points and averages over facets are the same linear
functionals `A → K` for both cells. Vector fields have components in `A`.
-/

namespace FInAT.Spec.PiolaNodes

open Finset

variable {K A : Type} [Field K] [AddCommGroup A] [Module K A] {d : Nat}

/-- The scalar function `u · v` for a constant vector `v`. -/
def dotWith (v : Nat → K) (u : Fin d → A) : A := ∑ i : Fin d, v i • u i

/-- The contravariant Piola image `J û / det J` of a vector field. -/
def piolaPush (J : Nat → Nat → K) (detJ : K) (u : Fin d → A) : Fin d → A :=
  fun i => detJ⁻¹ • dotWith (J i) u

/-- The inverse matrix. -/
noncomputable def inv (d : Nat) (J : Nat → Nat → K) : Matrix (Fin d) (Fin d) K := (Matrix.of fun i j : Fin d => J i j)⁻¹

/-- `det J · J⁻¹ u`: the field on the reference cell of which `u` is the image. -/
noncomputable def piolaPull (J : Nat → Nat → K) (detJ : K) (u : Fin d → A) : Fin d → A :=
  fun i => ∑ j : Fin d, (detJ * inv d J i j) • u j

/-- The double Piola image `J Ŝ Jᵀ / (det J)²` of a tensor field. -/
def doublePush (J : Nat → Nat → K) (detJ : K) (S : Fin d → Fin d → A) : Fin d → Fin d → A :=
  fun i j => (detJ * detJ)⁻¹ • ∑ a : Fin d, ∑ b : Fin d, (J i a * J j b) • S a b

/-- `(det J)² J⁻¹ S J⁻ᵀ`. -/
noncomputable def doublePull (J : Nat → Nat → K) (detJ : K) (S : Fin d → Fin d → A) : Fin d → Fin d → A :=
  fun i j => ∑ a : Fin d, ∑ b : Fin d, (detJ * detJ * (inv d J i a * inv d J j b)) • S a b

/-- `J v`. -/
def imageOf (d : Nat) (J : Nat → Nat → K) (v : Nat → K) : Nat → K := fun i => ∑ j ∈ range d, J i j * v j

/-- The frame of a facet with tangents `t₀` (and `t₁`): first the normal, `t₀` turned clockwise in the plane and
`t₀ × t₁` in space, then the tangents. -/
def frame (d : Nat) (t : Nat → Nat → K) (c : Nat) : Nat → K :=
  match c with
  | 0 => fun i =>
    if d = 2 then (if i = 0 then t 0 1 else - t 0 0)
    else t 0 ((i + 1) % 3) * t 1 ((i + 2) % 3) - t 0 ((i + 2) % 3) * t 1 ((i + 1) % 3)
  | c + 1 => t c

/-- Tangents of the image of a facet. -/
def images (d : Nat) (J : Nat → Nat → K) (t : Nat → Nat → Nat → K) : Nat → Nat → Nat → K :=
  fun f c => imageOf d J (t f c)

/-! ### Vector fields -/

/-- A node of a vector valued element: a component, the divergence, a component in the frame of facet `f`, or anything
else, each with the functional it is measured by. -/
inductive Node (K A : Type) [Field K] [AddCommGroup A] [Module K A] (d : Nat) where
  | component (l : A →ₗ[K] K) (c : Fin d)
  | divergence (l : A →ₗ[K] K)
  | facet (f : Nat) (l : A →ₗ[K] K) (c : Nat)
  | other (l : (Fin d → A) →ₗ[K] K)

/-- The node on a cell with facet tangents `t` and partial derivatives `D`; `pull` brings fields to the reference
cell. -/
def Node.value (t : Nat → Nat → Nat → K) (D : Fin d → A →ₗ[K] A) (pull : (Fin d → A) → Fin d → A) :
    Node K A d → (Fin d → A) → K
  | .component l c, u => l (u c)
  | .divergence l, u => l (∑ i : Fin d, D i (u i))
  | .facet f l c, u => l (dotWith (frame d (t f) c) u)
  | .other l, u => l (pull u)

/-- The components of a vector measured by the same functional, or a divergence. -/
inductive Group (K A : Type) [Field K] [AddCommGroup A] [Module K A] where
  | vector (l : A →ₗ[K] K)
  | divergence (l : A →ₗ[K] K)

def Group.nodes (d : Nat) : Group K A → List (Node K A d)
  | .vector l => (List.finRange d).map (Node.component l)
  | .divergence l => [.divergence l]

/-- The basis functions on the physical cell for the matrix `M` that `basis_transformation` returns:
`ψ_i = Σ_j M[i, j] u_j`, where `u_j` is the Piola image of the `j`-th of the `N` functions of the FIAT element. -/
def vectorBasis (N : Nat) (M : Nat → Nat → K) (J : Nat → Nat → K) (detJ : K) (φ : Nat → Fin d → A) :
    Nat → Fin d → A := fun i => ∑ j ∈ range N, M i j • piolaPush J detJ (φ j)

/-! ### Symmetric tensor fields -/

/-- `σ n`. -/
def traction (n : Nat → K) (S : Fin d → Fin d → A) : Fin d → A := fun i => dotWith n (S i)

/-- A node of a symmetric tensor valued element: a component (times the square of the size of the cell at vertex `v`, if
there is one), a component in the frame of facet `f` of the traction, or anything else. -/
inductive SNode (K A : Type) [Field K] [AddCommGroup A] [Module K A] (d : Nat) where
  | component (v : Option Nat) (l : A →ₗ[K] K) (i j : Fin d)
  | facet (f : Nat) (l : A →ₗ[K] K) (c : Nat)
  | other (l : (Fin d → Fin d → A) →ₗ[K] K)

def SNode.value (h : Nat → K) (t : Nat → Nat → Nat → K) (pull : (Fin d → Fin d → A) → Fin d → Fin d → A) :
    SNode K A d → (Fin d → Fin d → A) → K
  | .component none l i j, S => l (S i j)
  | .component (some v) l i j, S => h v * h v * l (S i j)
  | .facet f l c, S => l (dotWith (frame d (t f) c) (traction (frame d (t f) 0) S))
  | .other l, S => l (pull S)

/-- As `vectorBasis`, with the double Piola image. -/
def tensorBasis (N : Nat) (M : Nat → Nat → K) (J : Nat → Nat → K) (detJ : K) (φ : Nat → Fin d → Fin d → A) :
    Nat → Fin d → Fin d → A := fun i => ∑ j ∈ range N, M i j • doublePush J detJ (φ j)

end FInAT.Spec.PiolaNodes
