import Verif.Model.QuadOrient
import Verif.Spec.Quadrature

/-!
# Symmetries of quadrature rules
-/

namespace FInAT.Spec

open FInAT

variable {K : Type}

mutual
/-- The axes of a cell: the factors of products, taken apart completely; a quadrilateral has two intervals. -/
def axesOf : Cell → List Cell
  | .prod cs => axesOfL cs
  | .quad => [.simplex 1, .simplex 1]
  | c => [c]
/-- ... for lists. -/
def axesOfL : List Cell → List Cell
  | [] => []
  | c :: cs => axesOf c ++ axesOfL cs
end

/-- The image of a point of a product when axis `k` is mapped by its symmetry number `ios[k]`; `sym c o` is the symmetry number
`o` of the cell `c` (for the interval `0` is the identity and `1` the reflection). -/
def moveAxes (sym : Cell → Nat → List K → List K) : List Cell → List Nat → List K → List K
  | c :: cs, o :: os, x => sym c o (x.take c.spatialDim) ++ moveAxes sym cs os (x.drop c.spatialDim)
  | _, _, _ => []

/-- What FIAT says about one of its rules: a permutation of the points for some symmetries of the cell, such that the
points are permuted as the symmetry moves them, and the weights are not changed. -/
structure MapOK (sym : Nat → List K → List K) (pw : List (List K) × List K) (m : OMap) : Prop where
  perm : ∀ o p, m.get? o = some p → p.Perm (List.range pw.1.length)
  point : ∀ o p, m.get? o = some p → ∀ j < pw.1.length, pw.1.getD (p.getD j 0) [] = sym o (pw.1.getD j [])
  weight : ∀ o p, m.get? o = some p → ∀ j < pw.1.length, pw.2[p.getD j 0]? = pw.2[j]?

/-- FIAT's rules have points in their cell and carry one map, which is correct if it is there. -/
structure OrientOK (F : FiatOrient K) (sym : Cell → Nat → List K → List K) : Prop where
  gaussDim : ∀ n, ∀ x ∈ (F.gauss n).1, x.length = 1
  gaussMap : ∀ n, ∃ m, F.gaussMaps n = [m] ∧ ∀ m', m = some m' → MapOK (sym (.simplex 1)) (F.gauss n) m'
  schemeDim : ∀ c d s pw, F.scheme c d s = .ok pw → ∀ x ∈ pw.1, x.length = c.spatialDim
  schemeMap : ∀ c d s pw, F.scheme c d s = .ok pw →
    ∃ m, F.schemeMaps c d s = [m] ∧ ∀ m', m = some m' → MapOK (sym c) pw m'

/-- One permutation for each axis, taken from the maps of a rule at the orientations `os`. -/
def Selected (ms : List OMap) (os : List Nat) (ps : List (List Nat)) : Prop :=
  List.Forall₂ (fun (mo : OMap × Nat) p => mo.1.get? mo.2 = some p) (ms.zip os) ps ∧ os.length = ms.length

/-- Axis `k` of a multi-index of points is moved by the permutation `ps[k]`. -/
def permute (ps : List (List Nat)) (v : List Nat) : List Nat := List.zipWith (fun p j => p.getD j 0) ps v

/-- The axes of a point exchanged: group `k` of `d` coordinates of the image is group `σ[k]` of the point. -/
def exchangeAxes (d : Nat) (σ : List Nat) (x : List K) : List K :=
  (σ.map fun k => (x.drop (k * d)).take d).flatten

/-- The axes of a multi-index exchanged. -/
def exchange (σ v : List Nat) : List Nat := σ.map fun k => v.getD k 0

end FInAT.Spec
