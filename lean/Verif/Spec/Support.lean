import Verif.Spec.Basis
import Verif.Spec.Tab
import Verif.Spec.Quadrature
import Mathlib.Algebra.Order.Field.Basic

/-!
# Support of basis functions on entities
-/

namespace FInAT.Spec

open FInAT

variable {K : Type} [Field K] [LinearOrder K]

mutual
/-- The points of (the reference cell of) an entity of dimension `dim` of the cell: the unit simplex,
the unit square or cube, or products of these. -/
def InEntity : Cell → Dim → List K → Prop
  | .simplex _, .int k, x => x.length = k ∧ (∀ a ∈ x, 0 ≤ a) ∧ x.sum ≤ 1
  | .quad, .int k, x => x.length = k ∧ ∀ a ∈ x, 0 ≤ a ∧ a ≤ 1
  | .hex, .int k, x => x.length = k ∧ ∀ a ∈ x, 0 ≤ a ∧ a ≤ 1
  | .prod cs, .tup ds, x => InEntityL cs ds x
  | _, _, _ => False
/-- Points of a product: consecutive pieces are points of the factors. -/
def InEntityL : List Cell → List Dim → List K → Prop
  | [], [], x => x = []
  | c :: cs, d :: ds, x => InEntity c d (x.take d.total) ∧ InEntityL cs ds (x.drop d.total)
  | _, _, _ => False
end

/-- Some component of basis function `j` of the element is non-zero at some point of the entity. -/
def NonVanishing (φ : LeafVals K) (e : Elem) (c : Cell) (ent : Dim × Nat) (j : Nat) : Prop :=
  ∃ x z, InEntity c ent.1 x ∧ InRange z (vshape e) ∧
    basisValue φ e (List.replicate c.spatialDim 0) ent x (unravel e.indexShape j) z ≠ 0

/-- `d` lists for every entity of the cell, without repetitions, exactly the dofs whose basis function
does not vanish on the entity. -/
structure SupportOf (φ : LeafVals K) (e : Elem) (c : Cell) (d : EntityDofs) : Prop where
  covers : Covers d c.topology
  nodup : ∀ dim n, (dim, n) ∈ c.topology → ∀ k < n, (dofsOn d dim k).Nodup
  listed : ∀ dim n, (dim, n) ∈ c.topology → ∀ k < n, ∀ j,
    j ∈ dofsOn d dim k ↔ j < e.spaceDim ∧ NonVanishing φ e c (dim, k) j

/-- The sum of the squares of the components of a basis function. -/
def squareSum (φ : LeafVals K) (e : Elem) (c : Cell) (ent : Dim × Nat) (i : List Nat) (x : List K) : K :=
  ((ndindex (vshape e)).map fun z => basisValue φ e (List.replicate c.spatialDim 0) ent x i z ^ 2).sum

/-- The squares of the basis functions on the entities are polynomials of the doubled degree. -/
structure SquarePoly (φ : LeafVals K) (e : Elem) (c : Cell) (deg2 : Degree) (sub : Dim → Cell)
    (ts : Dim → Nat → Nat → List (K × List Nat)) : Prop where
  within : ∀ dim n, (dim, n) ∈ c.topology → ∀ k < n, ∀ j < e.spaceDim, ∀ t ∈ ts dim k j,
    t.2.length = (sub dim).spatialDim ∧ Within (sub dim) deg2 t.2
  value : ∀ dim n, (dim, n) ∈ c.topology → ∀ k < n, ∀ j < e.spaceDim, ∀ x, x.length = (sub dim).spatialDim →
    squareSum φ e c (dim, k) (unravel e.indexShape j) x = polyVal (ts dim k j) x

mutual
/-- The degree of an element as the degree of a polynomial. -/
def degreeOf : DegTree → Degree
  | .leaf n => .int n
  | .node ts => .tup (degreeOfL ts)
/-- ... entry by entry. -/
def degreeOfL : List DegTree → List Degree
  | [] => []
  | t :: ts => degreeOf t :: degreeOfL ts
end

/-- The components `z` of the basis functions on the entities are polynomials of the degree `t` of the element. -/
structure DegreePoly (φ : LeafVals K) (e : Elem) (c : Cell) (t : DegTree) (sub : Dim → Cell)
    (ps : Dim → Nat → Nat → List Nat → List (K × List Nat)) : Prop where
  within : ∀ dim n, (dim, n) ∈ c.topology → ∀ k < n, ∀ j < e.spaceDim, ∀ z ∈ ndindex (vshape e), ∀ a ∈ ps dim k j z,
    a.2.length = (sub dim).spatialDim ∧ Within (sub dim) (degreeOf t) a.2
  value : ∀ dim n, (dim, n) ∈ c.topology → ∀ k < n, ∀ j < e.spaceDim, ∀ z ∈ ndindex (vshape e), ∀ x,
    x.length = (sub dim).spatialDim →
    basisValue φ e (List.replicate c.spatialDim 0) (dim, k) x (unravel e.indexShape j) z = polyVal (ps dim k j z) x

/-- The components of a wrapped element are, up to sign, the components of the element and zeros, and every
component of the element occurs. -/
def Selects (sel : Except Err (List Comp)) (w e : Elem) : Prop :=
  ∃ ws comps, w.valueShape = .ok ws ∧ sel = .ok comps ∧ e.valueShape = .ok [comps.length] ∧
    (∀ neg ix, Comp.entry neg ix ∈ comps → InRange ix ws) ∧
    ∀ ix, InRange ix ws → ∃ neg, Comp.entry neg ix ∈ comps

mutual
/-- Trees whose parts at which the support is computed by integration (everything that is not a tensor product,
a flattened product, an enriched or mixed element or a wrapper) satisfy `P`; flattened cells are cubes, components
of mixed elements fit, wrappers select all components. -/
def Composed (P : Elem → Prop) : Elem → Prop
  | .leaf l => P (.leaf l)
  | .tensorProduct fs => ComposedL P fs
  | .flattened p => Composed P p ∧ ∀ c, p.cell = .ok c → IsCube c
  | .enriched es => ComposedL P es
  | .mixedSub e size offset => Composed P e ∧ ∃ vs, e.valueShape = .ok vs ∧ offset + vs.prod ≤ size
  | .discontinuous e => P (.discontinuous e)
  | .tensorFE e shape tr => P (.tensorFE e shape tr)
  | .hdiv w => Composed P w ∧ Selects (selectHdiv w.factorsOf) w (.hdiv w)
  | .hcurl w => Composed P w ∧ Selects (selectHcurl w.factorsOf) w (.hcurl w)
  | .quadrature r c ext => P (.quadrature r c ext)
/-- ... for lists. -/
def ComposedL (P : Elem → Prop) : List Elem → Prop
  | [] => True
  | e :: es => Composed P e ∧ ComposedL P es
end

end FInAT.Spec
