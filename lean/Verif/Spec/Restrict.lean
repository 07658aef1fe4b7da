import Verif.Model.Restrict
import Verif.Spec.Basis

/-!
# What restriction to entities means

The basis functions of an element, each with the entity it is attached to, as functions of derivative, entity,
point and component: `attached`. Restricting keeps those whose entity has the right dimension.
-/

namespace FInAT.Spec

open FInAT

/-- A basis function: derivative, entity, point and component to value. -/
abbrev BFun (K : Type) := List Nat → Dim × Nat → List K → List Nat → K

/-- The entities of a cell. -/
def entities (c : Cell) : List (Dim × Nat) :=
  c.topology.flatMap fun p => (List.range p.2).map fun k => (p.1, k)

variable {K : Type} [CommRing K]

/-- Basis function number `k` (in row-major order) of an element. -/
def fnOf (φ : LeafVals K) (e : Elem) (k : Nat) : BFun K := fun α ent x z =>
  basisValue φ e α ent x (unravel e.indexShape k) z

/-- All basis functions of an element, each with the entity its dof is attached to. -/
def attached (φ : LeafVals K) (e : Elem) : List ((Dim × Nat) × BFun K) :=
  match e.cell, e.entityDofs with
  | .ok c, .ok d => (entities c).flatMap fun E => (dofsOn d E.1 E.2).map fun k => (E, fnOf φ e k)
  | _, _ => []

/-- The dimension of the entities a domain names, on a cell of dimension `n`. -/
def domainDim (dom : Domain) (n : Nat) : Option Nat := match dom with
  | .interior => some n
  | .facet => if n = 0 then none else some (n - 1)
  | .face => some 2
  | .edge => some 1
  | .vertex => some 0
  | .other => none

/-- Which entity dimensions `t` a restriction keeps: that of the domain and, with closure, the lower ones; the
interior has no closure. -/
def keeps (dom : Domain) (closure : Bool) (n t : Nat) : Bool := match domainDim dom n with
  | none => false
  | some m => if closure = true ∧ dom ≠ .interior then decide (t ≤ m) else decide (t = m)

/-- The domain names entities of the cell, and proper ones unless it is the interior. -/
def DomainOK (dom : Domain) (n : Nat) : Prop :=
  ∃ m, domainDim dom n = some m ∧ m ≤ n ∧ (m = n → dom = .interior)

/-- The basis functions of a FIAT leaf are determined by the element they come from and their labels. -/
def Labelled (φ : LeafVals K) : Prop :=
  ∃ ψ : Nat → Nat → BFun K, ∀ l α ent x i z, φ.leaf l α ent x i z =
    match l.fns[i.headD 0]? with
    | some f => ψ l.id f α ent x z
    | none => 0

/-- Not a product cell. -/
def Plain : Cell → Prop
  | .prod _ => False
  | _ => True

mutual
/-- Form degrees and mappings inside every enriched element agree. -/
def Uniform : Elem → Prop
  | .tensorProduct fs => UniformL fs
  | .flattened p => Uniform p
  | .enriched es => UniformL es ∧ ∃ k m, ∀ e ∈ es, e.formdegree = .ok k ∧ e.mapping = m
  | .tensorFE e _ _ => Uniform e
  | _ => True
/-- The same for all elements of a list. -/
def UniformL : List Elem → Prop
  | [] => True
  | e :: es => Uniform e ∧ UniformL es
end

mutual
/-- The elements `restrict` has rules for, built from FIAT leaves on simplices, quadrilaterals and hexahedra of
dimension at most four. Discontinuous Lagrange/Legendre leaves have interior dofs only, trace elements facet
dofs only. -/
def Restrictable : Elem → Prop
  | .leaf l => GoodLeaf l ∧ Plain l.cell ∧
    (l.kind = .fiat ∨
      (l.kind = .dg ∧ ∀ D n, dofsOn l.dofs D n ≠ [] → D = l.cell.dimension) ∨
      (l.kind = .trace ∧ ∀ D n, dofsOn l.dofs D n ≠ [] → D.total + 1 = l.cell.spatialDim))
  | .tensorProduct fs => fs ≠ [] ∧ RestrictableL fs ∧
    ∀ f ∈ fs, ∀ c, f.cell = .ok c → Plain c ∧ c.spatialDim ≤ 4
  | .flattened p => Restrictable p ∧ ∀ c, p.cell = .ok c → IsCube c
  | .enriched es => RestrictableL es ∧ ∀ e ∈ es, isMixedSub e = false
  | .mixedSub _ _ _ => False
  | .discontinuous e => Good e
  | .tensorFE e _ _ => Restrictable e
  | .hdiv w => (∃ fs, w = .tensorProduct fs) ∧ Restrictable w ∧ Uniform w ∧ (∃ vs, w.valueShape = .ok vs) ∧
    mkHDiv w = .ok (.hdiv w)
  | .hcurl w => (∃ fs, w = .tensorProduct fs) ∧ Restrictable w ∧ Uniform w ∧ (∃ vs, w.valueShape = .ok vs) ∧
    mkHCurl w = .ok (.hcurl w)
  | .quadrature _ _ _ => False
/-- All elements of a list are restrictable. -/
def RestrictableL : List Elem → Prop
  | [] => True
  | e :: es => Restrictable e ∧ RestrictableL es
end

end FInAT.Spec
