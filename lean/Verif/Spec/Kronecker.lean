import Verif.Spec.Quadrature
import Verif.Spec.Basis

/-!
# Element matrices
-/

namespace FInAT.Spec

open FInAT

variable {K : Type} [CommRing K]

/-- An entry of an element matrix, as generated code computes it: the sum over all values of the point indices of
the weight times an entry of one table times an entry of another. -/
def formEntry (W : Gem K) (ps : PSet K) (ρ : Nat → Nat) (t s : Gem K) (a b : List Nat) : K :=
  ((ndindex (ps.indices.map Index.extent)).map fun v =>
    W.eval (bindIx ρ ps.indices v) [] *
      (t.eval (bindIx ρ ps.indices v) a * s.eval (bindIx ρ ps.indices v) b)).sum

/-- A factor: an element, a rule on its cell, the weight expression of the rule and the table of the element at the
points of the rule. -/
structure FactorRun (K : Type) where
  elem : Elem
  rule : QRule K
  weights : Gem K
  table : Tab K

/-- An entry of the matrix of a factor: derivative, function and component for the rows (`α`, `i`, `z`) and for the
columns (`β`, `j`, `w`), with the expressions in the table. -/
structure FactorEntry (K : Type) where
  run : FactorRun K
  α : List Nat
  β : List Nat
  i : List Nat
  j : List Nat
  z : List Nat
  w : List Nat
  t : Gem K
  s : Gem K

/-- The entry exists. -/
structure FactorEntry.OK (e : FactorEntry K) : Prop where
  row : e.run.table.get? e.α = some e.t
  col : e.run.table.get? e.β = some e.s
  i : InRange e.i e.run.elem.indexShape
  j : InRange e.j e.run.elem.indexShape
  z : InRange e.z (vshape e.run.elem)
  w : InRange e.w (vshape e.run.elem)

/-- The value of the entry. -/
def FactorEntry.value (e : FactorEntry K) (ρ : Nat → Nat) : K :=
  formEntry e.run.weights e.run.rule.pointSet ρ e.t e.s (e.i ++ e.z) (e.j ++ e.w)

/-- A factor of a spectral element with a rule whose points are the nodes of the element. -/
structure NodalFactor (K : Type) where
  leaf : Leaf
  cls : PSClass
  pts : List (List K)
  index : Index
  weights : List K

/-- The points of the rule. -/
def NodalFactor.points (x : NodalFactor K) : PSet K := .points x.cls x.pts [x.index]

/-- The rule. -/
def NodalFactor.rule (x : NodalFactor K) : QRule K := .rule x.points x.weights

end FInAT.Spec
