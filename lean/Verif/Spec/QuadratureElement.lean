import Verif.Model.QuadratureElement
import Verif.Model.Tabulate
import Verif.Spec.Quadrature
import Verif.Spec.Dual

/-!
# Integrals of functions stored in quadrature elements
-/

namespace FInAT.Spec

open FInAT

variable {K : Type} [CommRing K]

/-- The rule `q` under every number. -/
def onlyRule (q : QRule K) (close : List K → List K → Bool) : Rules K := ⟨fun _ => q.pointSet, close⟩

/-- The integral of `u g` as generated code evaluates it, where `u` is the function with coefficients `a` in
the basis with table `t`: the sum over the values of the point indices of the weight expression times the
value of `u`, itself a sum over the degrees of freedom, times `g` at the selected point. -/
def formSum (W : Gem K) (ps : PSet K) (ρ : Nat → Nat) (ishape : List Nat) (t : Gem K) (a : List Nat → K)
    (g : List K → K) : K :=
  ((ndindex (ps.indices.map Index.extent)).map fun v =>
    W.eval (bindIx ρ ps.indices v) [] *
      ((ndindex ishape).map fun i => a i * t.eval (bindIx ρ ps.indices v) i).sum *
      g (ps.pointAt (bindIx ρ ps.indices v))).sum

/-- What `storeAndTabulate` returns: the rule, the element, the table of the basis functions at the points of
the rule, the weight expression and the interpolated coefficients with their indices. -/
structure Stored (K : Type) where
  rule : QRule K
  elem : Elem
  table : Gem K
  weight : Gem K
  coeffs : Gem K × List Index

/-- A quadrature element is made, tabulated at the points of its own rule, and a function is interpolated
into it. -/
def storeAndTabulate [DecidableEq K] (F : FiatQuad K) (scheme : String) (Fi : Fiat K) (D : FiatDual K)
    (close : List K → List K → Bool) (c : Cell) (deg : Degree) (fn : PSet K → M (Gem K)) : M (Stored K) := do
  let qe ← makeQuadratureElement F scheme 0 c deg
  let T ← evaluate (basisInterp Fi (onlyRule qe.1 close)) qe.2 0 qe.1.pointSet none
  let t ← liftE (Dict.get T (List.replicate c.spatialDim 0))
  let W ← qe.1.weightExpr
  let a ← dualEvaluation D (onlyRule qe.1 close) qe.2 fn
  pure ⟨qe.1, qe.2, t, W, a⟩

end FInAT.Spec
