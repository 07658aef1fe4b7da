import Verif.Model.Quadrature
import Verif.Spec.Tab
import Mathlib.Algebra.Field.Defs
import Mathlib.Data.Nat.Factorial.Basic

/-!
# Quadrature sums and integrals of polynomials
-/

namespace FInAT.Spec

open FInAT

variable {K : Type}

/-- The quadrature sum as generated code evaluates it: the sum over all values of the point indices of the
weight expression times the function at the selected point. -/
def quadSum [CommRing K] (W : Gem K) (ps : PSet K) (ρ : Nat → Nat) (f : List K → K) : K :=
  ((ndindex (ps.indices.map Index.extent)).map fun v =>
    W.eval (bindIx ρ ps.indices v) [] * f (ps.pointAt (bindIx ρ ps.indices v))).sum

mutual
/-- Sum over the points of a rule; for product rules nested sums over the points of the factors. -/
def iterSum [CommRing K] : QRule K → (List K → K) → K
  | .rule ps w, f => ((ps.pts.zip w).map fun p => p.2 * f p.1).sum
  | .tensor fs, f => iterSumL fs f
/-- Nested sums. -/
def iterSumL [CommRing K] : List (QRule K) → (List K → K) → K
  | [], f => f []
  | q :: qs, f => iterSum q fun x => iterSumL qs fun y => f (x ++ y)
end

mutual
/-- The weight at a value of the point indices: for product rules the product of the factor weights. -/
def weightAt [CommRing K] : QRule K → List Nat → K
  | .rule _ w, v => (w[v.headD 0]?).getD 0
  | .tensor fs, v => weightAtL fs v
/-- Product of the factor weights. -/
def weightAtL [CommRing K] : List (QRule K) → List Nat → K
  | [], _ => 1
  | q :: qs, v => weightAt q (v.take q.pointSet.indices.length) * weightAtL qs (v.drop q.pointSet.indices.length)
end

mutual
/-- Rules as built by the constructors: one weight per point, one point index; products of at least one
factor. -/
def RuleOK : QRule K → Prop
  | .rule ps w => ∃ cls pts i, ps = .points cls pts [i] ∧ i.extent = pts.length ∧ w.length = pts.length
  | .tensor fs => fs ≠ [] ∧ RuleOKL fs
/-- ... for lists. -/
def RuleOKL : List (QRule K) → Prop
  | [] => True
  | q :: qs => RuleOK q ∧ RuleOKL qs
end

/-- A factor of a product rule: the rule, the number of coordinates of its points, a class of functions and
their integral. -/
structure Factor (K : Type) where
  rule : QRule K
  dim : Nat
  cls : (List K → K) → Prop
  integral : (List K → K) → K

/-- The rule is exact on its class. -/
structure Factor.Exact [CommRing K] (e : Factor K) : Prop where
  ok : RuleOK e.rule
  width : ∀ x ∈ e.rule.pointSet.pts, x.length = e.dim
  exact : ∀ f, e.cls f → iterSum e.rule f = e.integral f

/-- The product of functions of consecutive groups of coordinates. -/
def splitProd [CommRing K] : List Nat → List (List K → K) → List K → K
  | d :: ds, f :: fs, x => f (x.take d) * splitProd ds fs (x.drop d)
  | _, _, _ => 1

/-! ### Polynomials and their integrals -/

/-- The monomial with exponents `α`. -/
def monoVal [CommRing K] : List K → List Nat → K
  | x :: xs, a :: as => x ^ a * monoVal xs as
  | _, _ => 1

/-- A polynomial, given by its terms (coefficient and exponents), at a point. -/
def polyVal [CommRing K] (ts : List (K × List Nat)) (x : List K) : K :=
  (ts.map fun t => t.1 * monoVal x t.2).sum

mutual
/-- The integral of a monomial over the reference cell: Dirichlet's formula on simplices, the product of
`1 / (a + 1)` on cubes, the product of the integrals on product cells. -/
def moment [Field K] : Cell → List Nat → K
  | .simplex d, α => ((α.map Nat.factorial).prod : ℕ) / ((α.sum + d).factorial : ℕ)
  | .quad, α => (α.map fun (a : ℕ) => 1 / ((a : K) + 1)).prod
  | .hex, α => (α.map fun (a : ℕ) => 1 / ((a : K) + 1)).prod
  | .prod cs, α => momentL cs α
/-- Product of the integrals. -/
def momentL [Field K] : List Cell → List Nat → K
  | [], _ => 1
  | c :: cs, α => moment c (α.take c.spatialDim) * momentL cs (α.drop c.spatialDim)
end

/-- The integral of a polynomial. -/
def polyInt [Field K] (c : Cell) (ts : List (K × List Nat)) : K := (ts.map fun t => t.1 * moment c t.2).sum

mutual
/-- The monomial has at most the requested degree: on each simple cell of a product the total degree in its
coordinates is at most the degree for that cell. -/
def Within : Cell → Degree → List Nat → Prop
  | .prod cs, deg, α => WithinL cs (deg.expand cs.length) α
  | .quad, deg, α => match deg.expand 2, α with
    | [.int d, .int e], [a, b] => (a : ℤ) ≤ d ∧ (b : ℤ) ≤ e
    | _, _ => False
  | _, .int d, α => (α.sum : ℤ) ≤ d
  | _, .tup _, _ => False
/-- ... cell by cell. -/
def WithinL : List Cell → List Degree → List Nat → Prop
  | c :: cs, d :: ds, α => Within c d (α.take c.spatialDim) ∧ WithinL cs ds (α.drop c.spatialDim)
  | [], [], _ => True
  | _, _, _ => False
end

/-- FIAT has a rule for the simple cell and degree. -/
def Available (F : FiatQuad K) (scheme : String) (c : Cell) (d : Nat) : Prop :=
  (c = .simplex 1 ∧ F.isMacro c = false) ∨ ∃ pw, F.scheme c d scheme = .ok pw

mutual
/-- Degrees fitting the cell: integers from 0 to `D`, for which FIAT has a rule, for simple cells, one degree
per cell for products. -/
def GoodDegree (F : FiatQuad K) (scheme : String) (D : Nat) : Cell → Degree → Prop
  | .prod cs, deg => cs ≠ [] ∧ GoodDegreeL F scheme D cs (deg.expand cs.length)
  | .quad, deg => ∃ d e : Nat, deg.expand 2 = [.int d, .int e] ∧ d ≤ D ∧ e ≤ D ∧
      Available F scheme (.simplex 1) d ∧ Available F scheme (.simplex 1) e
  | c, .int d => 0 ≤ d ∧ d ≤ D ∧ Available F scheme c d.toNat
  | _, .tup _ => False
/-- ... cell by cell. -/
def GoodDegreeL (F : FiatQuad K) (scheme : String) (D : Nat) : List Cell → List Degree → Prop
  | c :: cs, d :: ds => GoodDegree F scheme D c d ∧ GoodDegreeL F scheme D cs ds
  | [], [] => True
  | _, _ => False
end

/-- A list of points and weights integrates all monomials of total degree at most `d` exactly. -/
structure ExactList [Field K] (c : Cell) (d : Nat) (pw : List (List K) × List K) : Prop where
  length : pw.1.length = pw.2.length
  width : ∀ x ∈ pw.1, x.length = c.spatialDim
  exact : ∀ α : List Nat, α.length = c.spatialDim → α.sum ≤ d →
    ((pw.1.zip pw.2).map fun p => p.2 * monoVal p.1 α).sum = moment c α

/-- What is assumed of FIAT's rules: the Gauss rule with `n` points is exact to degree `2 n - 1`, the rules
`create_quadrature` returns are exact to the requested degree (for degrees up to `D`). -/
structure FiatExact [Field K] (F : FiatQuad K) (scheme : String) (D : Nat) : Prop where
  gauss : ∀ n, 1 ≤ n → 2 * n ≤ D + 2 → ExactList (.simplex 1) (2 * n - 1) (F.gauss n)
  scheme : ∀ c d pw, d ≤ D → F.scheme c d scheme = .ok pw → ExactList c d pw

mutual
/-- No product of zero cells. -/
def NoEmpty : Cell → Prop
  | .prod cs => cs ≠ [] ∧ NoEmptyL cs
  | _ => True
/-- ... for lists. -/
def NoEmptyL : List Cell → Prop
  | [] => True
  | c :: cs => NoEmpty c ∧ NoEmptyL cs
end

end FInAT.Spec
