import Verif.Model.Cell
import Mathlib.Logic.Function.Iterate

/-!
# The element class `DirectSerendipity` (`finat/direct_serendipity.py`)

Dof layout, differentiation and the cache of derivatives. Symbolic expressions, coordinates and the
translation to GEM are parameters.
-/

namespace FInAT.Serendipity

/-- `space_dimension` (`finat/direct_serendipity.py` 65-66). -/
def spaceDimension (degree : Nat) : Nat :=
  if degree = 1 then 4 else (degree + 1) * (degree + 2) / 2 + 2

/-- `list(range(a, b))`.
Source: `finat/direct_serendipity.py` 59-63. -/
def rangeFrom (a b : Nat) : List Nat := List.range' a (b - a)

/-- `entity_dofs` (`finat/direct_serendipity.py` 48-63). -/
def entityDofs (degree : Nat) : EntityDofs :=
  if degree = 1 then
    [(.int 0, (List.range 4).map fun i => (i, [i])),
      (.int 1, (List.range 4).map fun i => (i, [])),
      (.int 2, [(0, [])])]
  else if degree = 2 then
    [(.int 0, (List.range 4).map fun i => (i, [i])),
      (.int 1, (List.range 4).map fun i => (i, [i + 4])),
      (.int 2, [(0, [])])]
  else
    [(.int 0, (List.range 4).map fun i => (i, [i])),
      (.int 1, (List.range 4).map fun i =>
        (i, rangeFrom (4 + i * (degree - 1)) (4 + (i + 1) * (degree - 1)))),
      (.int 2, [(0, rangeFrom (4 + 4 * (degree - 1)) (spaceDimension degree))])]

variable {X E G : Type}

/-- The first branch of `diff` (`finat/direct_serendipity.py` 247-248):
`expr.diff(*zip(xx, alpha))`. SymPy differentiates for each pair `(x, a)` in turn `a` times with
respect to `x`; `D` is a single derivative. -/
def diffSympy (D : E → X → E) (expr : E) (xx : List X) (alpha : List Nat) : E :=
  (xx.zip alpha).foldl (fun e p => Nat.iterate (fun e' => D e' p.1) p.2 e) expr

/-- The second branch of `diff` (`finat/direct_serendipity.py` 249-250):
`symengine.diff(expr, *chain(*(repeat(x, a) for x, a in zip(xx, alpha))))`. Symengine
differentiates with respect to each of its arguments in turn. -/
def diffSymengine (D : E → X → E) (expr : E) (xx : List X) (alpha : List Nat) : E :=
  ((xx.zip alpha).flatMap fun p => List.replicate p.2 p.1).foldl D expr

/-- `self._deriv_cache`.
Source: `finat/direct_serendipity.py` 81-87. -/
abbrev DerivCache (X E : Type) := Dict (List X × List Nat) (List E)

/-- `dict.setdefault(key, value)`: the value stored afterwards, and the dictionary.
Source: `finat/direct_serendipity.py` 87. -/
def setdefault {κ ν : Type} [DecidableEq κ] (d : Dict κ ν) (k : κ) (v : ν) : ν × Dict κ ν :=
  match d.get? k with
  | some w => (w, d)
  | none => (v, d.set k v)

/-- `_basis_deriv` (`finat/direct_serendipity.py` 80-87): the derivatives and the cache after the
call. `diff` is the function of this name, `phis` the basis of `self._basis`. -/
def basisDeriv [DecidableEq X] (diff : E → List X → List Nat → E) (phis : List E)
    (cache : DerivCache X E) (xx : List X) (alpha : List Nat) : List E × DerivCache X E :=
  match cache.get? (xx, alpha) with
  | some d => (d, cache)
  | none => setdefault cache (xx, alpha) (phis.map fun phi => diff phi xx alpha)

/-- `basis_evaluation` (`finat/direct_serendipity.py` 89-123): the table and the cache after the
call. `mapper` is the translation to GEM with the bindings of this call; a `ListTensor` is the list
of its components. -/
def basisEvaluation [DecidableEq X] (diff : E → List X → List Nat → E) (phis : List E)
    (xx : List X) (cache : DerivCache X E) (order : Nat) (mapper : E → G) :
    Dict (List Nat) (List G) × DerivCache X E :=
  ((List.range (order + 1)).flatMap (mis 2)).foldl (fun st alpha =>
    let r := basisDeriv diff phis st.2 xx alpha
    (st.1.set alpha (r.1.map mapper), r.2)) ([], cache)

end FInAT.Serendipity
