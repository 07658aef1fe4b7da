import Verif.Py.Basic

/-!
# Runtime tabulated elements (`finat/runtime_tabulated.py`)

Strings are lists of characters.
-/

namespace FInAT.Runtime

/-- Decimal digits of a natural number, `str(n)`.
External; used at `finat/runtime_tabulated.py` 85-89. -/
def decimal (n : Nat) : List Char :=
  if h : n < 10 then [Char.ofNat (48 + n)]
  else decimal (n / 10) ++ [Char.ofNat (48 + n % 10)]
termination_by n
decreasing_by omega

/-- `str(z)` of an integer.
External; used at `finat/runtime_tabulated.py` 85-87. -/
def decimalInt : Int → List Char
  | .ofNat n => decimal n
  | .negSucc n => '-' :: decimal (n + 1)

/-- Attributes of a `RuntimeTabulated` element.
Source: `finat/runtime_tabulated.py` 40-45. -/
structure Element where
  degree : Int
  variant : List Char
  shiftAxes : Nat
  restriction : Option (List Char)
  continuous : Bool
deriving DecidableEq

/-- `RuntimeTabulated.__init__` (`finat/runtime_tabulated.py` 17-45). `line` says whether the shape
of the cell is `LINE`; a `variant` that is no string is `none`. Types of the other arguments are
those in the signature. -/
def init (line : Bool) (degree : Int) (variant : Option (List Char)) (shiftAxes : Int)
    (restriction : Option (List Char)) (continuous : Bool) : Except Err Element :=
  if !line then .error .notImplemented
  else match variant with
    | none => .error .assertionError
    | some v =>
      if ¬ 0 ≤ shiftAxes then .error .assertionError
      else if restriction ∈ [none, some ['+'], some ['-']] then
        .ok ⟨degree, v, shiftAxes.toNat, restriction, continuous⟩
      else .error .assertionError

/-- `space_dimension` (`finat/runtime_tabulated.py` 65-66). -/
def Element.spaceDimension (e : Element) : Int := e.degree + 1

/-- `{None: "", '+': "p", '-': "m"}[self.restriction]` (`finat/runtime_tabulated.py` 91-93). -/
def suffix : Option (List Char) → Except Err (List Char)
  | none => .ok []
  | some ['+'] => .ok ['p']
  | some ['-'] => .ok ['m']
  | some _ => .error .keyError

/-- The name of a variable (`finat/runtime_tabulated.py` 85-93). -/
def Element.name (e : Element) (alpha : List Nat) : Except Err (List Char) := do
  let s ← suffix e.restriction
  return ['r', 't', '_'] ++ e.variant ++ '_' :: decimalInt e.degree ++ '_' :: alpha.flatMap decimal
    ++ '_' :: decimal e.shiftAxes ++ '_' :: (if e.continuous then ['c'] else ['d']) ++ '_' :: s

/-- `gem.partial_indexed(gem.Variable(name, shape), ps.indices)`.
Source: `finat/runtime_tabulated.py` 94. -/
structure Entry where
  name : List Char
  shape : List Int
  indices : List Nat
deriving DecidableEq

/-- `basis_evaluation` (`finat/runtime_tabulated.py` 68-95): the extents of the point indices and
their numbers are given; the cell has dimension one. -/
def Element.basisEvaluation (e : Element) (order : Nat) (extents indices : List Nat) :
    Except Err (Dict (List Nat) Entry) :=
  ((List.range (order + 1)).flatMap (mis 1)).foldlM (fun result alpha => do
    let name ← e.name alpha
    return result.set alpha ⟨name, extents.map Int.ofNat ++ [e.spaceDimension], indices⟩) []

end FInAT.Runtime
