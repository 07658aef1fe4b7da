import Verif.Model.Ufl.Sobolev

/-!
# Directional Sobolev spaces of product elements

Extends `Verif.Model.Ufl.Sobolev` by the spaces that products of different factors have. The class
`DirectionalSobolevSpace` is external (`ufl.sobolevspace`); what the code uses of it is transcribed here.
-/

namespace FInAT.Ufl

open UElem

/-- A Sobolev space or a directional one, given by its order along each axis (`none` is infinity).
External (`ufl.sobolevspace`); used at `finat/ufl/tensorproductelement.py` 89-95. -/
inductive Space where
  | plain (s : Sobolev)
  | dir (orders : List (Option Nat))
  deriving DecidableEq

/-- `space._order` (external, `ufl.sobolevspace`): `H(div)` and its like have the order of `L2`, and so has
every directional space. External; used at `finat/ufl/tensorproductelement.py` 93. -/
def Space.order : Space → Option Nat
  | .plain .h1 => some 1
  | .plain .h2 => some 2
  | .plain .hInf => none
  | _ => some 0

/-- The space of an order, from the dictionary in `DirectionalSobolevSpace.__getitem__` (external,
`ufl.sobolevspace`): `KeyError` for other orders. External; used at `finat/ufl/tensorproductelement.py` 95. -/
def spaceOfOrder : Option Nat → Option Sobolev
  | some 0 => some .l2
  | some 1 => some .h1
  | some 2 => some .h2
  | none => some .hInf
  | _ => none

/-- `space[i]`: the space along axis `i` (external, `ufl.sobolevspace`); `IndexError` beyond the axes of a
directional space, while other spaces have any number of axes.
External; used at `finat/ufl/tensorproductelement.py` 95. -/
def Space.axis : Space → Nat → Option Sobolev
  | .plain s, _ => some s
  | .dir orders, i => do spaceOfOrder (← orders[i]?)

/-- `a == b` (external, `ufl.sobolevspace`): directional spaces are compared by their orders, a directional
space equals another one when it does so along all its axes. (`a == b` calls the method of `b` when only `b`
is directional.) External; used at `finat/ufl/tensorproductelement.py` 83. -/
def Space.eq : Space → Space → Bool
  | .plain s, .plain t => s == t
  | .dir p, .dir q => p == q
  | .dir p, .plain s => p.all fun o => spaceOfOrder o == some s
  | .plain s, .dir p => p.all fun o => spaceOfOrder o == some s

/-- The loop that collects the orders (`finat/ufl/tensorproductelement.py` 89-94): the order of each factor
once for each of its axes; a factor without a cell has no `topological_dimension`. -/
def collectOrders : List (Space × Option Nat) → Option (List (Option Nat))
  | [] => some []
  | (s, d) :: rest => do
    let d ← d
    some (List.replicate d s.order ++ (← collectOrders rest))

/-- `TensorProductElement.sobolev_space` (`finat/ufl/tensorproductelement.py` 79-95), from the spaces and
topological dimensions of the factors. The constructor refuses products without factors. -/
def productSpace : List (Space × Option Nat) → Option Space
  | [] => none
  | (s, d) :: rest =>
    if rest.all fun p => p.1.eq s then some s
    else do some (.dir (← collectOrders ((s, d) :: rest)))

/-- `e in H` for an element with the given space and `H` not directional (external, `ufl.sobolevspace`): the
space is `H` or has `H` among its parents; the parent of a directional space is `L2`.
External; used at `finat/ufl/tensorproductelement.py` 95. -/
def Space.inside (sp : Space) (H : Sobolev) : Bool :=
  sp.eq (.plain H) || (match sp with
    | .plain s => s.parents.contains H
    | .dir _ => H == .l2)

/-- A space that is not directional.
Source: `finat/ufl/mixedelement.py` 116-119; `finat/ufl/enrichedelement.py` 61-78. -/
def Space.plain? : Space → Option Sobolev
  | .plain s => some s
  | .dir _ => none

mutual
/-- `e.sobolev_space`, including directional spaces; the sources are those of `sobolev` and
`finat/ufl/tensorproductelement.py` 79-95. `none` when Python
raises, and for mixed and enriched elements of which a part has a directional space, which are not modelled. -/
def space : UElem → Option Space
  | .fe _ _ s _ _ _ => some (.plain s)
  | .mixed _ subs => do
    some (.plain (← (mixedSobolev (← (← spaces subs).mapM Space.plain?)).toOption))
  | .vector _ e dim _ => do
    some (.plain (← (mixedSobolev (← (if dim = 0 then some [] else do
      some (List.replicate dim (← (← space e).plain?))))).toOption))
  | .tensor _ e _ _ _ count _ _ => do
    some (.plain (← (mixedSobolev (← (if count = 0 then some [] else do
      some (List.replicate count (← (← space e).plain?))))).toOption))
  | .product _ subs => do productSpace (← factorSpaces subs)
  | .enriched _ _ subs => do
    some (.plain (← (enrichedSobolev (← (← spaces subs).mapM Space.plain?)).toOption))
  | .hdiv _ _ => some (.plain .hDiv)
  | .hcurl _ _ => some (.plain .hCurl)
  | .withMapping e m => if e.mapping = m then space e else some (.plain .l2)
  | .restricted _ e d => if d = "interior" then some (.plain .l2) else space e
  | .broken _ _ => some (.plain .l2)
/-- The spaces of a list of elements.
Source: `finat/ufl/enrichedelement.py` 70. -/
def spaces : List UElem → Option (List Space)
  | [] => some []
  | e :: es => do
    let s ← space e
    some (s :: (← spaces es))
/-- The spaces and dimensions of the factors of a product. Source: `finat/ufl/tensorproductelement.py` 82-94. -/
def factorSpaces : List UElem → Option (List (Space × Option Nat))
  | [] => some []
  | e :: es => do
    let s ← space e
    some ((s, tdimOf e.cell) :: (← factorSpaces es))
end

end FInAT.Ufl
