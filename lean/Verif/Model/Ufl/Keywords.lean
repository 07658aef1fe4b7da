import Verif.Model.Ufl.Elem

/-!
# `reconstruct` with keyword arguments
-/

namespace FInAT.Ufl

open UElem

/-- The keyword arguments of `reconstruct`. An argument that is left out and one that is
`None` are the same, except for `cell`, which products read with `kwargs.pop`: there
`some none` is `cell=None`. Passing `mapping=None` and keywords that no class knows are not
modelled.
Source: `finat/ufl/finiteelement.py` 203; `finat/ufl/tensorproductelement.py` 109;
`finat/ufl/hdivcurl.py` 220. -/
structure Keywords where
  family : Option String := none
  cell : Option (Option UCell) := none
  degree : Order := .none
  quadScheme : Option String := none
  variant : Option String := none
  mapping : Option String := none

/-- `degree if degree is not None else self.degree()`.
Source: `finat/ufl/finiteelement.py` 209-210. -/
def Order.orElse (a b : Order) : Order :=
  match a with
  | .none => b
  | a => a

mutual
/-- `e.reconstruct(**kwargs)`. A simple element replaces the arguments that are not `None`
and knows no `mapping` (`finat/ufl/finiteelement.py` 203-215); a product keeps `cell` for
itself (`finat/ufl/tensorproductelement.py` 107-110), `WithMapping` keeps `mapping`
(`finat/ufl/hdivcurl.py` 218-222), all other elements pass everything on
(`finat/ufl/mixedelement.py` 246-248, 330-333, 520-523; `finat/ufl/enrichedelement.py` 88-90;
`finat/ufl/hdivcurl.py` 69-71, 128-130; `finat/ufl/restrictedelement.py` 71-74;
`finat/ufl/brokenelement.py` 43-45). -/
def reconstructWith (k : Keywords) : UElem → Except Err UElem
  | .fe b o _ _ v _ =>
    if k.mapping.isSome then .error .typeError
    else newFe (k.family.getD b.family) (k.degree.orElse o) none
      (k.quadScheme.or b.quadScheme) (k.variant.or v) (k.cell.join.or b.cell)
  | .mixed _ subs => do mkMixed (← reconstructsWith k subs)
  | .vector _ e dim _ => do mkVector (← reconstructWith k e) (some dim)
  | .tensor _ e shape symmetry _ _ _ _ => do
    mkTensor (← reconstructWith k e) (some shape) (.dict symmetry)
  | .product b subs => do
    mkProduct (← reconstructsWith { k with cell := none } subs) (k.cell.getD b.cell)
  | .enriched _ nodal subs => do mkEnriched nodal (← reconstructsWith k subs)
  | .hdiv _ e => do mkHDiv (← reconstructWith k e)
  | .hcurl _ e => do mkHCurl (← reconstructWith k e)
  | .withMapping e m => do
    mkWithMapping (← reconstructWith { k with mapping := none } e) (k.mapping.getD m)
  | .restricted _ e d => do mkRestricted (← reconstructWith k e) d
  | .broken _ e => do mkBroken (← reconstructWith k e)
/-- `[e.reconstruct(**kwargs) for e in elements]`.
Source: `finat/ufl/mixedelement.py` 248; `finat/ufl/tensorproductelement.py` 110;
`finat/ufl/enrichedelement.py` 90. -/
def reconstructsWith (k : Keywords) : List UElem → Except Err (List UElem)
  | [] => .ok []
  | e :: es => do
    let e ← reconstructWith k e
    .ok (e :: (← reconstructsWith k es))
end

end FInAT.Ufl
