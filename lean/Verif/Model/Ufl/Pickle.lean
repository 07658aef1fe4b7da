import Verif.Model.Ufl.Elem

/-!
# Pickling and copying UFL elements

Python's protocol (external): the arguments of `__getnewargs__` and the attributes of an
object are stored; when it is loaded, `__new__` is called with those arguments (none
without `__getnewargs__`), `__init__` is not called, the attribute `__setstate__` of the
new object is looked up, and if there is none the stored attributes are put in place.
`copy.copy` and `copy.deepcopy` do the same.
-/

namespace FInAT.Ufl

/-- `FiniteElement.__new__` (`finat/ufl/finiteelement.py` 26-118): `none` is a new object
without attributes (line 118), `some e` the product or sum that is returned instead. The
quadrature scheme is an argument that is not used. -/
def feNew (family : String) (order : Order) (formDegree : Option Int)
    (_quad variant : Option String) : Option UCell → Except Err (Option UElem)
  | none => .ok none
  | some (.named _) => .ok none
  | some (.tensor cs) => do
    let d ← canonicalElementDescription family (some (.tensor cs)) order formDegree
    if d.family = "RTCF" then some <$> expandRT mkHDiv cs d.order variant
    else if d.family = "RTCE" then some <$> expandRT mkHCurl cs d.order variant
    else if d.family = "NCF" then
      some <$> expandNC mkHDiv "RTCF" "DQ" false true cs d.order variant
    else if d.family = "NCE" then
      some <$> expandNC mkHCurl "Q" "RTCE" false false cs d.order variant
    else if d.family = "Q" then do
      some <$> mkProduct (← newFes "CG" "CG" d.order variant cs) (some (.tensor cs))
    else if d.family = "DQ" then do
      some <$> mkProduct (← newFes "DG" "DQ" d.order variant cs) (some (.tensor cs))
    else if d.family = "DQ L2" then do
      some <$> mkProduct (← newFes "DG L2" "DQ L2" d.order variant cs) (some (.tensor cs))
    else .ok none

/-- The arguments of `FiniteElement.__new__`.
Source: `finat/ufl/finiteelement.py` 26-32. -/
structure NewArgs where
  family : String
  cell : Option UCell
  order : Order
  formDegree : Option Int
  quadScheme : Option String
  variant : Option String

/-- `FiniteElement.__getnewargs__` (`finat/ufl/finiteelement.py` 230-237). -/
def getNewArgs (b : Base) (order : Order) (variant : Option String) : NewArgs :=
  ⟨b.family, b.cell, order, none, b.quadScheme, variant⟩

/-- An object as attribute lookup sees it. `plain`: an object of a class without
`__getattr__`, with the names found on it or its classes. `remapped`: an object of
`WithMapping`, whose attribute `wrapee` may not have been set yet.
Source: `finat/ufl/hdivcurl.py` 164-177; `finat/ufl/finiteelementbase.py` 23-47. -/
inductive Obj where
  | plain (names : List String)
  | remapped (wrapee : Option Obj) (names : List String)

/-- `getattr(o, name)`, at most `limit` calls deep: whether it is found. On a
`WithMapping` a name that is not found is looked up on `self.wrapee`, where `wrapee` is
itself looked up on the object; an `AttributeError` is replaced by another, other
exceptions go on. Exceeding the limit is a `RecursionError`, which is a `RuntimeError`.
Source: `finat/ufl/hdivcurl.py` 171-177. -/
def getAttr : Nat → Obj → String → Except Err Unit
  | 0, _, _ => .error .runtimeError
  | _ + 1, .plain names, a => if a ∈ names then .ok () else .error .attributeError
  | n + 1, .remapped w names, a =>
    if a ∈ names ∨ (a = "wrapee" ∧ w.isSome) then .ok ()
    else do
      let _ ← getAttr n (.remapped w names) "wrapee"
      match w with
      | some o => getAttr n o a
      | none => .error .attributeError

/-- The names defined by the element classes, as far as loading looks for them: none of
them defines `__setstate__`; `WithMapping` defines the names listed.
Source: `finat/ufl/hdivcurl.py` 153-244; `finat/ufl/finiteelementbase.py` 23-268. -/
def mappedNames : List String :=
  ["__init__", "__getattr__", "__repr__", "value_shape", "reference_value_shape", "mapping",
    "sobolev_space", "reconstruct", "variant", "__str__", "shortstr", "embedded_subdegree",
    "embedded_superdegree"]

/-- Putting the stored attributes in place, on the new object `fresh`: its `__setstate__`
is looked up; without it the result has the stored attributes, so that it is `done`.
Source: `finat/ufl/hdivcurl.py` 171-177 (for the look-up); the rest is Python's `pickle` (external). -/
def putState (limit : Nat) (fresh : Obj) (done : UElem) : Except Err UElem :=
  match getAttr limit fresh "__setstate__" with
  | .ok _ => .error .typeError
  | .error .attributeError => .ok done
  | .error e => .error e

/-- Creating a `FiniteElement` and putting its attributes in place. When `__new__` gives
another object this is the one that is returned (its additional attributes are not
modelled). Source: `finat/ufl/finiteelement.py` 26-118, 230-237. -/
def reloadFe (limit : Nat) (b : Base) (o : Order) (so : Sobolev) (m : String)
    (v : Option String) (emb : Order) : Except Err UElem := do
  let a := getNewArgs b o v
  match ← feNew a.family a.order a.formDegree a.quadScheme a.variant a.cell with
  | none => putState limit (.plain []) (.fe b o so m v emb)
  | some e => putState limit (.plain []) e

mutual
/-- `pickle.loads(pickle.dumps(e))` and `copy.deepcopy(e)`: the parts first, then the
object. Sharing of parts is not modelled, nor the limit on the depth of the tree.
Source: `finat/ufl/finiteelement.py` 23-25, 230-237; `finat/ufl/mixedelement.py` 25-27, 277,
361-364; `finat/ufl/tensorproductelement.py` 30; `finat/ufl/hdivcurl.py` 38-40, 96-98, 153-177. -/
def reload (limit : Nat) : UElem → Except Err UElem
  | .fe b o so m v emb => reloadFe limit b o so m v emb
  | .mixed b subs => do putState limit (.plain []) (.mixed b (← reloads limit subs))
  | .vector b e dim v => do putState limit (.plain []) (.vector b (← reload limit e) dim v)
  | .tensor b e shape symmetry number count m v => do
    putState limit (.plain []) (.tensor b (← reload limit e) shape symmetry number count m v)
  | .product b subs => do putState limit (.plain []) (.product b (← reloads limit subs))
  | .enriched b nodal subs => do
    putState limit (.plain []) (.enriched b nodal (← reloads limit subs))
  | .hdiv b e => do putState limit (.plain []) (.hdiv b (← reload limit e))
  | .hcurl b e => do putState limit (.plain []) (.hcurl b (← reload limit e))
  | .withMapping e m => do
    putState limit (.remapped none mappedNames) (.withMapping (← reload limit e) m)
  | .restricted b e d => do putState limit (.plain []) (.restricted b (← reload limit e) d)
  | .broken b e => do putState limit (.plain []) (.broken b (← reload limit e))
/-- The parts of an element, in order.
Source: none, Python's `pickle` (external), for `finat/ufl/mixedelement.py` 41. -/
def reloads (limit : Nat) : List UElem → Except Err (List UElem)
  | [] => .ok []
  | e :: es => do
    let e ← reload limit e
    .ok (e :: (← reloads limit es))
end

/-- `copy.copy(e)`: the object is new, its parts are those of `e`.
Source: `finat/ufl/finiteelement.py` 230-237; `finat/ufl/hdivcurl.py` 164-177. -/
def copyOf (limit : Nat) : UElem → Except Err UElem
  | .fe b o so m v emb => reloadFe limit b o so m v emb
  | .withMapping e m => putState limit (.remapped none mappedNames) (.withMapping e m)
  | e => putState limit (.plain []) e

end FInAT.Ufl
