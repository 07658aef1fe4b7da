import Verif.Model.Ufl.ElementList

/-!
# The element list as a state: `finat/ufl/elementlist.py` after further registrations

`register_element` and `register_alias` may be called at any time. Here the two dictionaries are a state, and
`canonical_element_description` is a relation, as its loop need not end for aliases a user registers.
-/

namespace FInAT.Ufl

open FInAT

/-- The function given to `register_alias`, called with family, dimension, order and form degree
(`finat/ufl/elementlist.py` 48-50, 416). -/
abbrev AliasFn : Type := String → Nat → Order → Option Int → Except Err (String × Order)

/-- The dictionaries `ufl_elements` and `aliases` (`finat/ufl/elementlist.py` 28-32). -/
structure Registry where
  elements : Dict String Entry
  aliases : Dict String AliasFn

/-- The dictionaries after the module has been loaded (`finat/ufl/elementlist.py` 86-376). -/
def Registry.loaded : Registry := ⟨uflElements, Ufl.aliases.map fun p => (p.1, applyAlias p.2)⟩

/-- A call of `register_element` or of `register_alias` (`finat/ufl/elementlist.py` 36-50). Degree ranges are pairs:
the value `None` for the pair is not modelled. -/
inductive Call where
  | element (e : Entry)
  | rename (name : String) (to : AliasFn)

/-- The effect of a call: the new dictionaries and, if it raises, the exception (`finat/ufl/elementlist.py` 36-50). -/
def Registry.call (R : Registry) : Call → Registry × Option Err
  | .element e => match registerElement R.elements e with
    | .ok d => ({ R with elements := d }, none)
    | .error err => (R, some err)
  | .rename name to => ({ R with aliases := R.aliases.set name to }, none)

/-- The dictionaries after several calls, exceptions being caught (`finat/ufl/elementlist.py` 36-50). -/
def Registry.calls (R : Registry) : List Call → Registry
  | [] => R
  | c :: cs => ((R.call c).1).calls cs

/-- One iteration of the loop at `finat/ufl/elementlist.py` 412-416: nothing when the family is not an alias. -/
def Registry.step (R : Registry) (tdim : Option Nat) (k : Option Int) (s : String × Order) :
    Option (Except Err (String × Order)) :=
  match R.aliases.get? s.1 with
  | none => none
  | some to => some (match tdim with
    | none => .error .valueError
    | some n => to s.1 n s.2 k)

/-- The loop at `finat/ufl/elementlist.py` 412-416 ends with the result. -/
inductive Registry.Resolved (R : Registry) (tdim : Option Nat) (k : Option Int) :
    String × Order → Except Err (String × Order) → Prop
  | done {s} (h : R.step tdim k s = none) : R.Resolved tdim k s (.ok s)
  | raised {s e} (h : R.step tdim k s = some (.error e)) : R.Resolved tdim k s (.error e)
  | next {s s' r} (h : R.step tdim k s = some (.ok s')) (hr : R.Resolved tdim k s' r) : R.Resolved tdim k s r

/-- The checks of a family that has been looked up (`finat/ufl/elementlist.py` 419-468). -/
def describeEntry (e : Entry) (cell : Option UCell) (order : Order) : Except Err Desc := do
  let family ← cubeFamily cell e.family order
  if !cellAllowed cell e.cellnames then .error .valueError
  else if !orderAllowed order e.kmin e.kmax then .error .valueError
  else
    let shape ← shapeOf (tdimOf cell) e.valueRank
    .ok ⟨family, e.shortName, order, shape, e.sobolev, e.mapping, embeddedOf (tdimOf cell) family order⟩

/-- Lines 417-468 of `finat/ufl/elementlist.py`: look up the family and check the data. -/
def Registry.lookup (R : Registry) (cell : Option UCell) (s : String × Order) : Except Err Desc :=
  match R.elements.get? s.1 with
  | none => .error .valueError
  | some e => describeEntry e cell s.2

/-- `canonical_element_description` ends with the result, the dictionaries being these
(`finat/ufl/elementlist.py` 379-468). -/
inductive Registry.Describes (R : Registry) (family : String) (cell : Option UCell) (order : Order) (k : Option Int) :
    Except Err Desc → Prop
  | feec {e} (h : catchFeec (tdimOf cell) k (family, order) = .error e) : R.Describes family cell order k (.error e)
  | unresolved {s e} (h : catchFeec (tdimOf cell) k (family, order) = .ok s) (hr : R.Resolved (tdimOf cell) k s (.error e)) :
    R.Describes family cell order k (.error e)
  | found {s s'} (h : catchFeec (tdimOf cell) k (family, order) = .ok s) (hr : R.Resolved (tdimOf cell) k s (.ok s')) :
    R.Describes family cell order k (R.lookup cell s')

end FInAT.Ufl
