import Verif.Model.Ufl.Registry

/-!
# Specification for C100: registrations

A user sees names: those of families, their short names, and aliases. A history of calls is fresh if no call is about
a name that is known at that time. A registered family is to be accepted on the cells it was registered for, with
orders within the range it was registered with.
-/

namespace FInAT.Ufl

open FInAT

/-- A name is known: it is that of a family, a short name or an alias. -/
def Registry.Known (R : Registry) (name : String) : Prop :=
  R.elements.get? name ≠ none ∨ R.aliases.get? name ≠ none

/-- The names a call is about. -/
def Call.names : Call → List String
  | .element e => e.family :: e.shortName.toList
  | .rename name _ => [name]

/-- Every call is about names that are new at that time. -/
def Registry.Fresh (R : Registry) : List Call → Prop
  | [] => True
  | c :: cs => (∀ n ∈ c.names, ¬ R.Known n) ∧ ((R.call c).1).Fresh cs

/-- An order lies between two bounds, each of which may be missing; a tuple does if all its entries do. -/
def WithinRange (kmin kmax : Option Int) : Order → Prop
  | .none => True
  | .int r => (∀ a, kmin = some a → a ≤ r) ∧ ∀ b, kmax = some b → r ≤ b
  | .tuple rs => ∀ r ∈ rs, (∀ a, kmin = some a → a ≤ r) ∧ ∀ b, kmax = some b → r ≤ b

/-- The family may be used with this cell (by name) and this order. -/
def Accepts (e : Entry) (n : CellName) (o : Order) : Prop :=
  e.cellnames.contains n.str = true ∧ WithinRange e.kmin e.kmax o

end FInAT.Ufl
