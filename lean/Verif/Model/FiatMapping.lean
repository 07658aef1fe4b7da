import Verif.Model.Elem

/-!
# The mapping of a FIAT element
-/

namespace FInAT

/-- `set(l)`: the distinct entries.
Source: `finat/fiat_elements.py` 265. -/
def distinct {α : Type} [DecidableEq α] : List α → List α
  | [] => []
  | a :: l => if a ∈ l then distinct l else a :: distinct l

/-- `FiatElement.mapping`: the only entry of the set of mappings which FIAT gives, one for each basis function; `None`
if there is no such entry.
Source: `finat/fiat_elements.py` 263-270. -/
def fiatMapping (ms : List Mapping) : Option Mapping :=
  match distinct ms with
  | [m] => some m
  | _ => none

end FInAT
