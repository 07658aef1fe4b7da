import Verif.Model.Elem
import Verif.Spec.Dofs

/-!
# Specification vocabulary for element trees
-/

namespace FInAT.Spec

open FInAT

mutual
/-- Products of points, intervals, quadrilaterals and hexahedra (nested arbitrarily): the cells that
can be flattened to a quadrilateral or a hexahedron. -/
def IsCube : Cell → Prop
  | .simplex d => d ≤ 1
  | .quad => True
  | .hex => True
  | .prod cs => IsCubeL cs
/-- All cells are cubes. -/
def IsCubeL : List Cell → Prop
  | [] => True
  | c :: cs => IsCube c ∧ IsCubeL cs
end

/-- A FIAT leaf lists every dof number below its space dimension exactly once, on entities of its cell. -/
def GoodLeaf (l : Leaf) : Prop :=
  Covers l.dofs l.cell.topology ∧ Partition l.dofs l.fns.length

mutual
/-- An element tree all of whose FIAT leaves are good and whose flattened products live on cubes. -/
def Good : Elem → Prop
  | .leaf l => GoodLeaf l
  | .tensorProduct fs => GoodL fs
  | .flattened p => Good p ∧ ∀ c, p.cell = .ok c → IsCube c
  | .enriched es => GoodL es
  | .mixedSub e _ _ => Good e
  | .discontinuous e => Good e
  | .tensorFE e _ _ => Good e
  | .hdiv w => Good w
  | .hcurl w => Good w
  | .quadrature _ _ _ => True
/-- All elements of a list are good. -/
def GoodL : List Elem → Prop
  | [] => True
  | e :: es => Good e ∧ GoodL es
end

end FInAT.Spec

namespace FInAT.Spec

open FInAT

/-- Blocks `(size, list)`: every list shifted by the total size of the preceding blocks. -/
def shiftedConcat (offset : Nat) : List (Nat × List Nat) → List Nat
  | [] => []
  | (n, l) :: rest => l.map (offset + ·) ++ shiftedConcat (offset + n) rest

/-- Is the element an `EnrichedElement`? -/
def IsEnriched : Elem → Prop
  | .enriched _ => True
  | _ => False

/-- The element is not an enriched element with an enriched direct sub-element. -/
def FlatEnriched : Elem → Prop
  | .enriched es => ∀ e ∈ es, ¬ IsEnriched e
  | _ => True

end FInAT.Spec
