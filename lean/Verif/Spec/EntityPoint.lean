import Verif.Spec.Elem
import Verif.Model.FiatTab

/-!
# Where the points of an entity are in the cell

`entityPoint σ c ent x`: the point of the reference cell `c` that has the coordinates `x` on its entity
`ent`, where `σ` says this for simplices (vertices, edges, faces of intervals, triangles, ...). Product cells:
an entity is a product of entities of the factors, numbered in row-major order. Quadrilaterals and hexahedra:
every axis carries an end point or the whole interval; entities of one dimension are numbered by the
dimensions along the axes, in lexicographic order, then by the end points. This is what the cells of FIAT do
(`get_entity_transform`).
-/

namespace FInAT.Spec

open FInAT

/-- All ways to take a vertex (0) or the interval (1) on each of `n` axes, in lexicographic order. -/
def axisDims : Nat → List (List Nat)
  | 0 => [[]]
  | n + 1 => [0, 1].flatMap fun d => (axisDims n).map (d :: ·)

/-- The entities with the given dimensions along the axes: two end points, one interval. -/
def axisEntities : List Nat → List (List (Nat × Nat))
  | [] => [[]]
  | d :: ds => (if d = 0 then [0, 1] else [0]).flatMap fun i => (axisEntities ds).map ((d, i) :: ·)

/-- The entities of dimension `t` of the `n`-cube, as entities of the axes, in the order of their numbers. -/
def cubeEntities (n t : Nat) : List (List (Nat × Nat)) :=
  ((axisDims n).filter fun ds => ds.sum = t).flatMap axisEntities

variable {K : Type}

/-- The point with coordinates `x` on a product of entities of intervals. -/
def axisPoint (σ : Nat → Nat → Nat → List K → List K) : List (Nat × Nat) → List K → List K
  | [], _ => []
  | a :: as, x => σ 1 a.1 a.2 (x.take a.1) ++ axisPoint σ as (x.drop a.1)

mutual
/-- The point of the cell with coordinates `x` on the entity. -/
def entityPoint (σ : Nat → Nat → Nat → List K → List K) : Cell → Dim × Nat → List K → List K
  | .simplex n, ent, x => σ n ent.1.total ent.2 x
  | .quad, ent, x => axisPoint σ (((cubeEntities 2 ent.1.total)[ent.2]?).getD []) x
  | .hex, ent, x => axisPoint σ (((cubeEntities 3 ent.1.total)[ent.2]?).getD []) x
  | .prod cs, (.tup ds, k), x => productPoint σ cs
      (ds.zip (unravel ((cs.zip ds).map fun p => (Dict.get? p.1.topology p.2).getD 0) k)) x
  | .prod _, (.int _, _), _ => []
/-- Consecutive coordinates belong to the entities of the factors. -/
def productPoint (σ : Nat → Nat → Nat → List K → List K) : List Cell → List (Dim × Nat) → List K → List K
  | c :: cs, ent :: ents, x =>
    entityPoint σ c ent (x.take ent.1.total) ++ productPoint σ cs ents (x.drop ent.1.total)
  | _, _, _ => []
end

/-- Points of entities of a simplex are points of its space. -/
def SimplexPoints (σ : Nat → Nat → Nat → List K → List K) : Prop :=
  ∀ n d i x, d ≤ n → x.length = d → (σ n d i x).length = n

/-- The product cells that are numbered like the quadrilateral and the hexahedron. -/
def StandardCube (c : Cell) : Prop :=
  c = .prod [.simplex 1, .simplex 1] ∨ c = .prod [.simplex 1, .simplex 1, .simplex 1] ∨
    c = .prod [.quad, .simplex 1]

mutual
/-- Flattened products live on such cells. -/
def StandardCubes : Elem → Prop
  | .leaf _ => True
  | .tensorProduct fs => StandardCubesL fs
  | .flattened p => StandardCubes p ∧ ∀ c, p.cell = .ok c → StandardCube c
  | .enriched es => StandardCubesL es
  | .mixedSub e _ _ => StandardCubes e
  | .discontinuous e => StandardCubes e
  | .tensorFE e _ _ => StandardCubes e
  | .hdiv w => StandardCubes w
  | .hcurl w => StandardCubes w
  | .quadrature _ _ _ => True
/-- ... for lists. -/
def StandardCubesL : List Elem → Prop
  | [] => True
  | e :: es => StandardCubes e ∧ StandardCubesL es
end

/-- FIAT tabulates functions of the cell: the value on an entity is the value at that point of the cell. -/
def TabulatesAtPoint (σ : Nat → Nat → Nat → List K → List K) (F : Fiat K) (l : Leaf) : Prop :=
  ∀ α ent n x i z, (ent.1, n) ∈ l.cell.topology → ent.2 < n → x.length = ent.1.total →
    F.fn l α ent x i z = F.fn l α (l.cell.dimension, 0) (entityPoint σ l.cell ent x) i z

end FInAT.Spec
