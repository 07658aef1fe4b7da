import Verif.Model.Piola
import Mathlib.Data.Nat.Choose.Basic

/-!
# Basis transformations of the scalar physically mapped elements

Model of `finat/argyris.py`, `bell.py`, `hct.py`, `hermite.py`, `morley.py`, `powell_sabin.py` and
`physically_mapped.py:384-388`: the matrix that `basis_transformation` builds by filling in an object array.
gem expressions are identified with their values and Python floats with exact numbers of a field.
-/

namespace FInAT.Zany

open Finset FInAT.Piola

variable {K : Type} [Field K]

/-- A two-dimensional numpy object array: its shape and its entries.
Source: `finat/argyris.py` 28-41. -/
structure Arr (K : Type) where
  rows : Nat
  cols : Nat
  get : NMat K

/-- `identity(m, n)`, finat/physically_mapped.py:384-388. -/
def identity (m n : Nat) : Arr K := ⟨m, n, fun a b => if a = b then 1 else 0⟩

namespace Arr

/-- `V[i, j] = x`. Python raises when `(i, j)` is out of range; here the shape is unchanged and the write
goes to an entry nobody reads.
Source: `finat/argyris.py` 94-98. -/
def set (V : Arr K) (i j : Nat) (x : K) : Arr K :=
  { V with get := fun a => if a = i then Function.update (V.get a) j x else V.get a }

/-- `V[r:r+m, c:c+n] = B`.
Source: `finat/argyris.py` 37-39. -/
def setBlock (V : Arr K) (r c m n : Nat) (B : NMat K) : Arr K :=
  { V with get := fun a => if r ≤ a ∧ a < r + m then
      fun b => if c ≤ b ∧ b < c + n then B (a - r) (b - c) else V.get a b
    else V.get a }

/-- `V[:, c:c+n] *= x`.
Source: `finat/argyris.py` 32. -/
def scaleCols (V : Arr K) (c n : Nat) (x : K) : Arr K :=
  { V with get := fun a b => if c ≤ b ∧ b < c + n then V.get a b * x else V.get a b }

/-- `ListTensor(V.T)`.
Source: `finat/morley.py` 46. -/
def T (V : Arr K) : Arr K := ⟨V.cols, V.rows, fun a b => V.get b a⟩

end Arr

/-- What the transformations use of the FIAT cell: the spatial dimension, the vertex coordinates
(`get_vertices`), and the vertices of the edges (`get_topology()[1]`).
External; used at `finat/argyris.py` 14-15, 46. -/
structure RefCell (K : Type) where
  sd : Nat
  nverts : Nat
  verts : Nat → NVec K
  edges : List (Nat × Nat)

/-- The FIAT triangle with the given vertex coordinates: edge `i` is opposite to vertex `i` and runs from
the lower to the higher numbered vertex.
External; used at `finat/argyris.py` 46, 81-87. -/
def triangle (verts : Nat → NVec K) : RefCell K := ⟨2, 3, verts, [(1, 2), (0, 2), (0, 1)]⟩

/-- What the transformations use of the coordinate mapping (`PhysicalGeometry`, finat/physically_mapped.py:
290-378): `jacobian_at` the barycentre and at the vertices, `detJ_at` the barycentre, `cell_size`,
`physical_edge_lengths`, `reference_normals`, `physical_normals`, `physical_tangents`. -/
structure Geometry (K : Type) where
  J : NMat K
  Js : Nat → NMat K
  detJ : K
  h : NVec K
  pel : NVec K
  rns : NMat K
  pns : NMat K
  pts : NMat K

/-- `fiat_cell.compute_edge_tangent(e)`: the difference of the two vertices of the edge.
External; used at `finat/argyris.py` 46. -/
def edgeTangent (cell : RefCell K) (e : Nat × Nat) : NVec K := fun i => cell.verts e.2 i - cell.verts e.1 i

/-- `[(i, j) for i in range(sd) for j in range(i, sd)]`, finat/argyris.py:27, finat/aw.py:43. -/
def upper (sd : Nat) : List (Nat × Nat) :=
  (List.range sd).flatMap fun i => (List.range' i (sd - i)).map fun j => (i, j)

/-- `G`, finat/argyris.py:19-20. -/
def gradBlock (J : NMat K) : NMat K := fun i j => J j i

/-- `H`, finat/argyris.py:26-32. -/
def hessBlock (sd : Nat) (J : NMat K) : NMat K := fun p q =>
  let ij := (upper sd).getD p (0, 0)
  let mn := (upper sd).getD q (0, 0)
  let x := J mn.1 ij.1 * J mn.2 ij.2 + J mn.1 ij.2 * J mn.2 ij.1
  if mn.1 = mn.2 then x * (1 / 2) else x

/-- One pass of the loop over the vertices of `_vertex_transform`, finat/argyris.py:35-40; the state is
`(s, V)`. -/
def vertexStep (sd vorder : Nat) (J : NMat K) : Nat × Arr K → Nat → Nat × Arr K := fun (s, V) _ =>
  let gdofs := sd
  let hdofs := if vorder < 2 then 0 else (sd * (sd + 1)) / 2
  let s := s + 1
  let V := V.setBlock s s gdofs gdofs (gradBlock J)
  let s := s + gdofs
  let V := V.setBlock s s hdofs hdofs (hessBlock sd J)
  (s + hdofs, V)

/-- `_vertex_transform`, finat/argyris.py:12-41. -/
def vertexTransform (V : Arr K) (vorder : Nat) (cell : RefCell K) (g : Geometry K) : Arr K :=
  ((List.range cell.nverts).foldl (vertexStep cell.sd vorder g.J) (0, V)).2

/-- `_normal_tangential_transform`, finat/argyris.py:44-58; `Lhat` is `numpy.linalg.norm(that)`. Returns
`(Bnn, Bnt, Jt)`. -/
def normalTangential (J : NMat K) (detJ : K) (that : NVec K) (Lhat : K) : K × K × NVec K :=
  let nhat := rotate that
  let Jn := matVec 2 J nhat
  let Jt := matVec 2 J that
  let alpha := dot 2 Jn Jt
  let beta := dot 2 Jt Jt
  let Bnn := detJ / beta
  let Bnt := alpha / beta
  (Bnn * Lhat, Bnt / Lhat, Jt)

/-- The assignments for one edge and one moment `k`, finat/argyris.py:88-98. -/
def momentStep (vorder eorder v0id v1id s0 : Nat) (Bnn Bnt : K) (V : Arr K) (k : Nat) : Arr K :=
  let s := s0 + k
  let P1 : K := ((k + vorder).choose k : Nat)
  let P0 : K := -(-1) ^ k * P1
  let V := V.set s s Bnn
  let V := V.set s v1id (P1 * Bnt)
  let V := V.set s v0id (P0 * Bnt)
  if k > 0 then V.set s (s + eorder) (-1 * Bnt) else V

/-- One pass of the loop over the edges of `_edge_transform`, finat/argyris.py:81-98. `L` gives the norms
of the edge tangents of the reference cell. -/
def edgeStep (vorder eorder : Nat) (cell : RefCell K) (L : NVec K) (g : Geometry K) (avg : Bool)
    (V : Arr K) (e : Nat) : Arr K :=
  let voffset := (cell.sd + vorder).choose vorder
  let eoffset := 2 * eorder + 1
  let ends := cell.edges.getD e (0, 0)
  let (Bnn, Bnt, _) := normalTangential g.J g.detJ (edgeTangent cell ends) (L e)
  let Bnn := if avg then Bnn * g.pel e else Bnn
  let v0id := ends.1 * voffset
  let v1id := ends.2 * voffset
  let s0 := cell.nverts * voffset + e * eoffset
  (List.range (eorder + 1)).foldl (momentStep vorder eorder v0id v1id s0 Bnn Bnt) V

/-- `_edge_transform`, finat/argyris.py:61-98. -/
def edgeTransform (V : Arr K) (vorder eorder : Nat) (cell : RefCell K) (L : NVec K) (g : Geometry K)
    (avg : Bool) : Arr K :=
  (List.range cell.edges.length).foldl (edgeStep vorder eorder cell L g avg) V

/-- The column scaling after the transformations of order two jets, finat/argyris.py:158-162,
finat/bell.py:58-62. -/
def scaleJets2 (voffset sd : Nat) (h : NVec K) (V : Arr K) (v : Nat) : Arr K :=
  let s := voffset * v + 1
  let V := V.scaleCols s sd (1 / h v)
  V.scaleCols (s + sd) (voffset * (v + 1) - (s + sd)) (1 / (h v * h v))

/-- The column scaling after the transformations of order one jets, finat/hct.py:33-36, 84-87. -/
def scaleJets1 (voffset sd : Nat) (h : NVec K) (V : Arr K) (v : Nat) : Arr K :=
  V.scaleCols (voffset * v + 1) sd (1 / h v)

/-- The edge rows of an element whose edge functional is expressed by second order jets at the two ends
with coefficients `c0` (values, antisymmetric), `c1` (first derivatives, symmetric) and `c2` (second
derivatives, antisymmetric): finat/argyris.py:141-155 and finat/bell.py:37-55. The reads back of entries
just written (`V[s, v0id] = -1 * V[s, v1id]`) are reproduced. -/
def jetRow2 (s v0id v1id sd : Nat) (c0 c1 c2 Bnt : K) (Jt : NVec K) (V : Arr K) : Arr K :=
  let V := V.set s v1id (c0 * Bnt)
  let V := V.set s v0id (-1 * V.get s v1id)
  let V := (List.range sd).foldl (fun V i =>
    let V := V.set s (v1id + 1 + i) (c1 * Bnt * Jt i)
    V.set s (v0id + 1 + i) (V.get s (v1id + 1 + i))) V
  let tau : NVec K := vec [Jt 0 * Jt 0, 2 * Jt 0 * Jt 1, Jt 1 * Jt 1]
  (List.range 3).foldl (fun V i =>
    let V := V.set s (v1id + 3 + i) (c2 * Bnt * tau i)
    V.set s (v0id + 3 + i) (-1 * V.get s (v1id + 3 + i))) V

/-- `Argyris.basis_transformation`, finat/argyris.py:117-172, for `variant="integral"` and an element of
dimension `N` and polynomial degree `degree`. -/
def argyris (cell : RefCell K) (L : NVec K) (g : Geometry K) (N degree : Nat) (avg : Bool) : Arr K :=
  let V := identity N N
  let vorder := 2
  let voffset := (cell.sd + vorder).choose vorder
  let eorder := degree - 5
  let V := vertexTransform V vorder cell g
  let V := edgeTransform V vorder eorder cell L g avg
  let V := (List.range cell.nverts).foldl (scaleJets2 voffset cell.sd g.h) V
  V.T

/-- One pass of the loop over edges of the point variant, finat/argyris.py:134-155. -/
def argyrisPointStep (cell : RefCell K) (L : NVec K) (g : Geometry K) (eorder : Nat) (V : Arr K) (e : Nat) :
    Arr K :=
  let voffset := (cell.sd + 2).choose 2
  let s := cell.nverts * voffset + e * (eorder + 1)
  let ends := cell.edges.getD e (0, 0)
  let v0id := ends.1 * voffset
  let v1id := ends.2 * voffset
  let (Bnn, Bnt, Jt) := normalTangential g.J g.detJ (edgeTangent cell ends) (L e)
  let V := V.set s s (Bnn * g.pel e)
  jetRow2 s v0id v1id cell.sd (15 / 8) (-7 / 16) (1 / 32) Bnt Jt V

/-- `Argyris.basis_transformation`, finat/argyris.py:117-172, for `variant="point"`. -/
def argyrisPoint (cell : RefCell K) (L : NVec K) (g : Geometry K) (N degree : Nat) : Arr K :=
  let V := identity N N
  let vorder := 2
  let voffset := (cell.sd + vorder).choose vorder
  let eorder := degree - 5
  let V := vertexTransform V vorder cell g
  let V := (List.range cell.edges.length).foldl (argyrisPointStep cell L g eorder) V
  let V := (List.range cell.nverts).foldl (scaleJets2 voffset cell.sd g.h) V
  let eoffset := 2 * eorder + 1
  let V := (List.range cell.edges.length).foldl (fun V e =>
    let ends := cell.edges.getD e (0, 0)
    let s := cell.nverts * voffset + e * eoffset
    V.scaleCols s (eorder + 1) (2 / (g.h ends.1 + g.h ends.2))) V
  V.T

/-- One pass of the loop over edges of `Bell.basis_transformation`, finat/bell.py:36-55. -/
def bellStep (cell : RefCell K) (L : NVec K) (g : Geometry K) (V : Arr K) (e : Nat) : Arr K :=
  let voffset := (cell.sd + 2).choose 2
  let s := cell.nverts * voffset + e
  let ends := cell.edges.getD e (0, 0)
  let v0id := ends.1 * voffset
  let v1id := ends.2 * voffset
  let (_, Bnt, Jt) := normalTangential g.J g.detJ (edgeTangent cell ends) (L e)
  jetRow2 s v0id v1id cell.sd (1 / 21) (-1 / 42) (1 / 252) Bnt Jt V

/-- `Bell.basis_transformation`, finat/bell.py:22-64: `numbf` functions of the FIAT element, `ndof` degrees
of freedom. -/
def bell (cell : RefCell K) (L : NVec K) (g : Geometry K) (numbf ndof : Nat) : Arr K :=
  let V := identity numbf ndof
  let vorder := 2
  let V := vertexTransform V vorder cell g
  let voffset := (cell.sd + vorder).choose vorder
  let V := (List.range cell.edges.length).foldl (bellStep cell L g) V
  let V := (List.range cell.nverts).foldl (scaleJets2 voffset cell.sd g.h) V
  V.T

/-- `HsiehCloughTocher.basis_transformation`, finat/hct.py:21-37. -/
def hct (cell : RefCell K) (L : NVec K) (g : Geometry K) (N degree : Nat) (avg : Bool) : Arr K :=
  let V := identity N N
  let vorder := 1
  let eorder := degree - 3
  let voffset := (cell.sd + vorder).choose vorder
  let V := vertexTransform V vorder cell g
  let V := edgeTransform V vorder eorder cell L g avg
  let V := (List.range cell.nverts).foldl (scaleJets1 voffset cell.sd g.h) V
  V.T

/-- One pass of the loop over edges of `ReducedHsiehCloughTocher.basis_transformation`,
finat/hct.py:69-81. -/
def reducedHctStep (cell : RefCell K) (L : NVec K) (g : Geometry K) (V : Arr K) (e : Nat) : Arr K :=
  let voffset := (cell.sd + 1).choose 1
  let s := cell.nverts * voffset + e
  let ends := cell.edges.getD e (0, 0)
  let v0id := ends.1 * voffset
  let v1id := ends.2 * voffset
  let (_, Bnt, Jt) := normalTangential g.J g.detJ (edgeTangent cell ends) (L e)
  let V := V.set s v0id (1 / 5 * Bnt)
  let V := V.set s v1id (-1 * V.get s v0id)
  (List.range cell.sd).foldl (fun V i =>
    let V := V.set s (v1id + 1 + i) (1 / 10 * Bnt * Jt i)
    V.set s (v0id + 1 + i) (V.get s (v1id + 1 + i))) V

/-- `ReducedHsiehCloughTocher.basis_transformation`, finat/hct.py:53-88. -/
def reducedHct (cell : RefCell K) (L : NVec K) (g : Geometry K) (numbf ndof : Nat) : Arr K :=
  let V := identity numbf ndof
  let vorder := 1
  let voffset := (cell.sd + vorder).choose vorder
  let V := vertexTransform V vorder cell g
  let V := (List.range cell.edges.length).foldl (reducedHctStep cell L g) V
  let V := (List.range cell.nverts).foldl (scaleJets1 voffset cell.sd g.h) V
  V.T

/-- One pass of the loop over the vertices of `Hermite.basis_transformation`, finat/hermite.py:24-31
(and `QuadraticPowellSabin6`, finat/powell_sabin.py:26-33); the state is `(cur, M)`. -/
def hermiteStep (d : Nat) (g : Geometry K) : Nat × Arr K → Nat → Nat × Arr K := fun (cur, M) i =>
  let cur := cur + 1
  let J := g.Js i
  let M := (List.range d).foldl (fun M j =>
    (List.range d).foldl (fun M k => M.set (cur + j) (cur + k) (J j k / g.h i)) M) M
  (cur + d, M)

/-- `Hermite.basis_transformation`, finat/hermite.py:14-33, and
`QuadraticPowellSabin6.basis_transformation`, finat/powell_sabin.py:15-35. -/
def hermite (d : Nat) (g : Geometry K) (N : Nat) : Arr K :=
  ((List.range (d + 1)).foldl (hermiteStep d g) (0, identity N N)).2

/-- `QuadraticPowellSabin12.basis_transformation`, finat/powell_sabin.py:45-67. -/
def powellSabin12 (cell : RefCell K) (L : NVec K) (g : Geometry K) (N : Nat) (avg : Bool) : Arr K :=
  let V := identity N N
  let voffset := cell.sd + 1
  let V := (List.range cell.nverts).foldl (fun V v =>
    let s := voffset * v
    (List.range cell.sd).foldl (fun V i =>
      (List.range cell.sd).foldl (fun V j => V.set (s + 1 + i) (s + 1 + j) (g.J j i)) V) V) V
  let V := edgeTransform V 1 0 cell L g avg
  let V := (List.range cell.nverts).foldl (fun V v =>
    (List.range cell.sd).foldl (fun V k => V.scaleCols (voffset * v + 1 + k) 1 (1 / g.h v)) V) V
  V.T

/-- `Morley.basis_transformation`, finat/morley.py:15-49. -/
def morley (g : Geometry K) (N : Nat) : Arr K :=
  let V := identity N N
  let V := (List.range 3).foldl (fun V i => V.set (i + 3) (i + 3)
    (g.rns i 0 * (g.pns i 0 * g.J 0 0 + g.pns i 1 * g.J 1 0) +
      g.rns i 1 * (g.pns i 0 * g.J 0 1 + g.pns i 1 * g.J 1 1))) V
  let V := [(1, 2), (0, 2), (0, 1)].zipIdx.foldl (fun V (ci : (Nat × Nat) × Nat) =>
    let (c, i) := ci
    let B12 := g.rns i 0 * (g.pts i 0 * g.J 0 0 + g.pts i 1 * g.J 1 0) +
      g.rns i 1 * (g.pts i 0 * g.J 0 1 + g.pts i 1 * g.J 1 1)
    let V := V.set (3 + i) c.1 (-1 * B12 / g.pel i)
    V.set (3 + i) c.2 (B12 / g.pel i)) V
  let V := (List.range 3).foldl (fun V e =>
    let others := (List.range 3).filter fun i => i ≠ e
    let v0id := others.getD 0 0
    let v1id := others.getD 1 0
    (List.range 6).foldl (fun V i =>
      V.set i (3 + e) (2 * V.get i (3 + e) / (g.h v0id + g.h v1id))) V) V
  V.T

end FInAT.Zany
