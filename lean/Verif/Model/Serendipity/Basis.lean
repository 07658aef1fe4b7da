import Mathlib.Algebra.Field.Basic
import Mathlib.Algebra.BigOperators.Group.List.Basic
import Mathlib.Data.Fin.VecNotation
import Mathlib.Data.List.FinRange

/-!
# Direct serendipity basis functions (`finat/direct_serendipity.py`)

The code builds symbolic expressions in the physical coordinates `x, y` and in the coordinates
`vs` of the vertices. The model is the value of these expressions: an expression in `x, y` is a
function `K × K → K` for the field `K` in which the vertices have their coordinates, and
`expr.subs(xysub(xx, p))` is the value at `p`. Simplification: symbolic simplification does not
change the value; a division by zero, which makes the expression undefined, has the value `0` here.
-/

namespace FInAT.Serendipity

/-- A point of the plane.
Source: `finat/direct_serendipity.py` 152, 270. -/
abbrev Pt (K : Type) := K × K

/-- The edges of FIAT's `UFCQuadrilateral` (`ct[1]`): the numbers of their end points. The
topology is a parameter of the code; the element only passes this one.
External; used at `finat/direct_serendipity.py` 156, 274. -/
def ends : Fin 4 → Fin 4 × Fin 4 := ![(0, 1), (2, 3), (0, 2), (1, 3)]

/-- `i in ct[1][e]`.
Source: `finat/direct_serendipity.py` 440-443. -/
def onEdge (i e : Fin 4) : Bool := i == (ends e).1 || i == (ends e).2

/-- `set(ct[1][e]).intersection(ct[1][o]) != set()`.
Source: `finat/direct_serendipity.py` 366, 370-371. -/
def meets (e o : Fin 4) : Bool := onEdge (ends e).1 o || onEdge (ends e).2 o

/-- `opposite_edges` (`finat/direct_serendipity.py` 365-367). It has one entry for
each of the four edges, so that taking the first does not raise. -/
def oppositeList (e : Fin 4) : List (Fin 4) := (List.finRange 4).filter fun o => !meets e o

/-- The first entry of `oppositeList`.
Source: `finat/direct_serendipity.py` 365-367. -/
def opposite (e : Fin 4) : Fin 4 := (oppositeList e).headD 0

/-- `adjacent_edges` (`finat/direct_serendipity.py` 368-372), already sorted. -/
def adjacentList (e : Fin 4) : List (Fin 4) :=
  (List.finRange 4).filter fun o => !(o == e) && meets e o

/-- `adjacent_edges[e][k]`.
Source: `finat/direct_serendipity.py` 368-374. -/
def adjacent (e : Fin 4) (k : Nat) : Fin 4 := (adjacentList e).getD k 0

/-- `vertex_to_adj_edges` (`finat/direct_serendipity.py` 440-441). -/
def adjEdges (v : Fin 4) : List (Fin 4) := (List.finRange 4).filter fun e => onEdge v e

/-- `vertex_to_off_edges` (`finat/direct_serendipity.py` 442-443). -/
def offEdgeList (v : Fin 4) : List (Fin 4) := (List.finRange 4).filter fun e => !onEdge v e

/-- `ed0, ed1 = vertex_to_off_edges[v]`.
Source: `finat/direct_serendipity.py` 442-443, 447. -/
def offEdge (v : Fin 4) (k : Nat) : Fin 4 := (offEdgeList v).getD k 0

variable {K : Type} [Field K]

/-- Tangents of the edges (`finat/direct_serendipity.py` 156-160, 273-276). -/
def tangent (vs : Fin 4 → Pt K) (e : Fin 4) : Pt K :=
  ((vs (ends e).2).1 - (vs (ends e).1).1, (vs (ends e).2).2 - (vs (ends e).1).2)

/-- Normals of the edges (`finat/direct_serendipity.py` 162-169, 278-285). -/
def normal (vs : Fin 4 → Pt K) (e : Fin 4) : Pt K :=
  if e = 0 ∨ e = 3 then (-(tangent vs e).2, (tangent vs e).1)
  else ((tangent vs e).2, -(tangent vs e).1)

/-- Midpoints of the edges (`finat/direct_serendipity.py` 171-174, 287-291). -/
def xstar (vs : Fin 4 → Pt K) (e : Fin 4) : Pt K :=
  (((vs (ends e).1).1 + (vs (ends e).2).1) / 2, ((vs (ends e).1).2 + (vs (ends e).2).2) / 2)

/-- `lams[e]` (`finat/direct_serendipity.py` 176, 293). -/
def lam (vs : Fin 4 → Pt K) (e : Fin 4) (x : Pt K) : K :=
  (x.1 - (xstar vs e).1) * (normal vs e).1 + (x.2 - (xstar vs e).2) * (normal vs e).2

/-- `RV` (`finat/direct_serendipity.py` 178, 351). -/
def rV (vs : Fin 4 → Pt K) (x : Pt K) : K :=
  (lam vs 0 x - lam vs 1 x) / (lam vs 0 x + lam vs 1 x)

/-- `RH` (`finat/direct_serendipity.py` 179, 352). -/
def rH (vs : Fin 4 → Pt K) (x : Pt K) : K :=
  (lam vs 2 x - lam vs 3 x) / (lam vs 2 x + lam vs 3 x)

/-! ## Degree one: `ds1_sym` -/

/-- The functions `xis` (`finat/direct_serendipity.py` 182-188). The list `Rs` is `[RV, RH]`,
indexed by `e // 2`. -/
def xi (vs : Fin 4 → Pt K) (e : Fin 4) (x : Pt K) : K :=
  let i : Fin 4 := Fin.ofNat 4 (2 * ((3 - e.val) / 2))
  let j : Fin 4 := i + 1
  lam vs i x * lam vs j x
    * (1 + (-1) ^ (e.val + 1) * (if e.val / 2 = 0 then rV vs x else rH vs x))
    / lam vs i (xstar vs e) / lam vs j (xstar vs e) / 2

/-- `r` (`finat/direct_serendipity.py` 190-197). -/
def rSum (vs : Fin 4 → Pt K) (x : Pt K) : K :=
  lam vs 1 x * lam vs 3 x / lam vs 1 (vs 0) / lam vs 3 (vs 0)
    - lam vs 0 x * lam vs 3 x / lam vs 0 (vs 2) / lam vs 3 (vs 2)
    + lam vs 0 x * lam vs 2 x / lam vs 0 (vs 3) / lam vs 2 (vs 3)
    - lam vs 1 x * lam vs 2 x / lam vs 1 (vs 1) / lam vs 2 (vs 1)

/-- `R` (`finat/direct_serendipity.py` 198). -/
def bigR (vs : Fin 4 → Pt K) (x : Pt K) : K :=
  rSum vs x - ((List.finRange 4).map fun i => rSum vs (xstar vs i) * xi vs i x).sum

/-- `lam03` (`finat/direct_serendipity.py` 200-201): the matrix `[[0, -1], [1, 0]]` applied to
`vs[3] - vs[0]`. -/
def lam03 (vs : Fin 4 → Pt K) (x : Pt K) : K :=
  (x.1 - (vs 0).1) * (0 * ((vs 3).1 - (vs 0).1) + -1 * ((vs 3).2 - (vs 0).2))
    + (x.2 - (vs 0).2) * (1 * ((vs 3).1 - (vs 0).1) + 0 * ((vs 3).2 - (vs 0).2))

/-- `lam12` (`finat/direct_serendipity.py` 202-203). -/
def lam12 (vs : Fin 4 → Pt K) (x : Pt K) : K :=
  (x.1 - (vs 2).1) * (0 * ((vs 2).1 - (vs 1).1) + -1 * ((vs 2).2 - (vs 1).2))
    + (x.2 - (vs 2).2) * (1 * ((vs 2).1 - (vs 1).1) + 0 * ((vs 2).2 - (vs 1).2))

/-- `phi0tilde`, ..., `phi3tilde` (`finat/direct_serendipity.py` 205-208). -/
def phiTilde (vs : Fin 4 → Pt K) : Fin 4 → Pt K → K := ![
  fun x => lam12 vs x - lam12 vs (vs 3) * (1 + bigR vs x) / 2,
  fun x => lam03 vs x - lam03 vs (vs 2) * (1 - bigR vs x) / 2,
  fun x => lam03 vs x - lam03 vs (vs 1) * (1 - bigR vs x) / 2,
  fun x => lam12 vs x - lam12 vs (vs 0) * (1 + bigR vs x) / 2]

/-- The basis functions of degree one (`finat/direct_serendipity.py` 210-213). -/
def phi1 (vs : Fin 4 → Pt K) (i : Fin 4) (x : Pt K) : K :=
  phiTilde vs i x / phiTilde vs i (vs i)

/-- `ds1_sym(ct, vs)` (`finat/direct_serendipity.py` 136-213): the list of basis functions. -/
def ds1 (vs : Fin 4 → Pt K) : List (Pt K → K) := (List.finRange 4).map (phi1 vs)

/-! ## Newton interpolation -/

/-- One column of the table in `newton_dd` (`finat/direct_serendipity.py` 222-224): entry `i` of
column `j` from column `j - 1`. -/
def ddColumn (nds : List K) (fs : List K) : Nat → Nat → K
  | 0, i => fs.getD i 0
  | j + 1, i => (ddColumn nds fs j (i + 1) - ddColumn nds fs j i) /
      (nds.getD (i + j + 1) 0 - nds.getD i 0)

/-- `newton_dd` (`finat/direct_serendipity.py` 216-225): the first row `mat[0, :]`. The list of
values has the length of the list of nodes. -/
def newtonDD (nds fs : List K) : List K :=
  (List.range nds.length).map fun j => ddColumn nds fs j 0

/-- `newton_poly` (`finat/direct_serendipity.py` 228-237), as a function of `xsym`. For an empty
list of nodes `coeffs[-1]` raises; the code calls it with at least one node, and the model returns
`0`. -/
def newtonPoly (nds fs : List K) (s : K) : K :=
  let coeffs := newtonDD nds fs
  let n := coeffs.length
  ((List.range (n - 1)).reverse).foldl
    (fun result i => result * (s - nds.getD i 0) + coeffs.getD i 0) (coeffs.getD (n - 1) 0)

/-! ## Higher degree: `dsr_sym` -/

/-- `bubble` (`finat/direct_serendipity.py` 295). -/
def bubble (vs : Fin 4 → Pt K) (x : Pt K) : K :=
  ((List.finRange 4).map fun e => lam vs e x).prod

/-- `dx0`, `dx1` (`finat/direct_serendipity.py` 306-307); the argument is `1` or `2`. -/
def dxTo (vs : Fin 4 → Pt K) (r : Nat) (i : Fin 4) : Pt K :=
  (((vs i).1 - (vs 0).1) / ((r : K) - 2), ((vs i).2 - (vs 0).2) / ((r : K) - 2))

/-- `vs[0, :] + a * dx0 + b * dx1`.
Source: `finat/direct_serendipity.py` 306-312. -/
def along (vs : Fin 4 → Pt K) (r : Nat) (a b : K) : Pt K :=
  ((vs 0).1 + a * (dxTo vs r 1).1 + b * (dxTo vs r 2).1,
    (vs 0).2 + a * (dxTo vs r 1).2 + b * (dxTo vs r 2).2)

/-- The vertices `v0`, `v1`, `v2` of the triangle (`finat/direct_serendipity.py` 310-312). -/
def triVertex (vs : Fin 4 → Pt K) (r : Nat) : Fin 3 → Pt K :=
  ![along vs r 1 1, along vs r ((r : K) - 3) 1, along vs r 1 ((r : K) - 3)]

/-- `bary` (`finat/direct_serendipity.py` 315-325). -/
def bary (vs : Fin 4 → Pt K) (r : Nat) (x : Pt K) : Fin 3 → K :=
  let v := triVertex vs r
  let y12 := (v 1).2 - (v 2).2
  let x21 := (v 2).1 - (v 1).1
  let x02 := (v 0).1 - (v 2).1
  let y02 := (v 0).2 - (v 2).2
  let det := y12 * x02 + x21 * y02
  let delx := x.1 - (v 2).1
  let dely := x.2 - (v 2).2
  let b0 := (y12 * delx + x21 * dely) / det
  let b1 := (-y02 * delx + x02 * dely) / det
  ![b0, b1, 1 - b0 - b1]

/-- The triples `ii = (i, j, k)` in the order of the loops (`finat/direct_serendipity.py`
335-337, 339), for `m = rm4`. -/
def lattice (m : Nat) : List (Fin 3 → Nat) :=
  (List.range (m + 1)).reverse.flatMap fun i =>
    (List.range (m - i + 1)).reverse.map fun j => ![i, j, m - i - j]

/-- An entry of `internal_nodes` (`finat/direct_serendipity.py` 338). -/
def latticeNode (vs : Fin 4 → Pt K) (r : Nat) (ii : Fin 3 → Nat) : Pt K :=
  let v := triVertex vs r
  let m : K := ((r - 4 : Nat) : K)
  (((v 0).1 * (ii 0 : K) + (v 1).1 * (ii 1 : K) + (v 2).1 * (ii 2 : K)) / m,
    ((v 0).2 * (ii 0 : K) + (v 1).2 * (ii 1 : K) + (v 2).2 * (ii 2 : K)) / m)

/-- `lag_cur` (`finat/direct_serendipity.py` 340-344). -/
def lag (vs : Fin 4 → Pt K) (r : Nat) (ii : Fin 3 → Nat) (x : Pt K) : K :=
  ((List.finRange 3).map fun q => ((List.range (ii q)).map fun (p : Nat) =>
    (((r - 4 : Nat) : K) * bary vs r x q - (p : K)) / ((ii q : K) - (p : K))).prod).prod

/-- `internal_nodes` (`finat/direct_serendipity.py` 297-304, 338). -/
def internalNodes (vs : Fin 4 → Pt K) (r : Nat) : List (Pt K) :=
  if r < 4 then []
  else if r = 4 then
    [(((List.finRange 4).map fun i => (vs i).1).sum / 4,
      ((List.finRange 4).map fun i => (vs i).2).sum / 4)]
  else (lattice (r - 4)).map (latticeNode vs r)

/-- `internal_bfs` (`finat/direct_serendipity.py` 297-303, 346-349). -/
def internalBfs (vs : Fin 4 → Pt K) (r : Nat) : List (Pt K → K) :=
  if r < 4 then []
  else if r = 4 then
    (internalNodes vs r).map fun nd x => bubble vs x / bubble vs nd
  else (lattice (r - 4)).map fun ii x =>
    lag vs r ii x * bubble vs x / (lag vs r ii (latticeNode vs r ii) * bubble vs (latticeNode vs r ii))

/-- The list `Rs` of `dsr_sym` (`finat/direct_serendipity.py` 355). -/
def rEdge (vs : Fin 4 → Pt K) (e : Fin 4) (x : Pt K) : K :=
  (![(1 - rV vs x) / 2, (1 + rV vs x) / 2, (1 - rH vs x) / 2, (1 + rH vs x) / 2] : Fin 4 → K) e

/-- `nodes1d` (`finat/direct_serendipity.py` 357). -/
def nodes1d (r : Nat) : List K := (List.range' 1 (r - 1)).map fun (i : Nat) => (i : K) / (r : K)

/-- `tunnel_R_edges` (`finat/direct_serendipity.py` 375-377). -/
def tunnelR (vs : Fin 4 → Pt K) (e : Fin 4) (x : Pt K) : K :=
  (lam vs (adjacent e 0) x - lam vs (adjacent e 1) x)
    / (lam vs (adjacent e 0) x + lam vs (adjacent e 1) x)

/-- The point of edge `e` with parameter `s` (`finat/direct_serendipity.py` 380-383). -/
def edgePt (vs : Fin 4 → Pt K) (e : Fin 4) (s : K) : Pt K :=
  let v0 := vs (ends e).1
  let v1 := vs (ends e).2
  (v0.1 + s * (v1.1 - v0.1), v0.2 + s * (v1.2 - v0.2))

/-- `edge_nodes[e]` (`finat/direct_serendipity.py` 378-383). -/
def edgeNodes (vs : Fin 4 → Pt K) (r : Nat) (e : Fin 4) : List (Pt K) :=
  (nodes1d r).map (edgePt vs e)

/-- `nodalize` (`finat/direct_serendipity.py` 387-389). -/
def nodalize (vs : Fin 4 → Pt K) (r : Nat) (f : Pt K → K) (x : Pt K) : K :=
  f x - ((List.zip (internalBfs vs r) (internalNodes vs r)).map fun p => f p.2 * p.1 x).sum

/-- `idcs` (`finat/direct_serendipity.py` 409): all positions below `n` but `i`. -/
def strike (n i : Nat) : List Nat := (List.range n).filter fun j => !(i == j)

/-- `p` (`finat/direct_serendipity.py` 409-426): the interpolation along the edge. -/
def edgeP (vs : Fin 4 → Pt K) (r : Nat) (e : Fin 4) (i : Nat) (x : Pt K) : K :=
  let idcs := strike (nodes1d r : List K).length i
  let nodesCur := idcs.map fun j => (nodes1d r).getD j 0
  let edgeCur := idcs.map fun j => (edgeNodes vs r e).getD j (0, 0)
  let pvals := edgeCur.map fun nd => -1 * tunnelR vs e nd ^ (r - 2) / lam vs (opposite e) nd
  let v0 := vs (ends e).1
  let v1 := vs (ends e).2
  let t := tangent vs e
  let xt := x.1 * t.1 + x.2 * t.2
  let vt0 := v0.1 * t.1 + v0.2 * t.2
  let vt1 := v1.1 * t.1 + v1.2 * t.2
  newtonPoly nodesCur pvals ((xt - vt0) / (vt1 - vt0))

/-- The first `prebf` of an edge node (`finat/direct_serendipity.py` 428-431), and `ephi` in
degree two (394-396). -/
def edgePre (vs : Fin 4 → Pt K) (r : Nat) (e : Fin 4) (i : Nat) (x : Pt K) : K :=
  if r = 2 then lam vs (adjacent e 0) x * lam vs (adjacent e 1) x * rEdge vs e x
  else lam vs (adjacent e 0) x * lam vs (adjacent e 1) x *
    (lam vs (opposite e) x * edgeP vs r e i x + tunnelR vs e x ^ (r - 2) * rEdge vs e x)

/-- The basis function of node `i` of edge `e` (`finat/direct_serendipity.py` 391-435). In degree
two it is divided by the value of `ephi` at the midpoint, otherwise by the value of the function at
its node. -/
def edgeBf (vs : Fin 4 → Pt K) (r : Nat) (e : Fin 4) (i : Nat) (x : Pt K) : K :=
  if r = 2 then nodalize vs r (edgePre vs r e i) x / edgePre vs r e i (xstar vs e)
  else nodalize vs r (edgePre vs r e i) x
    / nodalize vs r (edgePre vs r e i) ((edgeNodes vs r e).getD i (0, 0))

/-- `edge_bfs[e]` (`finat/direct_serendipity.py` 391-437). In degree two there is one node. -/
def edgeBfs (vs : Fin 4 → Pt K) (r : Nat) (e : Fin 4) : List (Pt K → K) :=
  (List.range (nodes1d r : List K).length).map (edgeBf vs r e)

/-- `prebf` of a vertex after the loop over the adjacent edges
(`finat/direct_serendipity.py` 447-459). -/
def vertexPre (vs : Fin 4 → Pt K) (r : Nat) (v : Fin 4) (x : Pt K) : K :=
  (adjEdges v).foldl (fun acc e =>
    (List.zip (edgeNodes vs r e) (edgeBfs vs r e)).foldl (fun acc p =>
      acc - lam vs (offEdge v 0) p.1 * lam vs (offEdge v 1) p.1 * p.2 x) acc)
    (lam vs (offEdge v 0) x * lam vs (offEdge v 1) x)

/-- The basis function of a vertex (`finat/direct_serendipity.py` 461-462). -/
def vertexBf (vs : Fin 4 → Pt K) (r : Nat) (v : Fin 4) (x : Pt K) : K :=
  nodalize vs r (vertexPre vs r v) x / vertexPre vs r v (vs v)

/-- `dsr_sym(ct, r, vs)` (`finat/direct_serendipity.py` 254-474): the list of basis functions. -/
def dsr (vs : Fin 4 → Pt K) (r : Nat) : List (Pt K → K) :=
  (List.finRange 4).map (vertexBf vs r)
    ++ (List.finRange 4).flatMap (edgeBfs vs r) ++ internalBfs vs r

/-- `nds` (`finat/direct_serendipity.py` 469-472): the nodes of these functions. The code builds
the list but does not return it. -/
def dsrNodes (vs : Fin 4 → Pt K) (r : Nat) : List (Pt K) :=
  (List.finRange 4).map vs ++ (List.finRange 4).flatMap (edgeNodes vs r) ++ internalNodes vs r

/-- `ds_sym(ct, r, vs)` (`finat/direct_serendipity.py` 477-490). -/
def ds (vs : Fin 4 → Pt K) (r : Nat) : List (Pt K → K) :=
  if r = 1 then ds1 vs else dsr vs r

end FInAT.Serendipity
