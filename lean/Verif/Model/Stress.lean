import Verif.Model.Zany

/-!
# Basis transformations of the Piola-mapped elements

Model of `finat/aw.py`, `hz.py`, `johnson_mercier.py`, `mtw.py`, `alfeld_sorokina.py` and
`piola_mapped.py:92-163`.
-/

namespace FInAT.Stress

open Finset FInAT.Piola FInAT.Zany

variable {K : Type} [Field K]

/-- What the code uses of the reference cell: the dimension, the number of facets, the tangent vectors of
facet `f` (`compute_edge_tangent(f)` for `sd = 2`, `compute_tangents(2, f)` for `sd = 3`) and, for
`sd = 2`, the norms of the former.
External; used at `finat/aw.py` 12-17. -/
structure Facets (K : Type) where
  sd : Nat
  num : Nat
  tangent : Nat → Nat → NVec K
  norm : Nat → K

/-- `transform(fiat_cell, J, detJ, f)` with the choice of finat/aw.py:24-27: the matrix of `sd - 1` rows and
`sd` columns. `normal_tangential_edge_transform` returns a single row. -/
def facetRows (c : Facets K) (J : NMat K) (detJ : K) (f : Nat) : NMat K :=
  if c.sd = 2 then fun _ => Piola.edgeTransform J detJ (c.tangent f 0) (c.norm f)
  else faceTransform J detJ (c.tangent f 0) (c.tangent f 1)

/-- `_facet_transform`, finat/aw.py:11-34; `dimPk` is `polynomial_dimension(facet, facet_moment_degree)`. -/
def facetTransform (c : Facets K) (dimPk : Nat) (J : NMat K) (detJ : K) : Arr K :=
  let dofs_per_facet := c.sd * dimPk
  let ndofs := c.num * dofs_per_facet
  (List.range c.num).foldl (fun V f =>
    (List.range dimPk).foldl (fun V i =>
      let s := dofs_per_facet * f + i * c.sd
      V.setBlock (s + 1) s (c.sd - 1) c.sd (facetRows c J detJ f)) V) (identity ndofs ndofs)

/-- `_evaluation_transform`, finat/aw.py:37-50. -/
def evaluationTransform (sd : Nat) (J : NMat K) : Arr K :=
  let Kadj := adjugate sd J
  let ncomp := (upper sd).length
  ⟨ncomp, ncomp, fun p q =>
    let ij := (upper sd).getD p (0, 0)
    let mn := (upper sd).getD q (0, 0)
    let W := 1 / 2 * (Kadj ij.1 mn.1 * Kadj ij.2 mn.2 + Kadj ij.2 mn.1 * Kadj ij.1 mn.2)
    if mn.1 ≠ mn.2 then W * 2 else W⟩

/-- `ArnoldWintherNC.basis_transformation`, finat/aw.py:59-72: 18 functions, 15 degrees of freedom. -/
def arnoldWintherNC (c : Facets K) (J : NMat K) (detJ : K) (numbf ndof : Nat) : Arr K :=
  let V := identity numbf ndof
  (V.setBlock 0 0 12 12 (facetTransform c 2 J detJ).get).T

/-- `V[:, ncomp*e:ncomp*(e+1)] *= 1/(h[e] * h[e])` for the vertices, finat/aw.py:115-118, finat/hz.py:40-43. -/
def scaleVerts (ncomp nverts : Nat) (h : NVec K) (V : Arr K) : Arr K :=
  (List.range nverts).foldl (fun V e => V.scaleCols (ncomp * e) ncomp (1 / (h e * h e))) V

/-- `V[0:3, 0:3] = V[3:6, 3:6] = V[6:9, 6:9] = W`, finat/aw.py:106, finat/hz.py:24. -/
def vertexBlocks (V : Arr K) (W : NMat K) : Arr K :=
  ((V.setBlock 0 0 3 3 W).setBlock 3 3 3 3 W).setBlock 6 6 3 3 W

/-- `ArnoldWinther.basis_transformation`, finat/aw.py:95-123: 30 functions, 24 degrees of freedom. -/
def arnoldWinther (c : Facets K) (J : NMat K) (detJ : K) (h : NVec K) (numbf ndof : Nat) : Arr K :=
  let V := identity numbf ndof
  let W := evaluationTransform c.sd J
  let ncomp := W.rows
  let V := vertexBlocks V W.get
  let num_verts := c.sd + 1
  let cur := num_verts * ncomp
  let Vsub := facetTransform c 2 J detJ
  let fdofs := Vsub.rows
  let V := V.setBlock cur cur fdofs fdofs Vsub.get
  (scaleVerts ncomp num_verts h V).T

/-- The loop `while cur < ndofs` of the point variant, finat/hz.py:34-38; it runs `n` times. -/
def interiorBlocks (ncomp : Nat) (W : NMat K) : Nat → Nat → Arr K → Arr K
  | 0, _, V => V
  | n + 1, cur, V => interiorBlocks ncomp W n (cur + ncomp) (V.setBlock cur cur ncomp ncomp W)

/-- `HuZhang.basis_transformation`, finat/hz.py:16-48; `dimPk` is the dimension of polynomials of degree
`degree - 2` on the facets. numpy raises when the number of interior functions is no multiple of `ncomp`
(the last slice is shorter than `W`); here the last block is written beyond the array. -/
def huZhang (c : Facets K) (J : NMat K) (detJ : K) (h : NVec K) (ndofs dimPk : Nat) (point : Bool) : Arr K :=
  let V := identity ndofs ndofs
  let W := evaluationTransform c.sd J
  let V := vertexBlocks V W.get
  let ncomp := W.rows
  let num_verts := c.sd + 1
  let cur := num_verts * ncomp
  let Vsub := facetTransform c dimPk J detJ
  let fdofs := Vsub.rows
  let V := V.setBlock cur cur fdofs fdofs Vsub.get
  let cur := cur + fdofs
  let V := if point then interiorBlocks ncomp W.get ((ndofs - cur + ncomp - 1) / ncomp) cur V else V
  (scaleVerts ncomp num_verts h V).T

/-- `JohnsonMercier.basis_transformation`, finat/johnson_mercier.py:16-29, with the default indices. -/
def johnsonMercier (c : Facets K) (J : NMat K) (detJ : K) (dimP1 numbf ndof : Nat) : Arr K :=
  let V := identity numbf ndof
  let Vsub := facetTransform c dimP1 J detJ
  (V.setBlock 0 0 Vsub.rows Vsub.cols Vsub.get).T

/-- Degrees of freedom by entity: `entity_dofs()[dim][entity]`, dimensions and entities in order.
Source: `finat/piola_mapped.py` 103, 129-130. -/
abbrev EntityDofs := List (List (List Nat))

/-- `entity_dofs` of `PiolaBubbleElement`, finat/piola_mapped.py:102-110: on the facets, one degree of
freedom each, numbered from the first one on the first facet; the other entities are unchanged. -/
def bubbleDofs (sd : Nat) (d : EntityDofs) : EntityDofs :=
  let facets := d.getD (sd - 1) []
  let cur := (facets.getD 0 []).getD 0 0
  d.set (sd - 1) ((List.range facets.length).map fun e => [cur + e])

/-- `_space_dimension` of `PiolaBubbleElement`, finat/piola_mapped.py:104-111. -/
def bubbleDim (sd : Nat) (d : EntityDofs) (spaceDim : Nat) : Nat :=
  let facets := d.getD (sd - 1) []
  let reduced_dim := facets.foldl (fun r l => r + (l.drop 1).length) 0
  spaceDim - reduced_dim

/-- `V[numpy.ix_(rs, cs)] = B`.
Source: `finat/piola_mapped.py` 150, 162. -/
def setIx (V : Arr K) (rs cs : List Nat) (B : NMat K) : Arr K :=
  rs.zipIdx.foldl (fun V (ri : Nat × Nat) =>
    cs.zipIdx.foldl (fun V (cj : Nat × Nat) => V.set ri.1 cj.1 (B ri.2 cj.2)) V) V

/-- The loop over the degrees of freedom of one entity, finat/piola_mapped.py:142-151,
finat/alfeld_sorokina.py:30-39; `deriv cur` says that node `cur` has derivatives. The argument is the list of
degrees of freedom from `k` on. -/
def undoPiola (sd : Nat) (Finv : NMat K) (detJ : K) (deriv : Nat → Bool) : Nat → List Nat → Arr K → Arr K
  | 0, _, V => V
  | _ + 1, [], V => V
  | n + 1, cur :: rest, V =>
    if deriv cur then undoPiola sd Finv detJ deriv n rest (V.set cur cur detJ)
    else
      let s := (cur :: rest).take sd
      undoPiola sd Finv detJ deriv n ((cur :: rest).drop sd) (setIx V s s Finv)

/-- `AlfeldSorokina.basis_transformation`, finat/alfeld_sorokina.py:16-41. -/
def alfeldSorokina (sd : Nat) (J : NMat K) (detJ : K) (deriv : Nat → Bool) (d : EntityDofs) (N : Nat) : Arr K :=
  let Finv := piolaInverse sd J detJ
  (d.foldl (fun V ents => ents.foldl (fun V s => undoPiola sd Finv detJ deriv s.length s V) V)
    (identity N N)).T

/-- `PiolaBubbleElement.basis_transformation`, finat/piola_mapped.py:123-163; `bfs` are the entity degrees
of freedom of the FIAT element. -/
def bubble (c : Facets K) (J : NMat K) (detJ : K) (deriv : Nat → Bool) (bfs : EntityDofs) (spaceDim : Nat) :
    Arr K :=
  let dofs := bubbleDofs c.sd bfs
  let V := identity spaceDim (bubbleDim c.sd bfs spaceDim)
  let Finv := piolaInverse c.sd J detJ
  let V := dofs.zipIdx.foldl (fun V (ed : List (List Nat) × Nat) =>
    if ed.2 = c.sd - 1 then V
    else ed.1.foldl (fun V s => undoPiola c.sd Finv detJ deriv s.length s V) V) V
  let V := (List.range (dofs.getD (c.sd - 1) []).length).foldl (fun V f =>
    let rows := facetRows c J detJ f
    let cur_dofs := (dofs.getD (c.sd - 1) []).getD f []
    let cur_bfs := ((bfs.getD (c.sd - 1) []).getD f []).drop 1
    setIx V cur_bfs cur_dofs rows) V
  V.T

/-- `entity_dofs` of `MardalTaiWinther`, finat/mtw.py:17-22. -/
def mtwDofs (sd : Nat) (d : EntityDofs) : EntityDofs :=
  let d := d.set sd ((d.getD sd []).set 0 [])
  d.set (sd - 1) ((d.getD (sd - 1) []).map fun l => l.take (sd + 1))

/-- `_space_dimension` of `MardalTaiWinther`, finat/mtw.py:19, 24. -/
def mtwDim (sd : Nat) (d : EntityDofs) : Nat := (sd + 1) * (d.getD (sd - 1) []).length

/-- `entity_dofs` of `Bell` (finat/bell.py:17-21) and `ReducedHsiehCloughTocher` (finat/hct.py:46-50): no degrees of
freedom on the facets. -/
def facetlessDofs (sd : Nat) (d : EntityDofs) : EntityDofs :=
  d.set (sd - 1) ((d.getD (sd - 1) []).map fun _ => [])

/-- `Bell.space_dimension`, finat/bell.py:80-81. -/
def bellDim : Nat := 18

/-- `ReducedHsiehCloughTocher.space_dimension`, finat/hct.py:100-101. -/
def reducedHctDim : Nat := 9

/-- `ArnoldWintherNC.entity_dofs`, finat/aw.py:74-79. -/
def awncDofs : EntityDofs := [[[], [], []], [[0, 1, 2, 3], [4, 5, 6, 7], [8, 9, 10, 11]], [[12, 13, 14]]]

/-- `ArnoldWintherNC.space_dimension`, finat/aw.py:85-86. -/
def awncDim : Nat := 15

/-- `ArnoldWinther.entity_dofs`, finat/aw.py:125-130. -/
def awDofs : EntityDofs :=
  [[[0, 1, 2], [3, 4, 5], [6, 7, 8]], [[9, 10, 11, 12], [13, 14, 15, 16], [17, 18, 19, 20]], [[21, 22, 23]]]

/-- `ArnoldWinther.space_dimension`, finat/aw.py:136-137. -/
def awDim : Nat := 24

/-- `MardalTaiWinther.basis_transformation`, finat/mtw.py:26-40. -/
def mtw (c : Facets K) (J : NMat K) (detJ : K) (d : EntityDofs) (numbf : Nat) : Arr K :=
  let dofs := mtwDofs c.sd d
  let V := identity numbf (mtwDim c.sd d)
  ((List.range (dofs.getD (c.sd - 1) []).length).foldl (fun V f =>
    let cur := ((dofs.getD (c.sd - 1) []).getD f []).getD 0 0
    V.setBlock (cur + 1) cur 1 c.sd fun _ => Piola.edgeTransform J detJ (c.tangent f 0) (c.norm f)) V).T

end FInAT.Stress
