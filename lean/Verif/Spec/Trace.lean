import Verif.Spec.Restrict

/-!
# Traces of basis functions on the entities of the cell

A `Frame` says which entities of a cell are sub-entities of which, and what the tangent vectors of an entity and
the normal vectors of a facet are. What has to be continuous between cells are, on every entity, the values of
an H1 element, the normal components (on facets) of an H(div) element and the tangential components of an
H(curl) element: `IsTrace`. An element glues together conformingly when the trace of a basis function on an
entity vanishes unless the entity its dof is on is a sub-entity: `LocalTraces`.
-/

namespace FInAT.Spec

open FInAT

/-- Sobolev spaces, by what has to be continuous. -/
inductive Space where
  | h1
  | hdiv
  | hcurl
deriving DecidableEq, Repr

/-- The geometry of reference cells that traces refer to. `sub c E' E`: `E'` is a sub-entity of `E` (or `E`
itself). `tang c E t`: the vector `t` is tangent to `E`. `norm c E n`: `n` is normal to the facet `E`. -/
structure Frame (K : Type) where
  sub : Cell → Dim × Nat → Dim × Nat → Prop
  tang : Cell → Dim × Nat → List K → Prop
  norm : Cell → Dim × Nat → List K → Prop

variable {K : Type} [CommRing K]

/-- The entities of a product cell are products of entities, and so are their sub-entities. -/
def Frame.Product (G : Frame K) (cs : List Cell) : Prop :=
  ∀ E' E Es' Es, factorEntity cs (some E') = .ok Es' → factorEntity cs (some E) = .ok Es →
    (∀ t ∈ cs.zip (Es'.zip Es), G.sub t.1 t.2.1 t.2.2) → G.sub (.prod cs) E' E

/-- Tangents and normals on the product of the cells `a` and `b`. -/
structure Frame.Extruded (G : Frame K) (a b : Cell) : Prop where
  product : G.Product [a, b]
  /-- All entities are sub-entities of the cell. -/
  wholeA : ∀ E ∈ entities a, G.sub a E (a.dimension, 0)
  wholeB : ∀ E ∈ entities b, G.sub b E (b.dimension, 0)
  /-- A tangent vector of `Ea × Eb` is a tangent vector, or zero, in each factor. -/
  tang : ∀ E Ea Eb t, factorEntity [a, b] (some E) = .ok [Ea, Eb] → G.tang (.prod [a, b]) E t →
    ∃ ta tb, t = ta ++ tb ∧ ta.length = a.spatialDim ∧ tb.length = b.spatialDim ∧
      (G.tang a Ea ta ∨ ∀ y ∈ ta, y = 0) ∧ (G.tang b Eb tb ∨ ∀ y ∈ tb, y = 0)
  /-- A facet of the product is a facet of one factor times all of the other, and its normals are those of the
  facet of the factor. -/
  norm : ∀ E Ea Eb n, factorEntity [a, b] (some E) = .ok [Ea, Eb] → G.norm (.prod [a, b]) E n →
    ∃ na nb, n = na ++ nb ∧ na.length = a.spatialDim ∧ nb.length = b.spatialDim ∧
      ((G.norm a Ea na ∧ Eb = (b.dimension, 0) ∧ ∀ y ∈ nb, y = 0) ∨
       (G.norm b Eb nb ∧ Ea = (a.dimension, 0) ∧ ∀ y ∈ na, y = 0))
  /-- Vertices have no tangents: those of a one-dimensional cell are the cell's. -/
  lineA : a.spatialDim = 1 → ∀ E t, G.tang a E t → E = (a.dimension, 0)
  lineB : b.spatialDim = 1 → ∀ E t, G.tang b E t → E = (b.dimension, 0)
  /-- In two dimensions a normal turned by a right angle is a tangent, and a tangent of an edge turned back is
  a normal. -/
  turnNorm : a.spatialDim = 2 → ∀ E n0 n1, G.norm a E [n0, n1] → G.tang a E [-n1, n0]
  turnTang : a.spatialDim = 2 → ∀ E t0 t1, G.tang a E [t0, t1] → E = (a.dimension, 0) ∨ G.norm a E [t1, -t0]

/-- The flattened cell `cf` has the entities of the product cell `c` under new names. -/
structure Frame.Flat (G : Frame K) (c cf : Cell) : Prop where
  sub : ∀ t' k' E' t k E, flattenedEntity c (some (t', k')) = .ok E' → flattenedEntity c (some (t, k)) = .ok E →
    G.sub c E' E → G.sub cf (.int t', k') (.int t, k)
  tang : ∀ t k E v, flattenedEntity c (some (t, k)) = .ok E → G.tang cf (.int t, k) v → G.tang c E v
  norm : ∀ t k E v, flattenedEntity c (some (t, k)) = .ok E → G.norm cf (.int t, k) v → G.norm c E v

/-- The inner product of a vector with the vector of components `f 0`, `f 1`, ... -/
def inner : List K → (Nat → K) → K
  | [], _ => 0
  | a :: v, f => a * f 0 + inner v fun j => f (j + 1)

/-- `L` is one of the linear functionals that make up the trace on the entity `E`: the value of a component at
a point of `E`, the component of the value at a point of `E` along a normal of `E`, or along a tangent of `E`. -/
def IsTrace (G : Frame K) : Space → Elem → Cell → Dim × Nat → (BFun K → K) → Prop
  | .h1, e, c, E, L => ∃ x z, x.length = E.1.total ∧ List.Forall₂ (fun i n => i < n) z (vshape e) ∧
      L = fun f => f (List.replicate c.spatialDim 0) E x z
  | .hdiv, _, c, E, L => ∃ x n, x.length = E.1.total ∧ G.norm c E n ∧
      L = fun f => inner n fun j => f (List.replicate c.spatialDim 0) E x [j]
  | .hcurl, _, c, E, L => ∃ x t, x.length = E.1.total ∧ G.tang c E t ∧
      L = fun f => inner t fun j => f (List.replicate c.spatialDim 0) E x [j]

/-- The trace of a basis function on an entity `E` is zero unless the entity of its dof is a sub-entity of `E`. -/
def LocalTraces (φ : LeafVals K) (G : Frame K) (s : Space) (e : Elem) : Prop :=
  ∀ c, e.cell = .ok c → ∀ y ∈ attached φ e, ∀ E ∈ entities c, ¬ G.sub c y.1 E →
    ∀ L, IsTrace G s e c E L → L y.2 = 0

/-- The element trees that are meant to be conforming, for leaves whose FIAT elements are: products of H1
elements; flattened products; sums of conforming elements; mixed and tensor-valued H1 elements; and H(div) and
H(curl) elements on products of an element `a` with an element `b` on the interval, as in the tables of
`hdivcurl.py`. -/
inductive Conforms (φ : LeafVals K) (G : Frame K) : Space → Elem → Prop
  | leaf {s : Space} {l : Leaf} : LocalTraces φ G s (.leaf l) → Conforms φ G s (.leaf l)
  | product {fs : List Elem} {vs : List Nat} : (∀ f ∈ fs, Conforms φ G .h1 f) →
      (∀ cs, Elem.cellL fs = .ok cs → G.Product cs) → (Elem.tensorProduct fs).valueShape = .ok vs →
      Conforms φ G .h1 (.tensorProduct fs)
  | flattened {s : Space} {p : Elem} : Conforms φ G s p →
      (∀ c cf, p.cell = .ok c → (Elem.flattened p).cell = .ok cf → G.Flat c cf) →
      Conforms φ G s (.flattened p)
  | enriched {s : Space} {es : List Elem} {vs : List Nat} : (∀ e ∈ es, Conforms φ G s e) →
      (Elem.enriched es).valueShape = .ok vs → Conforms φ G s (.enriched es)
  | mixedSub {e : Elem} {size offset : Nat} : Conforms φ G .h1 e → Conforms φ G .h1 (.mixedSub e size offset)
  | tensorFE {e : Elem} {shape : List Nat} {tr : Bool} {vs : List Nat} : Conforms φ G .h1 e →
      e.valueShape = .ok vs → Conforms φ G .h1 (.tensorFE e shape tr)
  /-- `a` continuous, `b` discontinuous, on two intervals: the first component. -/
  | hdivFirst {a b : Elem} : mkHDiv (.tensorProduct [a, b]) = .ok (.hdiv (.tensorProduct [a, b])) →
      (∀ ca cb, a.cell = .ok ca → b.cell = .ok cb → G.Extruded ca cb) →
      a.formdegree = .ok (some 0) → b.formdegree = .ok (some 1) → vshape a = [] → vshape b = [] →
      Conforms φ G .h1 a → Conforms φ G .hdiv (.hdiv (.tensorProduct [a, b]))
  /-- `a` discontinuous, `b` continuous: the last component. -/
  | hdivLast {a b : Elem} : mkHDiv (.tensorProduct [a, b]) = .ok (.hdiv (.tensorProduct [a, b])) →
      (∀ ca cb, a.cell = .ok ca → b.cell = .ok cb → G.Extruded ca cb) →
      b.formdegree = .ok (some 0) → vshape a = [] → vshape b = [] →
      Conforms φ G .h1 b → Conforms φ G .hdiv (.hdiv (.tensorProduct [a, b]))
  /-- `a` in H(div), `b` discontinuous: the first two components. -/
  | hdivContra {a b : Elem} : mkHDiv (.tensorProduct [a, b]) = .ok (.hdiv (.tensorProduct [a, b])) →
      (∀ ca cb, a.cell = .ok ca → b.cell = .ok cb → G.Extruded ca cb) →
      a.formdegree = .ok (some 1) → b.formdegree = .ok (some 1) → vshape a = [2] → vshape b = [] →
      (Elem.tensorProduct [a, b]).mapping = some .contravariantPiola →
      Conforms φ G .hdiv a → Conforms φ G .hdiv (.hdiv (.tensorProduct [a, b]))
  /-- `a` in H(curl), `b` discontinuous: the first two components, turned. -/
  | hdivCo {a b : Elem} : mkHDiv (.tensorProduct [a, b]) = .ok (.hdiv (.tensorProduct [a, b])) →
      (∀ ca cb, a.cell = .ok ca → b.cell = .ok cb → G.Extruded ca cb) →
      a.formdegree = .ok (some 1) → b.formdegree = .ok (some 1) → vshape a = [2] → vshape b = [] →
      (Elem.tensorProduct [a, b]).mapping = some .covariantPiola →
      Conforms φ G .hcurl a → Conforms φ G .hdiv (.hdiv (.tensorProduct [a, b]))
  /-- `a` discontinuous, `b` continuous, on two intervals: the first component. -/
  | hcurlFirst {a b : Elem} : mkHCurl (.tensorProduct [a, b]) = .ok (.hcurl (.tensorProduct [a, b])) →
      (∀ ca cb, a.cell = .ok ca → b.cell = .ok cb → G.Extruded ca cb ∧ ca.spatialDim = 1) →
      a.formdegree = .ok (some 1) → b.formdegree = .ok (some 0) → vshape a = [] → vshape b = [] →
      (Elem.tensorProduct [a, b]).mapping = some .affine →
      Conforms φ G .h1 b → Conforms φ G .hcurl (.hcurl (.tensorProduct [a, b]))
  /-- `a` continuous, `b` discontinuous: the last component. -/
  | hcurlLast {a b : Elem} : mkHCurl (.tensorProduct [a, b]) = .ok (.hcurl (.tensorProduct [a, b])) →
      (∀ ca cb, a.cell = .ok ca → b.cell = .ok cb → G.Extruded ca cb) →
      a.formdegree = .ok (some 0) → b.formdegree = .ok (some 1) → vshape a = [] → vshape b = [] →
      (Elem.tensorProduct [a, b]).mapping = some .affine →
      Conforms φ G .h1 a → Conforms φ G .hcurl (.hcurl (.tensorProduct [a, b]))
  /-- `a` in H(curl), `b` continuous: the first two components. -/
  | hcurlCo {a b : Elem} : mkHCurl (.tensorProduct [a, b]) = .ok (.hcurl (.tensorProduct [a, b])) →
      (∀ ca cb, a.cell = .ok ca → b.cell = .ok cb → G.Extruded ca cb ∧ ca.spatialDim = 2) →
      vshape a = [2] → vshape b = [] →
      (Elem.tensorProduct [a, b]).mapping = some .covariantPiola →
      Conforms φ G .hcurl a → Conforms φ G .h1 b → Conforms φ G .hcurl (.hcurl (.tensorProduct [a, b]))
  /-- `a` in H(div), `b` continuous: the first two components, turned. -/
  | hcurlContra {a b : Elem} : mkHCurl (.tensorProduct [a, b]) = .ok (.hcurl (.tensorProduct [a, b])) →
      (∀ ca cb, a.cell = .ok ca → b.cell = .ok cb → G.Extruded ca cb ∧ ca.spatialDim = 2) →
      vshape a = [2] → vshape b = [] →
      (Elem.tensorProduct [a, b]).mapping = some .contravariantPiola →
      Conforms φ G .hdiv a → Conforms φ G .h1 b → Conforms φ G .hcurl (.hcurl (.tensorProduct [a, b]))

end FInAT.Spec
