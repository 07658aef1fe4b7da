import Verif.Model.PermTree
import Verif.Spec.Restrict
import Verif.Spec.Perms

/-!
# What entity permutations are for

The same entity of a mesh is seen with different orientations from the cells around it. Its points then have different coordinates,
`T c E o x` instead of `x`, and the basis functions attached to it are met in a different order. The permutation list
stored for the orientation has to say which: function number `j` at the point `x` is function number `p[j]` at the turned point.
-/

namespace FInAT.Spec

open FInAT

variable {K : Type} [CommRing K]

/-- How the coordinates of the points of an entity `E` of a cell change with its orientation. -/
abbrev Turn (K : Type) := Cell → Dim × Nat → Dim → List K → List K

/-- The basis functions attached to an entity, in the order of `entity_dofs()`. -/
def entityFns (φ : LeafVals K) (e : Elem) (d : EntityDofs) (E : Dim × Nat) : List (BFun K) :=
  (dofsOn d E.1 E.2).map (fnOf φ e)

/-- `p` lists the functions `gs` as they are met after turning the entity: function `j` at `x` is function `p[j]` at `turn x`. -/
def Follows (gs : List (BFun K)) (p : List Nat) (sd : Nat) (E : Dim × Nat) (turn : List K → List K) : Prop :=
  ∀ (j : Nat) (g : BFun K), gs[j]? = some g → ∃ (k : Nat) (g' : BFun K), p[j]? = some k ∧ gs[k]? = some g' ∧
    ∀ x z, x.length = E.1.total → g (List.replicate sd 0) E x z = g' (List.replicate sd 0) E (turn x) z

/-- Every list of the table follows the turns of its entity. -/
def FollowsTurns (φ : LeafVals K) (T : Turn K) (e : Elem) (m : PermMap) : Prop :=
  ∀ c d, e.cell = .ok c → e.entityDofs = .ok d → ∀ E ∈ entities c, ∀ o p, permOn m E.1 E.2 o = some p →
    Follows (entityFns φ e d E) p c.spatialDim E (T c E o)

/-- Turning an entity of a product cell by `(eo, o_1, ..., o_n)`: the coordinates along factor `k` are turned by `o_k`, then become
the coordinates along factor `ax[k]`, `ax` the exchange of axes FIAT numbers `eo`. -/
def TurnsProduct (F : FiatPerms) (T : Turn K) (cs : List Cell) : Prop :=
  ∀ E ∈ entities (.prod cs), ∀ Es, factorEntity cs (some E) = .ok Es →
    ∀ shape, shape.length = cs.length → ∀ ax ∈ F.axes cs (Es.map Prod.fst) shape, ∀ os : List Dim, os.length = cs.length →
    ∀ xs : List (List K), List.Forall₂ (fun x (E : Dim × Nat) => x.length = E.1.total) xs Es →
    ∃ ys : List (List K), List.Forall₂ (fun y (E : Dim × Nat) => y.length = E.1.total) ys Es ∧
      T (.prod cs) E (.tup (.int ax.1 :: os)) xs.flatten = ys.flatten ∧
      ∀ (k : Nat) (c : Cell) (Ek : Dim × Nat) (o : Dim) (x : List K), cs[k]? = some c → Es[k]? = some Ek → os[k]? = some o →
        xs[k]? = some x → ys.getD (ax.2.getD k 0) [] = T c Ek o x

/-- Turning an entity of the flattened cell `cf` by the integer FIAT gives to an orientation in the table `m` of the product. -/
def TurnsFlat (F : FiatPerms) (T : Turn K) (c cf : Cell) (m : PermMap) : Prop :=
  ∀ t k E o x, flattenedEntity c (some (t, k)) = .ok E → (permOn m E.1 E.2 o).isSome → x.length = E.1.total →
    T cf (.int t, k) (F.flat E.1 o) x = T c E o x

/-- The numbers of dofs of the factors on the entities `Es`. -/
def dofCounts (fs : List Elem) (Es : List (Dim × Nat)) : List Nat :=
  List.zipWith (fun f (E : Dim × Nat) => match f.entityDofs with
    | .ok d => (dofsOn d E.1 E.2).length
    | .error _ => 0) fs Es

/-- Axes are exchanged only between equal scalar factors, on equal factor entities. -/
def ExchangesAlike (F : FiatPerms) (fs : List Elem) (cs : List Cell) : Prop :=
  ∀ E ∈ entities (.prod cs), ∀ Es, factorEntity cs (some E) = .ok Es →
    ∀ ax ∈ F.axes cs (Es.map Prod.fst) (dofCounts fs Es), ∀ k f, fs[k]? = some f → ax.2.getD k 0 ≠ k →
      fs[ax.2.getD k 0]? = some f ∧ Es[ax.2.getD k 0]? = Es[k]? ∧ vshape f = []

mutual
/-- What the tree needs: the tables of the FIAT elements follow the turns of the entities of their cells, the turns of product and
flattened cells are those FIAT's orientation tuples and integers stand for, and products exchange the axes of equal factors only. -/
def Turning (φ : LeafVals K) (T : Turn K) (F : FiatPerms) (fiat : Leaf → EntityDofs)
    (subs : Cell → EntityMap (List (Dim × Nat))) : Elem → Prop
  | .leaf l => ∀ m, F.leaf l = .ok m → FollowsTurns φ T (.leaf l) m
  | .tensorProduct fs => TurningL φ T F fiat subs fs ∧
      ∀ cs, Elem.cellL fs = .ok cs → TurnsProduct F T cs ∧ ExchangesAlike F fs cs
  | .flattened p => Turning φ T F fiat subs p ∧ ∀ c cf m, p.cell = .ok c → (Elem.flattened p).cell = .ok cf →
      entityPerms F fiat subs p = .ok m → TurnsFlat F T c cf m
  | .enriched es => TurningL φ T F fiat subs es
  | .hdiv w => Turning φ T F fiat subs w
  | .hcurl w => Turning φ T F fiat subs w
  | .discontinuous e => Turning φ T F fiat subs e
  | .mixedSub _ _ _ => True
  | .tensorFE _ _ _ => True
  | .quadrature _ _ _ => True
/-- For all elements of a list. -/
def TurningL (φ : LeafVals K) (T : Turn K) (F : FiatPerms) (fiat : Leaf → EntityDofs)
    (subs : Cell → EntityMap (List (Dim × Nat))) : List Elem → Prop
  | [] => True
  | e :: es => Turning φ T F fiat subs e ∧ TurningL φ T F fiat subs es
end

end FInAT.Spec
