import Mathlib.Algebra.Field.Defs
import Mathlib.Algebra.BigOperators.Intervals

/-!
# Determinants, adjugates and facet frames of the Piola-mapped elements

Model of `finat/piola_mapped.py:9-89`. A numpy matrix or gem tensor with two axes is a function of its
two indices together with its sizes; the scalars are the elements of a commutative ring (field), that is
gem expressions are identified with their values and floating point numbers with exact ones.
-/

namespace FInAT.Piola

open Finset

variable {K : Type}

/-- Entries of a matrix, `A[i, j]`; the sizes are carried separately.
Source: `finat/piola_mapped.py` 9-41. -/
abbrev NMat (K : Type) := Nat → Nat → K

/-- Entries of a vector.
Source: `finat/piola_mapped.py` 56-62. -/
abbrev NVec (K : Type) := Nat → K

/-- `A[rows, :][:, cols]` for lists of kept rows and columns (numpy boolean masks and slices select the
kept positions in increasing order).
Source: `finat/piola_mapped.py` 23, 38. -/
def select [Zero K] (A : NMat K) (rows cols : List Nat) : NMat K := fun i j =>
  match rows[i]?, cols[j]? with
  | some r, some c => A r c
  | _, _ => 0

/-- The positions left by a boolean mask of length `n` that is false at `j` only.
Source: `finat/piola_mapped.py` 20-24, 32-40. -/
def without (n j : Nat) : List Nat := (List.range n).filter fun k => !(k == j)

/-- `A[1:]` of an axis of length `n`: the kept positions.
Source: `finat/piola_mapped.py` 19-23. -/
def tail (n : Nat) : List Nat := (List.range n).filter fun k => !(k == 0)

/-- `determinant`, finat/piola_mapped.py:9-25. The loop over `j` is a sum over `range(1, n)`. -/
def determinant [CommRing K] : Nat → NMat K → K
  | 0, _ => 1
  | 1, A => A 0 0
  | 2, A => A 0 0 * A 1 1 - A 0 1 * A 1 0
  | n + 3, A =>
    A 0 0 * determinant (n + 2) (select A (tail (n + 3)) (tail (n + 3))) +
      ∑ j ∈ Ico 1 (n + 3),
        (-1) ^ j * A 0 j * determinant (n + 2) (select A (tail (n + 3)) (without (n + 3) j))

/-- `adjugate`, finat/piola_mapped.py:28-41: entry `C[j, i]` is written by the pass `(i, j)` of the two
loops. -/
def adjugate [CommRing K] (n : Nat) (A : NMat K) : NMat K := fun j i =>
  if i < n ∧ j < n then
    (-1) ^ (i + j) * determinant (n - 1) (select A (without n i) (without n j))
  else 0

/-- `piola_inverse`, finat/piola_mapped.py:44-49. -/
def piolaInverse [CommRing K] (sd : Nat) (J : NMat K) (_detJ : K) : NMat K := adjugate sd J

/-- `A @ v` for a matrix with `n` columns (gem's contraction over the shared index).
Source: `finat/piola_mapped.py` 58-60. -/
def matVec [CommRing K] (n : Nat) (A : NMat K) (v : NVec K) : NVec K := fun i => ∑ j ∈ range n, A i j * v j

/-- `u @ v` for vectors of length `n`.
Source: `finat/piola_mapped.py` 61-62. -/
def dot [CommRing K] (n : Nat) (u v : NVec K) : K := ∑ i ∈ range n, u i * v i

/-- A vector given by its entries.
Source: `finat/piola_mapped.py` 55, 75-77. -/
def vec [Zero K] (l : List K) : NVec K := fun i => l.getD i 0

/-- `numpy.array([[0, 1], [-1, 0]]) @ that`, finat/piola_mapped.py:55-58, finat/argyris.py:45-47. -/
def rotate [CommRing K] (t : NVec K) : NVec K := vec [t 1, - t 0]

/-- `normal_tangential_edge_transform`, finat/piola_mapped.py:52-65. `that` is
`fiat_cell.compute_edge_tangent(f)` and `L` its Euclidean norm `numpy.linalg.norm(that)`. -/
def edgeTransform [Field K] (J : NMat K) (detJ : K) (that : NVec K) (L : K) : NVec K :=
  let that : NVec K := fun i => that i / L
  let nhat := rotate that
  let Jn := matVec 2 J nhat
  let Jt := matVec 2 J that
  let alpha := dot 2 Jn Jt
  let beta := dot 2 Jt Jt
  vec [-1 * alpha / beta, detJ / beta]

/-- `numpy.cross` of two vectors of length three.
External; used at `finat/piola_mapped.py` 73-77. -/
def cross [CommRing K] (u v : NVec K) : NVec K :=
  vec [u 1 * v 2 - u 2 * v 1, u 2 * v 0 - u 0 * v 2, u 0 * v 1 - u 1 * v 0]

/-- `normal_tangential_face_transform`, finat/piola_mapped.py:68-89; `t0` and `t1` are the two vectors of
`fiat_cell.compute_tangents(2, f)`. -/
def faceTransform [Field K] (J : NMat K) (detJ : K) (t0 t1 : NVec K) : NMat K :=
  let nhat := cross t0 t1
  let nhat : NVec K := let d := dot 3 nhat nhat; fun i => nhat i / d
  let orth : Nat → NVec K := fun k => match k with
    | 0 => nhat
    | 1 => cross nhat t1
    | _ => cross t0 nhat
  let Jts : Nat → NVec K := fun k => match k with
    | 0 => matVec 3 J t0
    | _ => matVec 3 J t1
  let Jorths : Nat → NVec K := fun k => matVec 3 J (orth k)
  let A : NMat K := fun i j => dot 3 (Jorths i) (Jts j)
  let det0 := A 1 0 * A 2 1 - A 1 1 * A 2 0
  let det1 := A 2 0 * A 0 1 - A 2 1 * A 0 0
  let det2 := A 0 0 * A 1 1 - A 0 1 * A 1 0
  let scale := detJ / det0
  fun r => match r with
    | 0 => vec [-1 * det1 / det0, -1 * scale * A 2 1, scale * A 2 0]
    | _ => vec [-1 * det2 / det0, scale * A 1 1, -1 * scale * A 1 0]

end FInAT.Piola
