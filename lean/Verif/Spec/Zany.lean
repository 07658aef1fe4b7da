import Mathlib.Algebra.MvPolynomial.PDeriv
import Mathlib.Algebra.Polynomial.Derivative
import Mathlib.Algebra.Polynomial.AlgebraMap
import Mathlib.Algebra.CharZero.Defs

/-!
# Degrees of freedom of scalar elements on affine cells

What "nodal on the physical cell" means: functions are polynomials (or piecewise polynomials, one
polynomial per piece of the cell), the affine map of the cell is `x = b + J x̂`, and degrees of freedom
are values, partial derivatives and edge integrals. Nothing here refers to the implementation.
-/

namespace FInAT.Spec.Zany

open MvPolynomial Finset

variable {K : Type} [Field K] {d : Nat}

/-- The point `b + J x̂`. -/
def mapPoint (d : Nat) (J : Nat → Nat → K) (b x : Nat → K) : Nat → K :=
  fun i => b i + ∑ j ∈ range d, J i j * x j

/-- The function `f ∘ F` on the reference cell, where `F x̂ = b + J x̂`. -/
noncomputable def pull (J : Nat → Nat → K) (b : Nat → K) :
    MvPolynomial (Fin d) K →ₐ[K] MvPolynomial (Fin d) K :=
  aeval fun i => C (b i) + ∑ j : Fin d, C (J i j) * X j

/-- Value at a point. -/
noncomputable def value (x : Nat → K) : MvPolynomial (Fin d) K →ₐ[K] K := aeval fun i => x i

/-- Partial derivative in direction `i`. -/
noncomputable def D (i : Nat) (f : MvPolynomial (Fin d) K) : MvPolynomial (Fin d) K :=
  if h : i < d then pderiv ⟨i, h⟩ f else 0

/-- Directional derivative `u · ∇ f`. -/
noncomputable def along (u : Nat → K) (f : MvPolynomial (Fin d) K) : MvPolynomial (Fin d) K :=
  ∑ i : Fin d, C (u i) * pderiv i f

/-- The restriction `s ↦ f (x₀ + s (x₁ - x₀))` of a function to an edge. -/
noncomputable def trace (x₀ x₁ : Nat → K) : MvPolynomial (Fin d) K →ₐ[K] Polynomial K :=
  aeval fun i => Polynomial.C (x₀ i) + Polynomial.X * Polynomial.C (x₁ i - x₀ i)

/-- `∫_a^b p(s) ds` of a polynomial. -/
noncomputable def integral (a b : K) (p : Polynomial K) : K :=
  p.sum fun n c => c * (b ^ (n + 1) - a ^ (n + 1)) / (n + 1)

/-- The Jacobi polynomial of order `k` with both weights `a`, in the variable `s` with `x = 2 s - 1`:
`Σᵢ C(k+a, k-i) C(k+a, i) ((x-1)/2)ⁱ ((x+1)/2)^(k-i)`. -/
noncomputable def jacobi (a k : Nat) : Polynomial K :=
  ∑ i ∈ range (k + 1), Polynomial.C ((((k + a).choose (k - i) * (k + a).choose i : Nat)) : K) *
    (Polynomial.X - 1) ^ i * Polynomial.X ^ (k - i)

/-- A piece of a cell: near a vertex, along segment `i` of edge `e`, or a sub-cell. -/
inductive Piece
  | vertex (v : Nat)
  | edge (e i : Nat)
  | cell (c : Nat)

/-- A piecewise polynomial function: one polynomial for each piece. A polynomial is the same one on all
pieces; functions on split cells (Hsieh-Clough-Tocher, Powell-Sabin) differ from piece to piece. -/
abbrev Fn (d : Nat) (K : Type) [Field K] := Piece → MvPolynomial (Fin d) K

/-- `f ∘ F`. -/
noncomputable def Fn.pull (J : Nat → Nat → K) (b : Nat → K) (f : Fn d K) : Fn d K :=
  fun p => Zany.pull J b (f p)

/-- The function `f ∘ F` for a polynomial map `F`. -/
noncomputable def pullBy (F : Nat → MvPolynomial (Fin d) K) : MvPolynomial (Fin d) K →ₐ[K] MvPolynomial (Fin d) K :=
  aeval fun i => F i

/-- `f ∘ F`, piece by piece. -/
noncomputable def Fn.pullBy (F : Nat → MvPolynomial (Fin d) K) (f : Fn d K) : Fn d K :=
  fun p => Zany.pullBy F (f p)

/-- The index pairs `i ≤ j` of the upper triangle, in lexicographic order. -/
def pairs (d : Nat) : List (Nat × Nat) :=
  (List.range d).flatMap fun i => ((List.range d).filter fun j => i ≤ j).map fun j => (i, j)

/-- Component `c` of the jet at `x`: the value, the `d` first derivatives times `h`, the second
derivatives of the upper triangle times `h²`. -/
noncomputable def jet (x : Nat → K) (h : K) (c : Nat) (f : MvPolynomial (Fin d) K) : K :=
  if c = 0 then value x f
  else if c ≤ d then h * value x (D (c - 1) f)
  else h * h * value x (D ((pairs d).getD (c - 1 - d) (0, 0)).1 (D ((pairs d).getD (c - 1 - d) (0, 0)).2 f))

/-- A triangle as degrees of freedom see it: vertices, the sizes that scale the derivatives at them, the
lengths of the edges, and a factor for the integrals over the edges. -/
structure Tri (K : Type) where
  vert : Nat → Nat → K
  h : Nat → K
  len : Nat → K
  scale : Nat → K

/-- The vertices of edge `e` of a triangle, in increasing order; edge `e` is opposite to vertex `e`. -/
def ends (e : Nat) : Nat × Nat := if e = 0 then (1, 2) else if e = 1 then (0, 2) else (0, 1)

/-- The tangent `x₁ - x₀` of edge `e`. -/
def Tri.tangent (G : Tri K) (e : Nat) : Nat → K := fun i => G.vert (ends e).2 i - G.vert (ends e).1 i

/-- The unit normal of edge `e`: the tangent of length one turned clockwise by a right angle. -/
def Tri.normal (G : Tri K) (e : Nat) : Nat → K := fun i =>
  if i = 0 then G.tangent e 1 / G.len e else - G.tangent e 0 / G.len e

/-- The restriction to edge `e` of `f`, on segment `i` of the edge. -/
noncomputable def Tri.on (G : Tri K) (e : Nat) (f : MvPolynomial (Fin 2) K) : Polynomial K :=
  trace (G.vert (ends e).1) (G.vert (ends e).2) f

/-- How edges are split: into `m` segments with end points `at 0 = 0, ..., at m = 1`. -/
structure Split (K : Type) where
  m : Nat
  pt : Nat → K

/-- `∫_0^1 p_i(s) ds`, where `p_i` is the integrand on segment `i`. -/
noncomputable def Split.integral (S : Split K) (p : Nat → Polynomial K) : K :=
  ∑ i ∈ range S.m, Zany.integral (S.pt i) (S.pt (i + 1)) (p i)

/-- Moment over edge `e` of the normal derivative against `w`. -/
noncomputable def Tri.normalMoment (G : Tri K) (S : Split K) (e : Nat) (w : Polynomial K) (f : Fn 2 K) : K :=
  G.scale e * S.integral fun i => G.on e (along (G.normal e) (f (.edge e i))) * w

/-- Moment over edge `e` of the function against `w`. -/
noncomputable def Tri.traceMoment (G : Tri K) (S : Split K) (e : Nat) (w : Polynomial K) (f : Fn 2 K) : K :=
  S.integral fun i => G.on e (f (.edge e i)) * w

/-- Jets at the vertices, `w` components each, followed by others. -/
noncomputable def Tri.jetDofs (G : Tri K) (w : Nat) (rest : Nat → Fn 2 K → K) (k : Nat) (f : Fn 2 K) : K :=
  if k < 3 * w then jet (G.vert (k / w)) (G.h (k / w)) (k % w) (f (.vertex (k / w))) else rest (k - 3 * w) f

/-- Degrees of freedom of the Argyris (`a = 2`, six per vertex) and Hsieh-Clough-Tocher (`a = 1`, three per
vertex) elements: jets at the vertices; on each edge the moments of the normal derivative against the
Jacobi polynomials of weight `a` and orders `0, ..., q`, followed by the moments of the function against
the derivatives of those of orders `1, ..., q`; further interior ones. -/
noncomputable def Tri.momentDofs (G : Tri K) (S : Split K) (a w q : Nat) (inner : Nat → Fn 2 K → K) :
    Nat → Fn 2 K → K :=
  G.jetDofs w fun r f =>
    if r < 3 * (2 * q + 1) then
      if r % (2 * q + 1) ≤ q then G.normalMoment S (r / (2 * q + 1)) (jacobi a (r % (2 * q + 1))) f
      else G.traceMoment S (r / (2 * q + 1)) (Polynomial.derivative (jacobi a (r % (2 * q + 1) - q))) f
    else inner (r - 3 * (2 * q + 1)) f

/-- The normal derivative at the midpoint of edge `e`. -/
noncomputable def Tri.normalMidpoint (G : Tri K) (e : Nat) (f : Fn 2 K) : K :=
  G.scale e * (G.on e (along (G.normal e) (f (.edge e 0)))).eval (1 / 2)

/-- The pieces of `f` fit together: at the two ends of each edge the polynomial along the edge has the
same jet (of `w` components) as the one at the vertex, and along the edge `f` is continuous. -/
structure Tri.Fits (G : Tri K) (S : Split K) (w : Nat) (f : Fn 2 K) : Prop where
  start : ∀ e < 3, ∀ c < w, jet (G.vert (ends e).1) 1 c (f (.edge e 0)) =
    jet (G.vert (ends e).1) 1 c (f (.vertex (ends e).1))
  stop : ∀ e < 3, ∀ c < w, jet (G.vert (ends e).2) 1 c (f (.edge e (S.m - 1))) =
    jet (G.vert (ends e).2) 1 c (f (.vertex (ends e).2))
  cont : ∀ e < 3, ∀ i, i + 1 < S.m → (G.on e (f (.edge e i))).eval (S.pt (i + 1)) =
    (G.on e (f (.edge e (i + 1)))).eval (S.pt (i + 1))

/-- The image of a triangle under `x = b + J x̂`, with the given sizes, edge lengths and factors. -/
def Tri.image (G : Tri K) (J : Nat → Nat → K) (b : Nat → K) (h len scale : Nat → K) : Tri K :=
  ⟨fun v => mapPoint 2 J b (G.vert v), h, len, scale⟩

/-- `len` are the (non-zero) Euclidean lengths of the edges. -/
def Tri.Lengths (G : Tri K) : Prop := ∀ e < 3, G.len e ≠ 0 ∧
  G.len e * G.len e = G.tangent e 0 * G.tangent e 0 + G.tangent e 1 * G.tangent e 1

/-- The splitting covers the edge. -/
structure Split.OK (S : Split K) : Prop where
  pos : 0 < S.m
  first : S.pt 0 = 0
  last : S.pt S.m = 1

/-- `ℓ` are nodal for the first `n` of the functions `φ`: `ℓ i (φ j)` is one for `i = j` and zero
otherwise. -/
def Nodal {F : Type} (n : Nat) (ℓ : Nat → F → K) (φ : Nat → F) : Prop :=
  ∀ i < n, ∀ j < n, ℓ i (φ j) = if i = j then 1 else 0

/-- Degrees of freedom of the Morley element on the triangle with vertices `x 0, x 1, x 2`: the values at the
vertices, and for edge `e` the mean over the edge of the derivative in direction `n e`, times `c e`. -/
noncomputable def morleyDofs (x : Nat → Nat → K) (n : Nat → Nat → K) (c : Nat → K) (k : Nat)
    (f : MvPolynomial (Fin 2) K) : K :=
  if k < 3 then value (x k) f
  else c (k - 3) * integral 0 1 (trace (x (ends (k - 3)).1) (x (ends (k - 3)).2) (along (n (k - 3)) f))

end FInAT.Spec.Zany
