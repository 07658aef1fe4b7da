import Verif.Lemmas.ZanyNodal4
import Verif.Lemmas.Piola
import Mathlib.Data.Rat.Cast.CharZero
import Mathlib.Algebra.Field.Rat
import Mathlib.Algebra.CharZero.Infinite
import Mathlib.Tactic.NormNum
import Mathlib.Tactic.IntervalCases

/-!
# C33, C37, C38: scalar physically mapped elements

`vertexTransform`, `argyris`, `argyrisPoint`, `bell`, `hct`, `reducedHct`, `powellSabin12` model the code; the
functions, the affine map and the degrees of freedom are those of `Verif.Spec.Zany`.
-/

namespace FInAT.Props

open Finset FInAT.Zany FInAT.Spec.Zany

variable {K : Type} [Field K]

/-- What the code is told about a triangle: `R` is the reference triangle with its edge lengths, the physical
one is its image under `x = b + J x̂`, `g.pel` are the lengths of its edges, `g.detJ` the determinant of `J` and
`g.h` positive (non-zero) sizes at the vertices. -/
structure Affine (R : Tri K) (g : Geometry K) (b : Nat → K) : Prop where
  det : g.detJ = g.J 0 0 * g.J 1 1 - g.J 0 1 * g.J 1 0
  lengths : R.Lengths
  h_one : ∀ v, R.h v = 1
  scale_one : ∀ e, R.scale e = 1
  phys_lengths : (R.image g.J b g.h g.pel g.pel).Lengths
  size : ∀ v < 3, g.h v ≠ 0

/-- The physical triangle; its edge moments are integrals over the edge (`avg = false`) or averages. -/
def phys (R : Tri K) (g : Geometry K) (b : Nat → K) (avg : Bool) : Tri K :=
  R.image g.J b g.h g.pel (fun e => if avg then 1 else g.pel e)

/-- The basis functions on the physical cell for the matrix `M` that `basis_transformation` returns:
`ψ_i = Σ_j M[i, j] φ_j`, where `φ_j` are the basis functions of the reference element as functions of the
physical coordinates. -/
noncomputable def transformed (N : Nat) (M : Nat → Nat → K) (φ : Nat → Fn 2 K) : Nat → Fn 2 K :=
  fun i => ∑ j ∈ range N, M i j • φ j

theorem Affine.phys_len {R : Tri K} {g : Geometry K} {b : Nat → K} (A : Affine R g b) (sc : Nat → K) :
    (R.image g.J b g.h g.pel sc).Lengths := A.phys_lengths

/-! ### C33 -/

/-- In every spatial dimension `d`: the rows of vertex `v` of the matrix, times the jet of `f` at the physical vertex
(value, gradient, upper triangle of the Hessian if `vorder = 2`), give the jet at the reference vertex of
`f ∘ F`. -/
theorem C33_vertex [NeZero (2 : K)] {d : Nat} (cell : RefCell K) (hsd : cell.sd = d) (g : Geometry K)
    (N ncols vorder : Nat) (b : Nat → K) (f : MvPolynomial (Fin d) K) (v : Nat) (hv : v < cell.nverts)
    (w : Nat) (hw : w = if vorder < 2 then 1 + d else 1 + d + d * (d + 1) / 2) (c : Nat) (hc : c < w)
    (n : Nat → K) (hn : ∀ c < w, n (v * w + c) = jet (mapPoint d g.J b (cell.verts v)) 1 c f) :
    ∑ k ∈ range (cell.nverts * w), (vertexTransform (identity N ncols) vorder cell g).get (v * w + c) k * n k =
      jet (cell.verts v) 1 c (pull g.J b f) := by
  have hw' : w = vwidth d vorder := by
    rw [hw]; unfold vwidth hdofs; split <;> simp
  subst hw'
  exact vertex_rows cell hsd g N ncols _ vorder le_rfl b n f v hv hn c hc

/-! ### C37 -/

/-- Argyris, integral variant, degree `q + 5`: the reference degrees of freedom of `f ∘ F` are the combinations
with the rows of `V` (the transpose of the matrix returned) of the physical degrees of freedom of `f`. -/
theorem C37_argyris_rows [CharZero K] (R : Tri K) (S : Split K) (hS : S.OK) (g : Geometry K) (b : Nat → K)
    (A : Affine R g b) (avg : Bool) (q m N : Nat) (hN : N = 3 * 6 + 3 * (2 * q + 1) + m)
    (inner : Nat → Fn 2 K → K) (f : Fn 2 K) (hf : (phys R g b avg).Fits S 6 f) (i : Nat) (hi : i < N) :
    R.momentDofs S 2 6 q inner i (f.pull g.J b) =
      ∑ k ∈ range N, (argyris (triangle R.vert) R.len g N (q + 5) avg).get k i *
        (phys R g b avg).momentDofs S 2 6 q (fun k f => inner k (f.pull g.J b)) k f := by
  subst hN
  refine moment_rows R S hS g b avg 2 6 q m rfl rfl A.det A.lengths A.h_one A.scale_one (A.phys_len _) A.size
    inner f hf (argyris (triangle R.vert) R.len g _ (q + 5) avg).T ?_ i hi
  intro a c
  simp only [argyris, Nat.add_sub_cancel]
  exact scaleJets2_get 6 2 3 3 rfl g.h _ a c

/-- Hence the transformed functions are nodal on the physical cell, if the `φ_j` are on the reference cell. -/
theorem C37_argyris [CharZero K] (R : Tri K) (S : Split K) (hS : S.OK) (g : Geometry K) (b : Nat → K)
    (A : Affine R g b) (avg : Bool) (q m N : Nat) (hN : N = 3 * 6 + 3 * (2 * q + 1) + m)
    (inner : Nat → Fn 2 K → K) (hinner : ∀ k, IsLinearMap K (inner k)) (φ : Nat → Fn 2 K)
    (hfit : ∀ j < N, (phys R g b avg).Fits S 6 (φ j))
    (hφ : Nodal N (R.momentDofs S 2 6 q inner) fun j => (φ j).pull g.J b) :
    Nodal N ((phys R g b avg).momentDofs S 2 6 q fun k f => inner k (f.pull g.J b))
      (transformed N (argyris (triangle R.vert) R.len g N (q + 5) avg).get φ) :=
  nodal_transpose N (fun i k => (argyris (triangle R.vert) R.len g N (q + 5) avg).get k i) _
    (momentDofs_linear _ S 2 6 q _ fun k => pull_linear _ _ _ (hinner k)) _ _ φ
    (fun i hi j hj => C37_argyris_rows R S hS g b A avg q m N hN inner (φ j) (hfit j hj) i hi) hφ

/-- Hsieh-Clough-Tocher of degree `q + 3`: `m` segments per edge, three jet components per vertex. -/
theorem C37_hct_rows [CharZero K] (R : Tri K) (S : Split K) (hS : S.OK) (g : Geometry K) (b : Nat → K)
    (A : Affine R g b) (avg : Bool) (q m N : Nat) (hN : N = 3 * 3 + 3 * (2 * q + 1) + m)
    (inner : Nat → Fn 2 K → K) (f : Fn 2 K) (hf : (phys R g b avg).Fits S 3 f) (i : Nat) (hi : i < N) :
    R.momentDofs S 1 3 q inner i (f.pull g.J b) =
      ∑ k ∈ range N, (hct (triangle R.vert) R.len g N (q + 3) avg).get k i *
        (phys R g b avg).momentDofs S 1 3 q (fun k f => inner k (f.pull g.J b)) k f := by
  subst hN
  refine moment_rows R S hS g b avg 1 3 q m rfl rfl A.det A.lengths A.h_one A.scale_one (A.phys_len _) A.size
    inner f hf (hct (triangle R.vert) R.len g _ (q + 3) avg).T ?_ i hi
  intro a c
  simp only [hct, Nat.add_sub_cancel]
  exact scaleJets1_get 3 2 3 rfl g.h _ a c

theorem C37_hct [CharZero K] (R : Tri K) (S : Split K) (hS : S.OK) (g : Geometry K) (b : Nat → K)
    (A : Affine R g b) (avg : Bool) (q m N : Nat) (hN : N = 3 * 3 + 3 * (2 * q + 1) + m)
    (inner : Nat → Fn 2 K → K) (hinner : ∀ k, IsLinearMap K (inner k)) (φ : Nat → Fn 2 K)
    (hfit : ∀ j < N, (phys R g b avg).Fits S 3 (φ j))
    (hφ : Nodal N (R.momentDofs S 1 3 q inner) fun j => (φ j).pull g.J b) :
    Nodal N ((phys R g b avg).momentDofs S 1 3 q fun k f => inner k (f.pull g.J b))
      (transformed N (hct (triangle R.vert) R.len g N (q + 3) avg).get φ) :=
  nodal_transpose N (fun i k => (hct (triangle R.vert) R.len g N (q + 3) avg).get k i) _
    (momentDofs_linear _ S 1 3 q _ fun k => pull_linear _ _ _ (hinner k)) _ _ φ
    (fun i hi j hj => C37_hct_rows R S hS g b A avg q m N hN inner (φ j) (hfit j hj) i hi) hφ

/-! ### C38 -/

/-- The unsplit edge. -/
def whole : Split K := ⟨1, fun i => if i = 0 then 0 else 1⟩

theorem whole_OK : (whole : Split K).OK := ⟨Nat.one_pos, rfl, rfl⟩

/-- The normal derivative of `f ∘ F` along an unsplit edge, against `w`. -/
theorem whole_moment [CharZero K] (R : Tri K) (g : Geometry K) (b : Nat → K) (A : Affine R g b) (e : Nat)
    (he : e < 3) (w : Polynomial K) (f : Fn 2 K) :
    R.normalMoment whole e w (f.pull g.J b) = bnn R g e * g.pel e * (phys R g b true).normalMoment whole e w f +
      bnt R g e * integral 0 1 (Polynomial.derivative ((phys R g b true).on e (f (.edge e 0))) * w) := by
  have key := normal_on R g.J g.detJ b g.h g.pel (fun e => if true = true then 1 else g.pel e) A.det A.lengths
    (A.phys_len _) e he (f (.edge e 0))
  have hw : ∀ p : Nat → Polynomial K, (whole : Split K).integral p = integral 0 1 (p 0) := fun p => by
    simp [Split.integral, whole]
  unfold Tri.normalMoment
  rw [A.scale_one, one_mul, hw, hw]
  rw [show Fn.pull g.J b f (.edge e 0) = pull g.J b (f (.edge e 0)) from rfl, key, add_mul, mul_assoc, mul_assoc,
    integral_add, integral_C_mul, integral_C_mul]
  rw [show (phys R g b true).scale e = 1 from rfl, one_mul]
  rfl

/-- Completion of a matrix with one row per jet component by a diagonal block for the edges. -/
theorem jet_complete [CharZero K] (R : Tri K) (g : Geometry K) (b : Nat → K) (A : Affine R g b)
    (vorder w ncols : Nat) (hw2 : w = vwidth 2 vorder) (ℓ : Polynomial K) (M : Nat → Nat → K)
    (wr : Nat → List (Nat × K))
    (hM1 : ∀ a < 3 * w, ∀ c < 3 * w, M c a =
      (vertexTransform (identity (3 * w + 3) ncols) vorder (triangle R.vert) g).get a c * jetScale w 2 3 g.h c)
    (hM2 : ∀ e < 3, ∀ c < 3 * w, M c (3 * w + e) = writes (wr e) (fun _ => 0) c * jetScale w 2 3 g.h c)
    (φ : Nat → Fn 2 K)
    (hE : ∀ j < 3 * w + 3, ∀ e < 3,
      bnt R g e * integral 0 1 (Polynomial.derivative ((phys R g b true).on e (φ j (.edge e 0))) * ℓ) =
        act (3 * w) (writes (wr e) fun _ => 0)
          (fun k => jet (mapPoint 2 g.J b (R.vert (k / w))) 1 (k % w) (φ j (.vertex (k / w)))))
    (hφ : Nodal (3 * w + 3) (R.jetDofs w fun e => R.normalMoment whole e ℓ) fun j => (φ j).pull g.J b) :
    let ψ := transformed (3 * w + 3) M φ
    (∀ v < 3, ∀ c < w, ∀ i < 3 * w, jet (mapPoint 2 g.J b (R.vert v)) (g.h v) c (ψ i (.vertex v)) =
      if i = v * w + c then 1 else 0) ∧
    ∀ e < 3, ∀ i < 3 * w, (phys R g b true).normalMoment whole e ℓ (ψ i) = 0 := by
  intro ψ
  let V : Nat → Nat → K := fun a c => if c < 3 * w then M c a else
    if a = c then bnn R g (a - 3 * w) * g.pel (a - 3 * w) else 0
  have key := nodal_transpose (3 * w + 3) V ((phys R g b true).jetDofs w
      fun e => (phys R g b true).normalMoment whole e ℓ)
    (jetDofs_linear _ w _ fun e => normalMoment_linear _ _ _ _)
    (R.jetDofs w fun e => R.normalMoment whole e ℓ) (fun f => f.pull g.J b) φ
    (fun i hi j hj => jet_rows R g b _ vorder w (3 * w + 3) ncols hw2 A.h_one A.size _ _
      (fun e => bnn R g e * g.pel e) wr (φ j) V
      (fun a ha c hc => by simp only [V, if_pos hc]; exact hM1 a ha c hc)
      (fun a ha e he => by
        simp only [V]; rw [if_neg (by omega), if_neg (by omega)])
      (fun e he c hc => by simp only [V, if_pos hc]; exact hM2 e he c hc)
      (fun e he e' he' => by
        simp only [V]
        rw [if_neg (by omega)]
        by_cases h : e = e'
        · subst h; rw [if_pos rfl, if_pos rfl, Nat.add_sub_cancel_left]
        · rw [if_neg (by omega), if_neg h])
      (fun e he => by rw [whole_moment R g b A e he, hE j hj e he]) i hi) hφ
  have hψ : ∀ i < 3 * w, ∑ j ∈ range (3 * w + 3), V j i • φ j = ψ i := fun i hi => by
    simp only [ψ, transformed, V, if_pos hi]
  have hwpos : 0 < w := by rw [hw2]; unfold vwidth; omega
  constructor
  · intro v hv c hc i hi
    have hlt : v * w + c < 3 * w := by
      have := Nat.mul_le_mul_right w (Nat.succ_le_of_lt hv)
      rw [Nat.succ_mul] at this; omega
    have := key (v * w + c) (by omega) i (by omega)
    simp only [] at this
    rw [hψ i hi, jetDofs_at _ w _ _ v c hv hc] at this
    refine this.trans ?_
    by_cases h : i = v * w + c
    · rw [if_pos h, if_pos h.symm]
    · rw [if_neg h, if_neg (fun h' => h h'.symm)]
  · intro e he i hi
    have := key (3 * w + e) (by omega) i (by omega)
    simp only [] at this
    rw [hψ i hi, jetDofs_rest _ w _ _ e] at this
    rw [this, if_neg (by omega)]

/-- Point variant of Argyris (degree 5): jets at the vertices and normal derivatives at the midpoints of the
edges, the latter times the mean of the sizes at the ends. -/
theorem C38_argyris_point [CharZero K] (R : Tri K) (g : Geometry K) (b : Nat → K) (A : Affine R g b)
    (hsum : ∀ e < 3, g.h (ends e).1 + g.h (ends e).2 ≠ 0) (φ : Nat → Fn 2 K)
    (hfit : ∀ j < 21, (phys R g b true).Fits whole 6 (φ j))
    (hdeg : ∀ j < 21, ∀ e < 3, ((phys R g b true).on e (φ j (.edge e 0))).natDegree ≤ 5)
    (hφ : Nodal 21 (R.jetDofs 6 R.normalMidpoint) fun j => (φ j).pull g.J b) :
    Nodal 21 ((phys R g b true).jetDofs 6 (Tri.normalMidpoint
        (R.image g.J b g.h g.pel fun e => (g.h (ends e).1 + g.h (ends e).2) / 2)))
      (transformed 21 (argyrisPoint (triangle R.vert) R.len g 21 5).get φ) := by
  refine nodal_transpose 21 (fun i k => (argyrisPoint (triangle R.vert) R.len g 21 5).get k i) _
    (jetDofs_linear _ 6 _ fun e => normalMidpoint_linear _ _) (R.jetDofs 6 R.normalMidpoint)
    (fun f => f.pull g.J b) φ (fun i hi j hj => ?_) hφ
  obtain ⟨p1, p2, p3, p4⟩ := point_entries R g
  refine jet_rows R g b (fun e => if true = true then 1 else g.pel e) 2 6 21 21 rfl A.h_one A.size
    R.normalMidpoint _ (fun e => bnn R g e * g.pel e * edgeFactor g e) (pointWrites R g) (φ j)
    (fun i k => (argyrisPoint (triangle R.vert) R.len g 21 5).get k i)
    p1 p2 p3 p4 (fun e he => ?_) i hi
  rw [show pointWrites R g e = jetWrites2 ((ends e).1 * 6) ((ends e).2 * 6) (15 / 8) (-7 / 16) (1 / 32) (bnt R g e)
    (Piola.matVec 2 g.J (R.tangent e)) from rfl,
    act_jets2 R g.J b g.h g.pel (fun e => if true = true then 1 else g.pel e) whole rfl _ _ _ _ (φ j)
      (hfit j hj) e he]
  have key := normal_on R g.J g.detJ b g.h g.pel (fun e => if true = true then 1 else g.pel e) A.det A.lengths
    (A.phys_len _) e he (φ j (.edge e 0))
  have hm := argyris_midpoint _ (hdeg j hj e he)
  unfold Tri.normalMidpoint
  rw [A.scale_one, one_mul, show Fn.pull g.J b (φ j) (.edge e 0) = pull g.J b (φ j (.edge e 0)) from rfl, key,
    Polynomial.eval_add, Polynomial.eval_mul, Polynomial.eval_mul, Polynomial.eval_C, Polynomial.eval_C]
  have hm' : Polynomial.eval (1 / 2) (Polynomial.derivative
      ((R.image g.J b g.h g.pel fun e => if true = true then 1 else g.pel e).on e (φ j (.edge e 0)))) = _ := hm
  rw [hm']
  have h2 : edgeFactor g e * ((g.h (ends e).1 + g.h (ends e).2) / 2) = 1 := by
    unfold edgeFactor
    have := hsum e he
    field_simp
  have hsc : (R.image g.J b g.h g.pel fun e => (g.h (ends e).1 + g.h (ends e).2) / 2).scale e =
    (g.h (ends e).1 + g.h (ends e).2) / 2 := rfl
  rw [hsc]
  have hon : ∀ p, (R.image g.J b g.h g.pel fun e => (g.h (ends e).1 + g.h (ends e).2) / 2).on e p =
    (R.image g.J b g.h g.pel fun e => if true = true then 1 else g.pel e).on e p := fun _ => rfl
  have hnor : (R.image g.J b g.h g.pel fun e => (g.h (ends e).1 + g.h (ends e).2) / 2).normal e =
    (R.image g.J b g.h g.pel fun e => if true = true then 1 else g.pel e).normal e := rfl
  rw [hon, hnor]
  generalize Polynomial.eval (1 / 2) ((R.image g.J b g.h g.pel fun e => if true = true then 1 else g.pel e).on e
    (along _ (φ j (.edge e 0)))) = X
  have hb1 : bnn R g e = (normalTangential g.J g.detJ (R.tangent e) (R.len e)).1 := rfl
  have hb2 : bnt R g e = (normalTangential g.J g.detJ (R.tangent e) (R.len e)).2.1 := rfl
  rw [← hb1, ← hb2]
  have hon2 : (phys R g b true).on e = (R.image g.J b g.h g.pel fun e => if true = true then 1 else g.pel e).on e := rfl
  rw [hon2]
  linear_combination (- bnn R g e * g.pel e * X) * h2

/-- Bell: 21 reference functions (degree at most 5 along the edges), 18 degrees of freedom. The transformed
functions are nodal for the jets at the vertices, and the moment of their normal derivative along each
edge against the Legendre polynomial of degree four vanishes. -/
theorem C38_bell [CharZero K] (R : Tri K) (g : Geometry K) (b : Nat → K) (A : Affine R g b)
    (φ : Nat → Fn 2 K) (hfit : ∀ j < 21, (phys R g b true).Fits whole 6 (φ j))
    (hdeg : ∀ j < 21, ∀ e < 3, ((phys R g b true).on e (φ j (.edge e 0))).natDegree ≤ 5)
    (hφ : Nodal 21 (R.jetDofs 6 fun e => R.normalMoment whole e (jacobi 0 4)) fun j => (φ j).pull g.J b) :
    let ψ := transformed 21 (bell (triangle R.vert) R.len g 21 18).get φ
    (∀ v < 3, ∀ c < 6, ∀ i < 18, jet (mapPoint 2 g.J b (R.vert v)) (g.h v) c (ψ i (.vertex v)) =
      if i = v * 6 + c then 1 else 0) ∧
    ∀ e < 3, ∀ i < 18, (phys R g b true).normalMoment whole e (jacobi 0 4) (ψ i) = 0 := by
  obtain ⟨h1, h2⟩ := bell_entries R g
  refine jet_complete R g b A 2 6 18 rfl (jacobi 0 4) _ (bellWrites R g) h1 h2 φ (fun j hj e he => ?_) hφ
  rw [show bellWrites R g e = jetWrites2 ((ends e).1 * 6) ((ends e).2 * 6) (1 / 21) (-1 / 42) (1 / 252) (bnt R g e)
    (Piola.matVec 2 g.J (R.tangent e)) from rfl,
    act_jets2 R g.J b g.h g.pel (fun e => if true = true then 1 else g.pel e) whole rfl _ _ _ _ (φ j)
      (hfit j hj) e he, bell_moment _ (hdeg j hj e he)]
  have hon2 : (phys R g b true).on e = (R.image g.J b g.h g.pel fun e => if true = true then 1 else g.pel e).on e := rfl
  rw [hon2]
  ring

/-- Reduced Hsieh-Clough-Tocher: 12 reference functions (degree at most 3 along the edges), 9 degrees of freedom;
the normal derivative along each edge has no component of degree two. -/
theorem C38_reducedHct [CharZero K] (R : Tri K) (g : Geometry K) (b : Nat → K) (A : Affine R g b)
    (φ : Nat → Fn 2 K) (hfit : ∀ j < 12, (phys R g b true).Fits whole 3 (φ j))
    (hdeg : ∀ j < 12, ∀ e < 3, ((phys R g b true).on e (φ j (.edge e 0))).natDegree ≤ 3)
    (hφ : Nodal 12 (R.jetDofs 3 fun e => R.normalMoment whole e (jacobi 0 2)) fun j => (φ j).pull g.J b) :
    let ψ := transformed 12 (reducedHct (triangle R.vert) R.len g 12 9).get φ
    (∀ v < 3, ∀ c < 3, ∀ i < 9, jet (mapPoint 2 g.J b (R.vert v)) (g.h v) c (ψ i (.vertex v)) =
      if i = v * 3 + c then 1 else 0) ∧
    ∀ e < 3, ∀ i < 9, (phys R g b true).normalMoment whole e (jacobi 0 2) (ψ i) = 0 := by
  obtain ⟨h1, h2⟩ := reducedHct_entries R g
  refine jet_complete R g b A 1 3 9 rfl (jacobi 0 2) _ (hctWrites R g) h1 h2 φ (fun j hj e he => ?_) hφ
  rw [show hctWrites R g e = jetWrites1 ((ends e).1 * 3) ((ends e).2 * 3) (1 / 5) (1 / 10) (bnt R g e)
    (Piola.matVec 2 g.J (R.tangent e)) from rfl,
    act_jets1 R g.J b g.h g.pel (fun e => if true = true then 1 else g.pel e) whole rfl _ _ _ (φ j)
      (hfit j hj) e he, hct_moment _ (hdeg j hj e he)]
  have hon2 : (phys R g b true).on e = (R.image g.J b g.h g.pel fun e => if true = true then 1 else g.pel e).on e := rfl
  rw [hon2]

end FInAT.Props
