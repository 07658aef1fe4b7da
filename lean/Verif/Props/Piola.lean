import Verif.Model.Stress
import Verif.Lemmas.PiolaFace
import Verif.Lemmas.ZanyEdge
import Mathlib.Algebra.Order.Ring.Defs
import Mathlib.Algebra.Order.Field.Basic
import Mathlib.Data.Rat.Defs
import Mathlib.Algebra.Order.Ring.Rat
import Mathlib.Algebra.Field.Rat
import Mathlib.Tactic.NormNum

/-!
# C31, C32, C34: Piola maps

Vectors and matrices are functions of their indices. `determinant`, `adjugate`, `piolaInverse`,
`edgeTransform`, `faceTransform` and `evaluationTransform` are models of the code; sums, `Matrix.det` and the
vector operations below are the specification.
-/

namespace FInAT.Props

open Finset FInAT.Piola

/-- The Piola image `J û / det J` of a vector. -/
def piola {K : Type} [Field K] (d : Nat) (J : Nat → Nat → K) (detJ : K) (u : Nat → K) : Nat → K :=
  fun i => (∑ j ∈ range d, J i j * u j) / detJ

/-- `J v`. -/
def push {K : Type} [Field K] (d : Nat) (J : Nat → Nat → K) (v : Nat → K) : Nat → K :=
  fun i => ∑ j ∈ range d, J i j * v j

/-- Inner product. -/
def inner {K : Type} [Field K] (d : Nat) (u v : Nat → K) : K := ∑ i ∈ range d, u i * v i

/-- A vector of the plane turned clockwise by a right angle. -/
def turned {K : Type} [Field K] (v : Nat → K) : Nat → K := fun i => if i = 0 then v 1 else - v 0

/-- Vector product. -/
def vprod {K : Type} [Field K] (u v : Nat → K) : Nat → K := fun i =>
  u ((i + 1) % 3) * v ((i + 2) % 3) - u ((i + 2) % 3) * v ((i + 1) % 3)

/-- The determinant of the leading `n × n` block. -/
def det {K : Type} [Field K] (n : Nat) (A : Nat → Nat → K) : K :=
  Matrix.det (Matrix.of fun i j : Fin n => A i j)

variable {K : Type} [Field K]

/-! ### C31 -/

/-- `determinant` is the determinant, for matrices of every size. -/
theorem C31_determinant (n : Nat) (A : Nat → Nat → K) : determinant n A = det n A :=
  determinant_eq n A

/-- `adjugate` is the transposed matrix of cofactors: `A adj(A) = adj(A) A = det(A) I`, and entry `(j, i)`
is the signed determinant of `A` without row `i` and column `j`. -/
theorem C31_adjugate (n : Nat) (A : Nat → Nat → K) (i k : Nat) (hi : i < n) (hk : k < n) :
    (∑ j ∈ range n, A i j * adjugate n A j k = if i = k then det n A else 0) ∧
    (∑ j ∈ range n, adjugate n A i j * A j k = if i = k then det n A else 0) ∧
    adjugate n A i k = Matrix.adjugate (Matrix.of fun i j : Fin n => A i j) ⟨i, hi⟩ ⟨k, hk⟩ := by
  have h := adjugate_eq n A
  have key : ∀ a b : Fin n, adjugate n A a b = (toMatrix n A).adjugate a b := fun a b =>
    congrFun (congrFun h a) b
  refine ⟨?_, ?_, key ⟨i, hi⟩ ⟨k, hk⟩⟩
  · have := congrFun (congrFun (Matrix.mul_adjugate (toMatrix n A)) ⟨i, hi⟩) ⟨k, hk⟩
    rw [Matrix.mul_apply, Matrix.smul_apply, Matrix.one_apply] at this
    rw [Finset.sum_range]
    refine (Eq.trans (Finset.sum_congr rfl fun j _ => ?_) this).trans ?_
    · rw [← key j ⟨k, hk⟩]; rfl
    simp only [Fin.mk.injEq, smul_eq_mul, mul_ite, mul_one, mul_zero]
    rfl
  · have := congrFun (congrFun (Matrix.adjugate_mul (toMatrix n A)) ⟨i, hi⟩) ⟨k, hk⟩
    rw [Matrix.mul_apply, Matrix.smul_apply, Matrix.one_apply] at this
    rw [Finset.sum_range]
    refine (Eq.trans (Finset.sum_congr rfl fun j _ => ?_) this).trans ?_
    · rw [← key ⟨i, hi⟩ j]; rfl
    simp only [Fin.mk.injEq, smul_eq_mul, mul_ite, mul_one, mul_zero]
    rfl

/-- `piola_inverse` undoes the Piola map of every vector. -/
theorem C31_piola_inverse (sd : Nat) (J : Nat → Nat → K) (detJ : K) (hdet : detJ = det sd J) (h0 : detJ ≠ 0)
    (u : Nat → K) (i : Nat) (hi : i < sd) :
    ∑ j ∈ range sd, piolaInverse sd J detJ i j * piola sd J detJ u j = u i := by
  simp only [piola, piolaInverse]
  have h : ∀ k < sd, ∑ j ∈ range sd, adjugate sd J i j * J j k = if i = k then det sd J else 0 :=
    fun k hk => (C31_adjugate sd J i k hi hk).2.1
  calc ∑ j ∈ range sd, adjugate sd J i j * ((∑ k ∈ range sd, J j k * u k) / detJ)
      = ∑ k ∈ range sd, (∑ j ∈ range sd, adjugate sd J i j * J j k) * u k / detJ := by
        simp only [div_eq_mul_inv, Finset.mul_sum, Finset.sum_mul]
        rw [Finset.sum_comm]
        refine Finset.sum_congr rfl fun k _ => Finset.sum_congr rfl fun j _ => by ring
    _ = ∑ k ∈ range sd, (if i = k then det sd J else 0) * u k / detJ :=
        Finset.sum_congr rfl fun k hk => by rw [h k (Finset.mem_range.1 hk)]
    _ = u i := by
        simp only [ite_mul, zero_mul, ite_div, zero_div, Finset.sum_ite_eq, Finset.mem_range, if_pos hi]
        rw [← hdet]; field_simp

/-- A 4 × 4 determinant. -/
example : determinant 4 (fun i j => ((i + 1) ^ j : ℚ)) = 12 := by
  norm_num [determinant, select, tail, without, List.range, List.range.loop, Finset.sum_Ico_succ_top,
    Finset.sum_Ico_eq_sum_range, Finset.sum_range_succ]

/-- A Jacobian of determinant two. -/
def J3 : Nat → Nat → ℚ := fun i j => if i = j then (if i = 0 then 2 else 1) else if i < j then 3 else 0

theorem det_J3 : det 3 J3 = 2 := by
  rw [← C31_determinant]
  norm_num [J3, determinant, select, tail, without, List.range, List.range.loop, Finset.sum_Ico_succ_top,
    Finset.sum_Ico_eq_sum_range, Finset.sum_range_succ]

example := C31_piola_inverse 3 J3 2 det_J3.symm (by norm_num) (fun i => i + 1) 1 (by norm_num)

/-! ### C32 -/

section Ordered

variable [LinearOrder K] [IsStrictOrderedRing K]

/-- Edges: let `u` be the Piola image of `û`, `t` the tangent of an edge of length `L`. The reference tangential
component `û · t / L` is the first entry of the row times the normal component plus the second one times the
tangential component of `u`, taken with the images of the reference frame (these are the degrees of freedom
on the physical edge: the normal one is the reference one, the image of the unit tangent is turned into the
physical scaled normal). -/
theorem C32_edge (J : Nat → Nat → K) (detJ : K) (hdet : detJ = det 2 J) (h0 : detJ ≠ 0) (t : Nat → K) (L : K)
    (hL : L ≠ 0) (hLt : L * L = inner 2 t t) (u : Nat → K) :
    inner 2 u (fun i => t i / L) =
      Piola.edgeTransform J detJ t L 0 * inner 2 (piola 2 J detJ u) (turned (push 2 J fun i => t i / L)) +
      Piola.edgeTransform J detJ t L 1 * inner 2 (piola 2 J detJ u) (push 2 J fun i => t i / L) ∧
    inner 2 (piola 2 J detJ u) (turned (push 2 J fun i => t i / L)) = inner 2 u (turned fun i => t i / L) := by
  have hd : detJ = J 0 0 * J 1 1 - J 0 1 * J 1 0 := by
    rw [hdet, det, Matrix.det_fin_two]; rfl
  obtain ⟨s, hs⟩ : ∃ s : Nat → K, s = fun i => t i / L := ⟨_, rfl⟩
  have h1 : s 0 * s 0 + s 1 * s 1 = 1 := by
    rw [hs]
    simp only [inner, Finset.sum_range_succ, Finset.sum_range_zero, zero_add] at hLt
    field_simp
    linear_combination - hLt
  have hE : Piola.edgeTransform J detJ t L = vec [-1 * (dot 2 (matVec 2 J (rotate s)) (matVec 2 J s)) /
      dot 2 (matVec 2 J s) (matVec 2 J s), detJ / dot 2 (matVec 2 J s) (matVec 2 J s)] := by rw [hs]; rfl
  rw [hE, ← hs]
  have hr0 : rotate s 0 = s 1 := rfl
  have hr1 : rotate s 1 = - s 0 := rfl
  have hv0 : ∀ x y : K, vec [x, y] 0 = x := fun _ _ => rfl
  have hv1 : ∀ x y : K, vec [x, y] 1 = y := fun _ _ => rfl
  have hβ : dot 2 (matVec 2 J s) (matVec 2 J s) ≠ 0 := by
    intro hz
    simp only [dot, matVec, Finset.sum_range_succ, Finset.sum_range_zero, zero_add] at hz
    obtain ⟨z0, z1⟩ := (mul_self_add_mul_self_eq_zero).1 hz
    have e0 : detJ * s 0 = 0 := by rw [hd]; linear_combination J 1 1 * z0 - J 0 1 * z1
    have e1 : detJ * s 1 = 0 := by rw [hd]; linear_combination J 0 0 * z1 - J 1 0 * z0
    have f0 := (mul_eq_zero.1 e0).resolve_left h0
    have f1 := (mul_eq_zero.1 e1).resolve_left h0
    rw [f0, f1] at h1
    simp at h1
  rw [hv0, hv1]
  simp only [inner, piola, push, turned, dot, matVec, Finset.sum_range_succ, Finset.sum_range_zero, zero_add,
    hr0, hr1, if_true, one_ne_zero, if_false] at hβ ⊢
  have hN : (J 0 0 * u 0 + J 0 1 * u 1) / detJ * (J 1 0 * s 0 + J 1 1 * s 1) +
      (J 1 0 * u 0 + J 1 1 * u 1) / detJ * -(J 0 0 * s 0 + J 0 1 * s 1) = u 0 * s 1 + u 1 * -s 0 := by
    field_simp
    rw [hd]; ring
  have hT : (J 0 0 * u 0 + J 0 1 * u 1) / detJ * (J 0 0 * s 0 + J 0 1 * s 1) +
      (J 1 0 * u 0 + J 1 1 * u 1) / detJ * (J 1 0 * s 0 + J 1 1 * s 1) =
      ((J 0 0 * u 0 + J 0 1 * u 1) * (J 0 0 * s 0 + J 0 1 * s 1) +
      (J 1 0 * u 0 + J 1 1 * u 1) * (J 1 0 * s 0 + J 1 1 * s 1)) / detJ := by ring
  refine ⟨?_, hN⟩
  have hx : ∀ B X : K, detJ / B * (X / detJ) = X / B := fun B X => by
    rw [div_mul_div_comm, mul_comm B detJ, mul_div_mul_left _ _ h0]
  rw [hN, hT, hx, div_mul_eq_mul_div, ← add_div, eq_div_iff hβ]
  linear_combination ((J 0 0 * u 0 + J 0 1 * u 1) * (J 0 0 * s 0 + J 0 1 * s 1) +
      (J 1 0 * u 0 + J 1 1 * u 1) * (J 1 0 * s 0 + J 1 1 * s 1)) * h1

/-- Faces: the same with the two tangents of a face and the normal `t₀ × t₁`. -/
theorem C32_face (J : Nat → Nat → K) (detJ : K) (hdet : detJ = det 3 J) (h0 : detJ ≠ 0) (t0 t1 : Nat → K)
    (ht : ∃ i < 3, vprod t0 t1 i ≠ 0) (u : Nat → K) :
    let N := inner 3 (piola 3 J detJ u) (vprod (push 3 J t0) (push 3 J t1))
    let T0 := inner 3 (piola 3 J detJ u) (push 3 J t0)
    let T1 := inner 3 (piola 3 J detJ u) (push 3 J t1)
    let row := faceTransform J detJ t0 t1
    inner 3 u t0 = row 0 0 * N + row 0 1 * T0 + row 0 2 * T1 ∧
    inner 3 u t1 = row 1 0 * N + row 1 1 * T0 + row 1 2 * T1 ∧
    N = inner 3 u (vprod t0 t1) := by
  intro N T0 T1 row
  have hd : detJ = det3 J := by
    rw [hdet, det, Matrix.det_fin_three, det3]
    simp only [Matrix.of_apply, Fin.val_zero, Fin.val_one, Fin.val_two]
    ring
  subst hd
  have hi : ∀ a b : Nat → K, inner 3 a b = dot 3 a b := fun _ _ => rfl
  have hp : ∀ a : Nat → K, push 3 J a = matVec 3 J a := fun _ => rfl
  have hv : ∀ a b c : Nat → K, inner 3 a (vprod b c) = dot 3 a (cross b c) := fun a b c => by
    rw [hi, dot_three, dot_three]; rfl
  have hpi : ∀ v : Nat → K, dot 3 (piola 3 J (det3 J) u) v = dot 3 (matVec 3 J u) v / det3 J := fun v => by
    have : ∀ i, piola 3 J (det3 J) u i = matVec 3 J u i / det3 J := fun i => rfl
    rw [dot_three, dot_three, this, this, this]; ring
  have ht' : cross t0 t1 0 ≠ 0 ∨ cross t0 t1 1 ≠ 0 ∨ cross t0 t1 2 ≠ 0 := by
    obtain ⟨i, hi3, hne⟩ := ht
    rcases i with _ | _ | _ | i
    · exact .inl hne
    · exact .inr (.inl hne)
    · exact .inr (.inr hne)
    · omega
  have hN : N = dot 3 u (cross t0 t1) := by
    simp only [N]
    rw [hv, hp, hp, hpi, div_eq_iff h0]
    obtain ⟨s0, s1, s2⟩ := transpose_cross J t0 t1
    rw [dot_three, dot_three u, matVec_three, matVec_three, matVec_three]
    linear_combination u 0 * s0 + u 1 * s1 + u 2 * s2
  have key := face_rows J t0 t1 u h0 ht'
  rw [hv, hi, hi]
  refine ⟨?_, ?_, hN⟩
  · refine key.1.trans ?_
    rw [← hN, ← hpi, ← hpi]; rfl
  · refine key.2.trans ?_
    rw [← hN, ← hpi, ← hpi]; rfl

end Ordered

/-- A sheared edge with tangent `(3, 4)` of length five, and an oblique face. -/
example := C32_edge (fun i j => if i ≤ j then (2 : ℚ) else 0) 4 (by rw [det, Matrix.det_fin_two]; norm_num)
  (by norm_num) (fun i => if i = 0 then 3 else 4) 5 (by norm_num)
  (by norm_num [inner, Finset.sum_range_succ]) (fun i => i + 1)

example := C32_face J3 2 det_J3.symm (by norm_num) (fun i => if i = 0 then 1 else 0)
  (fun i => if i = 1 then 1 else 2) ⟨2, by norm_num, by norm_num [vprod]⟩ (fun i => i + 1)

/-! ### C34 -/

/-- The matrix of `_evaluation_transform`, applied to the upper triangle of the double Piola image
`J Ŝ Jᵀ / det(J)²` of a symmetric tensor, gives the upper triangle of `Ŝ`; `(i, j)` is the pair at position `p` of
the upper triangle. -/
theorem C34_evaluation (sd : Nat) [NeZero (2 : K)] (J : Nat → Nat → K) (detJ : K) (hdet : detJ = det sd J)
    (h0 : detJ ≠ 0) (S : Nat → Nat → K) (hS : ∀ m n, S m n = S n m) (p : Nat)
    (hp : p < (Spec.Zany.pairs sd).length) :
    ∑ q ∈ range (Spec.Zany.pairs sd).length, (Stress.evaluationTransform sd J).get p q *
        ((∑ a ∈ range sd, ∑ b ∈ range sd, J ((Spec.Zany.pairs sd).getD q (0, 0)).1 a * S a b *
          J ((Spec.Zany.pairs sd).getD q (0, 0)).2 b) / (detJ * detJ)) =
      S ((Spec.Zany.pairs sd).getD p (0, 0)).1 ((Spec.Zany.pairs sd).getD p (0, 0)).2 := by
  rw [Zany.pairs_eq] at hp ⊢
  have h2 : (2 : K) ≠ 0 := NeZero.ne 2
  have hW : ∀ q, (Stress.evaluationTransform sd J).get p q =
      Zany.hessBlock sd (fun m i => adjugate sd J i m) p q := by
    intro q
    simp only [Stress.evaluationTransform, Zany.hessBlock, ne_eq, ite_not]
    split <;> field_simp
  have hmem := (Zany.upper_mem sd ((Zany.upper sd).getD p (0, 0))).1 (by
    rw [List.getD_eq_getElem?_getD, List.getElem?_eq_getElem hp]; exact List.getElem_mem hp)
  set i := ((Zany.upper sd).getD p (0, 0)).1 with hi
  set j := ((Zany.upper sd).getD p (0, 0)).2 with hj
  have hrow := Zany.hess_row sd (fun m i => adjugate sd J i m)
    (fun m n => (∑ a ∈ range sd, ∑ b ∈ range sd, J m a * S a b * J n b) / (detJ * detJ)) (fun m n => by
      congr 1
      rw [Finset.sum_comm]
      refine Finset.sum_congr rfl fun a _ => Finset.sum_congr rfl fun b _ => ?_
      rw [hS b a]; ring) p
  rw [← hi, ← hj, ← Zany.upper_length] at hrow
  rw [Finset.sum_congr rfl fun q _ => by rw [hW q], hrow]
  have hK : ∀ i < sd, ∀ k < sd, ∑ m ∈ range sd, adjugate sd J i m * J m k = if i = k then detJ else 0 :=
    fun i hi k hk => by rw [(C31_adjugate sd J i k hi hk).2.1, hdet]
  calc ∑ m ∈ range sd, ∑ n ∈ range sd, adjugate sd J i m * adjugate sd J j n *
        ((∑ a ∈ range sd, ∑ b ∈ range sd, J m a * S a b * J n b) / (detJ * detJ))
      = ∑ a ∈ range sd, ∑ b ∈ range sd, (∑ m ∈ range sd, adjugate sd J i m * J m a) *
          (∑ n ∈ range sd, adjugate sd J j n * J n b) * S a b / (detJ * detJ) := by
        simp only [div_eq_mul_inv, Finset.mul_sum, Finset.sum_mul]
        rw [Finset.sum_congr rfl fun m _ => Finset.sum_comm, Finset.sum_comm]
        refine Finset.sum_congr rfl fun a _ => ?_
        rw [Finset.sum_congr rfl fun m _ => Finset.sum_comm, Finset.sum_comm]
        refine Finset.sum_congr rfl fun b _ => ?_
        rw [Finset.sum_comm]
        refine Finset.sum_congr rfl fun n _ => Finset.sum_congr rfl fun m _ => ?_
        ring
    _ = ∑ a ∈ range sd, ∑ b ∈ range sd, (if i = a then detJ else 0) * (if j = b then detJ else 0) * S a b /
          (detJ * detJ) := by
        refine Finset.sum_congr rfl fun a ha => Finset.sum_congr rfl fun b hb => ?_
        rw [hK i (by omega) a (Finset.mem_range.1 ha), hK j (by omega) b (Finset.mem_range.1 hb)]
    _ = S i j := by
        rw [Finset.sum_eq_single i, Finset.sum_eq_single j]
        · rw [if_pos rfl, if_pos rfl]; field_simp
        · intro b _ hb; rw [if_neg (show ¬ j = b from fun h => hb h.symm)]; simp
        · intro h; exact absurd (Finset.mem_range.2 (by omega)) h
        · intro a _ ha
          refine Finset.sum_eq_zero fun b _ => ?_
          rw [if_neg (show ¬ i = a from fun h => ha h.symm)]; simp
        · intro h; exact absurd (Finset.mem_range.2 (by omega)) h

example := C34_evaluation 3 J3 2 det_J3.symm (by norm_num) (fun i j => i * j + 1) (fun m n => by ring) 4 (by decide)

end FInAT.Props
