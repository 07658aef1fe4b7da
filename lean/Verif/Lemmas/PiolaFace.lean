import Verif.Lemmas.Piola
import Mathlib.Algebra.Order.Field.Basic
import Mathlib.Tactic.Linarith

/-!
# Face frames in three dimensions
-/

namespace FInAT.Piola

open Finset

variable {K : Type} [Field K]

theorem dot_three (u v : NVec K) : dot 3 u v = u 0 * v 0 + u 1 * v 1 + u 2 * v 2 := by
  simp [dot, Finset.sum_range_succ]

theorem matVec_three (A : NMat K) (v : NVec K) (i : Nat) :
    matVec 3 A v i = A i 0 * v 0 + A i 1 * v 1 + A i 2 * v 2 := by
  simp [matVec, Finset.sum_range_succ]

theorem cross_zero (u v : NVec K) : cross u v 0 = u 1 * v 2 - u 2 * v 1 := rfl
theorem cross_one (u v : NVec K) : cross u v 1 = u 2 * v 0 - u 0 * v 2 := rfl
theorem cross_two (u v : NVec K) : cross u v 2 = u 0 * v 1 - u 1 * v 0 := rfl

theorem lagrange (a b c d : NVec K) :
    dot 3 a c * dot 3 b d - dot 3 a d * dot 3 b c = dot 3 (cross a b) (cross c d) := by
  simp only [dot_three, cross_zero, cross_one, cross_two]; ring

/-- The cross product of images is the cofactor matrix times the cross product. -/
theorem cross_push (J : NMat K) (a b : NVec K) :
    cross (matVec 3 J a) (matVec 3 J b) 0 = (J 1 1 * J 2 2 - J 1 2 * J 2 1) * cross a b 0 +
      (J 1 2 * J 2 0 - J 1 0 * J 2 2) * cross a b 1 + (J 1 0 * J 2 1 - J 1 1 * J 2 0) * cross a b 2 ∧
    cross (matVec 3 J a) (matVec 3 J b) 1 = (J 2 1 * J 0 2 - J 2 2 * J 0 1) * cross a b 0 +
      (J 2 2 * J 0 0 - J 2 0 * J 0 2) * cross a b 1 + (J 2 0 * J 0 1 - J 2 1 * J 0 0) * cross a b 2 ∧
    cross (matVec 3 J a) (matVec 3 J b) 2 = (J 0 1 * J 1 2 - J 0 2 * J 1 1) * cross a b 0 +
      (J 0 2 * J 1 0 - J 0 0 * J 1 2) * cross a b 1 + (J 0 0 * J 1 1 - J 0 1 * J 1 0) * cross a b 2 := by
  simp only [matVec_three, cross_zero, cross_one, cross_two]
  refine ⟨?_, ?_, ?_⟩ <;> ring

/-- The determinant of a 3 × 3 matrix. -/
def det3 (J : NMat K) : K := J 0 0 * (J 1 1 * J 2 2 - J 1 2 * J 2 1) - J 0 1 * (J 1 0 * J 2 2 - J 1 2 * J 2 0) +
  J 0 2 * (J 1 0 * J 2 1 - J 1 1 * J 2 0)

theorem transpose_cross (J : NMat K) (a b : NVec K) :
    (J 0 0 * cross (matVec 3 J a) (matVec 3 J b) 0 + J 1 0 * cross (matVec 3 J a) (matVec 3 J b) 1 +
      J 2 0 * cross (matVec 3 J a) (matVec 3 J b) 2 = det3 J * cross a b 0) ∧
    (J 0 1 * cross (matVec 3 J a) (matVec 3 J b) 0 + J 1 1 * cross (matVec 3 J a) (matVec 3 J b) 1 +
      J 2 1 * cross (matVec 3 J a) (matVec 3 J b) 2 = det3 J * cross a b 1) ∧
    (J 0 2 * cross (matVec 3 J a) (matVec 3 J b) 0 + J 1 2 * cross (matVec 3 J a) (matVec 3 J b) 1 +
      J 2 2 * cross (matVec 3 J a) (matVec 3 J b) 2 = det3 J * cross a b 2) := by
  obtain ⟨h0, h1, h2⟩ := cross_push J a b
  rw [h0, h1, h2, det3]
  refine ⟨?_, ?_, ?_⟩ <;> ring

section Ordered

variable [LinearOrder K] [IsStrictOrderedRing K]

theorem dot_self_ne_zero (v : NVec K) (h : v 0 ≠ 0 ∨ v 1 ≠ 0 ∨ v 2 ≠ 0) : dot 3 v v ≠ 0 := by
  rw [dot_three]
  have n0 := mul_self_nonneg (v 0)
  have n1 := mul_self_nonneg (v 1)
  have n2 := mul_self_nonneg (v 2)
  intro hz
  have z0 : v 0 * v 0 = 0 := by linarith
  have z1 : v 1 * v 1 = 0 := by linarith
  have z2 : v 2 * v 2 = 0 := by linarith
  rw [mul_self_eq_zero] at z0 z1 z2
  rcases h with h | h | h
  · exact h z0
  · exact h z1
  · exact h z2

/-- The normal of the frame, divided by its square. -/
def nhat (t0 t1 : NVec K) : NVec K := fun i => cross t0 t1 i / dot 3 (cross t0 t1) (cross t0 t1)

/-- The entries of `A`. -/
def frameA (J : NMat K) (t0 t1 : NVec K) : NMat K := fun i j =>
  dot 3 (matVec 3 J (match i with
    | 0 => nhat t0 t1
    | 1 => cross (nhat t0 t1) t1
    | _ => cross t0 (nhat t0 t1))) (match j with
    | 0 => matVec 3 J t0
    | _ => matVec 3 J t1)

omit [LinearOrder K] [IsStrictOrderedRing K] in
theorem face_eq (J : NMat K) (detJ : K) (t0 t1 : NVec K) :
    let A := frameA J t0 t1
    let det0 := A 1 0 * A 2 1 - A 1 1 * A 2 0
    faceTransform J detJ t0 t1 0 0 = -1 * (A 2 0 * A 0 1 - A 2 1 * A 0 0) / det0 ∧
    faceTransform J detJ t0 t1 0 1 = -1 * (detJ / det0) * A 2 1 ∧
    faceTransform J detJ t0 t1 0 2 = detJ / det0 * A 2 0 ∧
    faceTransform J detJ t0 t1 1 0 = -1 * (A 0 0 * A 1 1 - A 0 1 * A 1 0) / det0 ∧
    faceTransform J detJ t0 t1 1 1 = detJ / det0 * A 1 1 ∧
    faceTransform J detJ t0 t1 1 2 = -1 * (detJ / det0) * A 1 0 := ⟨rfl, rfl, rfl, rfl, rfl, rfl⟩

omit [LinearOrder K] [IsStrictOrderedRing K] in
theorem frame_expand (t0 t1 u : NVec K) (hD : dot 3 (cross t0 t1) (cross t0 t1) ≠ 0) (i : Nat) (hi : i < 3) :
    u i = dot 3 u (cross t0 t1) * nhat t0 t1 i - dot 3 u t0 * cross (nhat t0 t1) t1 i -
      dot 3 u t1 * cross t0 (nhat t0 t1) i := by
  set D := dot 3 (cross t0 t1) (cross t0 t1) with hDdef
  have key : ∀ i < 3, D * u i = dot 3 u (cross t0 t1) * cross t0 t1 i - dot 3 u t0 * cross (cross t0 t1) t1 i -
      dot 3 u t1 * cross t0 (cross t0 t1) i := by
    intro i hi
    rcases i with _ | _ | _ | i
    · simp only [hDdef, dot_three, cross_zero, cross_one, cross_two]; ring
    · simp only [hDdef, dot_three, cross_zero, cross_one, cross_two, zero_add]; ring
    · simp only [hDdef, dot_three, cross_zero, cross_one, cross_two, zero_add, Nat.reduceAdd]; ring
    · omega
  have e1 : cross (nhat t0 t1) t1 i = cross (cross t0 t1) t1 i / D := by
    rcases i with _ | _ | _ | i
    · simp only [cross_zero, nhat, ← hDdef]; ring
    · simp only [zero_add, cross_one, nhat, ← hDdef]; ring
    · simp only [zero_add, Nat.reduceAdd, cross_two, nhat, ← hDdef]; ring
    · omega
  have e2 : cross t0 (nhat t0 t1) i = cross t0 (cross t0 t1) i / D := by
    rcases i with _ | _ | _ | i
    · simp only [cross_zero, nhat, ← hDdef]; ring
    · simp only [zero_add, cross_one, nhat, ← hDdef]; ring
    · simp only [zero_add, Nat.reduceAdd, cross_two, nhat, ← hDdef]; ring
    · omega
  rw [e1, e2, nhat, ← hDdef]
  have := key i hi
  field_simp
  linear_combination this

omit [LinearOrder K] [IsStrictOrderedRing K] in
theorem frame_cross (t0 t1 : NVec K) (hD : dot 3 (cross t0 t1) (cross t0 t1) ≠ 0) (i : Nat) (hi : i < 3) :
    cross (cross (nhat t0 t1) t1) (cross t0 (nhat t0 t1)) i = nhat t0 t1 i := by
  set D := dot 3 (cross t0 t1) (cross t0 t1) with hDdef
  have hn : ∀ j, nhat t0 t1 j = cross t0 t1 j / D := fun j => rfl
  have key : nhat t0 t1 0 * cross t0 t1 0 + nhat t0 t1 1 * cross t0 t1 1 + nhat t0 t1 2 * cross t0 t1 2 = 1 := by
    rw [hn, hn, hn]
    field_simp
    rw [hDdef, dot_three]; ring
  generalize nhat t0 t1 = n at key ⊢
  simp only [cross_zero, cross_one, cross_two] at key
  rcases i with _ | _ | _ | i
  · simp only [cross_zero, cross_one, cross_two]; linear_combination n 0 * key
  · simp only [zero_add, cross_zero, cross_one, cross_two]; linear_combination n 1 * key
  · simp only [zero_add, Nat.reduceAdd, cross_zero, cross_one, cross_two]; linear_combination n 2 * key
  · omega

theorem det0_ne_zero (J : NMat K) (t0 t1 : NVec K) (hJ : det3 J ≠ 0)
    (ht : cross t0 t1 0 ≠ 0 ∨ cross t0 t1 1 ≠ 0 ∨ cross t0 t1 2 ≠ 0) :
    let A := frameA J t0 t1
    A 1 0 * A 2 1 - A 1 1 * A 2 0 ≠ 0 := by
  intro A
  have hD := dot_self_ne_zero (cross t0 t1) ht
  have hA : A 1 0 * A 2 1 - A 1 1 * A 2 0 =
      dot 3 (cross (matVec 3 J (cross (nhat t0 t1) t1)) (matVec 3 J (cross t0 (nhat t0 t1))))
        (cross (matVec 3 J t0) (matVec 3 J t1)) := by
    rw [← lagrange]; rfl
  rw [hA]
  obtain ⟨p0, p1, p2⟩ := cross_push J (cross (nhat t0 t1) t1) (cross t0 (nhat t0 t1))
  obtain ⟨q0, q1, q2⟩ := cross_push J t0 t1
  rw [frame_cross t0 t1 hD 0 (by omega), frame_cross t0 t1 hD 1 (by omega),
    frame_cross t0 t1 hD 2 (by omega)] at p0 p1 p2
  set D := dot 3 (cross t0 t1) (cross t0 t1) with hDdef
  have hn : ∀ j, nhat t0 t1 j = cross t0 t1 j / D := fun j => rfl
  rw [hn, hn, hn] at p0 p1 p2
  have r : dot 3 (cross (matVec 3 J (cross (nhat t0 t1) t1)) (matVec 3 J (cross t0 (nhat t0 t1))))
      (cross (matVec 3 J t0) (matVec 3 J t1)) =
      dot 3 (cross (matVec 3 J t0) (matVec 3 J t1)) (cross (matVec 3 J t0) (matVec 3 J t1)) / D := by
    rw [dot_three, dot_three, p0, p1, p2, q0, q1, q2]
    ring
  rw [r]
  refine div_ne_zero (dot_self_ne_zero _ ?_) hD
  by_contra hc
  push Not at hc
  obtain ⟨c0, c1, c2⟩ := hc
  obtain ⟨s0, s1, s2⟩ := transpose_cross J t0 t1
  rw [c0, c1, c2] at s0 s1 s2
  simp only [mul_zero, add_zero] at s0 s1 s2
  have z : ∀ x : K, 0 = det3 J * x → x = 0 := fun x hx => (mul_eq_zero.1 hx.symm).resolve_left hJ
  rcases ht with h | h | h
  · exact h (z _ s0)
  · exact h (z _ s1)
  · exact h (z _ s2)

/-- The two rows give the tangential components. -/
theorem face_rows (J : NMat K) (t0 t1 u : NVec K) (hJ : det3 J ≠ 0)
    (ht : cross t0 t1 0 ≠ 0 ∨ cross t0 t1 1 ≠ 0 ∨ cross t0 t1 2 ≠ 0) :
    let N := dot 3 u (cross t0 t1)
    let T0 := dot 3 (matVec 3 J u) (matVec 3 J t0) / det3 J
    let T1 := dot 3 (matVec 3 J u) (matVec 3 J t1) / det3 J
    let row := faceTransform J (det3 J) t0 t1
    dot 3 u t0 = row 0 0 * N + row 0 1 * T0 + row 0 2 * T1 ∧
    dot 3 u t1 = row 1 0 * N + row 1 1 * T0 + row 1 2 * T1 := by
  intro N T0 T1 row
  have hD := dot_self_ne_zero (cross t0 t1) ht
  have h0 := det0_ne_zero J t0 t1 hJ ht
  obtain ⟨r00, r01, r02, r10, r11, r12⟩ := face_eq J (det3 J) t0 t1
  have hA : ∀ j, frameA J t0 t1 0 j = dot 3 (matVec 3 J (nhat t0 t1)) (match j with
      | 0 => matVec 3 J t0 | _ => matVec 3 J t1) := fun j => rfl
  have hM : ∀ v : NVec K, dot 3 (matVec 3 J u) v = N * dot 3 (matVec 3 J (nhat t0 t1)) v -
      dot 3 u t0 * dot 3 (matVec 3 J (cross (nhat t0 t1) t1)) v -
      dot 3 u t1 * dot 3 (matVec 3 J (cross t0 (nhat t0 t1))) v := by
    intro v
    have e0 := frame_expand t0 t1 u hD 0 (by omega)
    have e1 := frame_expand t0 t1 u hD 1 (by omega)
    have e2 := frame_expand t0 t1 u hD 2 (by omega)
    rw [dot_three (matVec 3 J u), matVec_three, matVec_three, matVec_three, e0, e1, e2, dot_three (matVec 3 J _) v,
      dot_three (matVec 3 J (cross (nhat t0 t1) t1)) v, dot_three (matVec 3 J (cross t0 (nhat t0 t1))) v]
    simp only [matVec_three]
    ring
  have h1 : dot 3 (matVec 3 J u) (matVec 3 J t0) = N * frameA J t0 t1 0 0 - dot 3 u t0 * frameA J t0 t1 1 0 -
      dot 3 u t1 * frameA J t0 t1 2 0 := hM _
  have h2 : dot 3 (matVec 3 J u) (matVec 3 J t1) = N * frameA J t0 t1 0 1 - dot 3 u t0 * frameA J t0 t1 1 1 -
      dot 3 u t1 * frameA J t0 t1 2 1 := hM _
  simp only [row, T0, T1, r00, r01, r02, r10, r11, r12, h1, h2]
  generalize frameA J t0 t1 = A at h0 ⊢
  simp only [] at h0
  generalize dot 3 u t0 = x, dot 3 u t1 = y
  clear_value N
  obtain ⟨d, hd⟩ : ∃ d, A 1 0 * A 2 1 - A 1 1 * A 2 0 = d := ⟨_, rfl⟩
  rw [hd] at h0 ⊢
  generalize det3 J = D at hJ ⊢
  constructor
  · field_simp
    linear_combination - x * hd
  · field_simp
    linear_combination - y * hd

end Ordered

end FInAT.Piola
