import Verif.Spec.Traction
import Verif.Props.StressElements
import Verif.Props.PiolaElements
import Verif.Lemmas.SmoothPoly
import Mathlib.Tactic.Module
import Mathlib.Tactic.LinearCombination

/-!
# Lemmas on tractions along common facets
-/

namespace FInAT.Traction

open Finset FInAT.Spec.PiolaNodes FInAT.Spec.Zany FInAT.PiolaNodes

variable {K A T : Type} [Field K] [AddCommGroup A] [Module K A] [AddCommGroup T] [Module K T] {d : Nat}

theorem dotWith_congr {v w : Nat → K} (h : ∀ i < d, v i = w i) (u : Fin d → A) : dotWith v u = dotWith w u :=
  Finset.sum_congr rfl fun i _ => by rw [h i i.2]

theorem dotWith_map (f : A →ₗ[K] T) (v : Nat → K) (u : Fin d → A) : f (dotWith v u) = dotWith v fun i => f (u i) := by
  unfold dotWith
  rw [map_sum]
  exact Finset.sum_congr rfl fun i _ => map_smul _ _ _

theorem dotWith_sub (v : Nat → K) (u w : Fin d → A) : dotWith v u - dotWith v w = dotWith v fun i => u i - w i := by
  unfold dotWith
  rw [← Finset.sum_sub_distrib]
  exact Finset.sum_congr rfl fun i _ => (smul_sub _ _ _).symm

theorem dotWith_field {n : Nat} (a : Nat → K) (ψ : Nat → Fin d → A) (v : Nat → K) :
    dotWith v (fieldOf n a ψ) = ∑ i ∈ range n, a i • dotWith v (ψ i) := by
  unfold dotWith fieldOf
  simp only [Finset.sum_apply, Pi.smul_apply, Finset.smul_sum]
  rw [Finset.sum_comm]
  exact Finset.sum_congr rfl fun i _ => Finset.sum_congr rfl fun j _ => smul_comm _ _ _

theorem traction_field {n : Nat} (a : Nat → K) (ψ : Nat → Fin d → Fin d → A) (v : Nat → K) :
    traction v (fieldOf n a ψ) = fieldOf n a fun i => traction v (ψ i) := by
  funext i
  unfold traction
  have : fieldOf n a ψ i = fieldOf n a fun j => ψ j i := by
    unfold fieldOf; rw [Finset.sum_apply]; rfl
  rw [this, dotWith_field]
  unfold fieldOf
  rw [Finset.sum_apply]
  rfl

/-- Frames of the same tangents. -/
theorem frame_congr (hd : d = 2 ∨ d = 3) {t t' : Nat → Nat → K} (h : SameTangents d t t') (c : Nat) (hc : c < d) :
    ∀ i < d, frame d t c i = frame d t' c i := by
  intro i hi
  cases c with
  | succ c => exact h c hc i hi
  | zero =>
    rcases hd with rfl | rfl
    · simp only [frame, if_true]
      rw [h 0 (by omega) 0 (by omega), h 0 (by omega) 1 (by omega)]
    · simp only [frame]
      rw [if_neg (by decide), if_neg (by decide)]
      rw [h 0 (by omega) ((i + 1) % 3) (by omega), h 0 (by omega) ((i + 2) % 3) (by omega),
        h 1 (by omega) ((i + 1) % 3) (by omega), h 1 (by omega) ((i + 2) % 3) (by omega)]

section Ordered

variable [LinearOrder K] [IsStrictOrderedRing K]

/-- The normal of a facet of the image is not zero. -/
theorem image_normal (hd : d = 2 ∨ d = 3) (J : Nat → Nat → K) (detJ : K) (hdet : detJ = Props.det d J) (h0 : detJ ≠ 0)
    (t : Nat → Nat → Nat → K) (f : Nat) (L : K) (hg : GoodFacet d (t f) L) :
    ∃ i < d, frame d (images d J t f) 0 i ≠ 0 := by
  by_contra hno
  push Not at hno
  have hz : ∀ b < d, frame d (t f) 0 b = 0 := by
    intro b hb
    have := frame_normal hd J detJ hdet t f b hb
    rw [Finset.sum_eq_zero fun j hj => by rw [hno j (Finset.mem_range.1 hj), mul_zero]] at this
    exact (mul_eq_zero.1 this.symm).resolve_left h0
  rcases hd with rfl | rfl
  · obtain ⟨hL, hLt⟩ := hg.edge rfl
    have h1 := hz 0 (by omega)
    have h2 := hz 1 (by omega)
    simp only [frame, if_true] at h1 h2
    rw [if_neg (by decide), neg_eq_zero] at h2
    apply hL
    have : L * L = 0 := by
      rw [hLt]; simp [Props.inner, Finset.sum_range_succ, h1, h2]
    exact mul_self_eq_zero.1 this
  · obtain ⟨i, hi, hne⟩ := hg.face rfl
    apply hne
    have := hz i hi
    simp only [frame] at this
    rw [if_neg (by decide)] at this
    exact this

/-- A vector that has no component in the frame is zero. -/
theorem frame_basis (hd : d = 2 ∨ d = 3) (t : Nat → Nat → K) (hn : ∃ i < d, frame d t 0 i ≠ 0) (x : Fin d → T)
    (h : ∀ c < d, dotWith (frame d t c) x = 0) : x = 0 := by
  rcases hd with rfl | rfl
  · have h1 := h 0 (by omega)
    have h2 := h 1 (by omega)
    simp only [dotWith, frame, Fin.sum_univ_two, if_true] at h1 h2
    simp only [Fin.val_zero, Fin.val_one, if_true, one_ne_zero, if_false] at h1 h2
    have hs : t 0 0 * t 0 0 + t 0 1 * t 0 1 ≠ 0 := by
      intro hz
      have a0 : t 0 0 = 0 := by nlinarith [mul_self_nonneg (t 0 0), mul_self_nonneg (t 0 1), mul_self_eq_zero (a := t 0 0)]
      have a1 : t 0 1 = 0 := by rw [a0] at hz; simpa using hz
      obtain ⟨i, hi, hne⟩ := hn
      apply hne
      simp only [frame, if_true, a0, a1]
      split <;> simp
    have e0 : (t 0 0 * t 0 0 + t 0 1 * t 0 1) • x 0 = 0 := by
      have : (t 0 0 * t 0 0 + t 0 1 * t 0 1) • x 0 = t 0 1 • (t 0 1 • x 0 + -t 0 0 • x 1) + t 0 0 • (t 0 0 • x 0 + t 0 1 • x 1) := by
        module
      rw [this, h1, h2]; simp
    have e1 : (t 0 0 * t 0 0 + t 0 1 * t 0 1) • x 1 = 0 := by
      have : (t 0 0 * t 0 0 + t 0 1 * t 0 1) • x 1 = (-t 0 0) • (t 0 1 • x 0 + -t 0 0 • x 1) + t 0 1 • (t 0 0 • x 0 + t 0 1 • x 1) := by
        module
      rw [this, h1, h2]; simp
    funext i
    fin_cases i
    · exact (smul_eq_zero.1 e0).resolve_left hs
    · exact (smul_eq_zero.1 e1).resolve_left hs
  · have h1 := h 0 (by omega)
    have h2 := h 1 (by omega)
    have h3 := h 2 (by omega)
    set n := frame 3 t 0 with hn'
    have g : ∀ v : Nat → K, dotWith v x = v 0 • x 0 + v 1 • x 1 + v 2 • x 2 := fun v => by
      simp [dotWith, Fin.sum_univ_three]
    have n0 : n 0 = t 0 1 * t 1 2 - t 0 2 * t 1 1 := by rw [hn']; simp [frame]
    have n1 : n 1 = t 0 2 * t 1 0 - t 0 0 * t 1 2 := by rw [hn']; simp [frame]
    have n2 : n 2 = t 0 0 * t 1 1 - t 0 1 * t 1 0 := by rw [hn']; simp [frame]
    simp only [show frame 3 t 1 = t 0 from rfl] at h2
    simp only [show frame 3 t 2 = t 1 from rfl] at h3
    rw [g] at h1 h2 h3
    have hs : n 0 * n 0 + n 1 * n 1 + n 2 * n 2 ≠ 0 := by
      intro hz
      have q0 := mul_self_nonneg (n 0)
      have q1 := mul_self_nonneg (n 1)
      have q2 := mul_self_nonneg (n 2)
      have a0 : n 0 = 0 := mul_self_eq_zero.1 (by linarith)
      have a1 : n 1 = 0 := mul_self_eq_zero.1 (by linarith)
      have a2 : n 2 = 0 := mul_self_eq_zero.1 (by linarith)
      obtain ⟨i, hi, hne⟩ := hn
      apply hne
      match i, hi with
      | 0, _ => exact a0
      | 1, _ => exact a1
      | 2, _ => exact a2
    have key : ∀ (i : Fin 3) (a b c : K),
        (n 0 * n 0 + n 1 * n 1 + n 2 * n 2) • x i = a • (n 0 • x 0 + n 1 • x 1 + n 2 • x 2) +
          b • (t 0 0 • x 0 + t 0 1 • x 1 + t 0 2 • x 2) + c • (t 1 0 • x 0 + t 1 1 • x 1 + t 1 2 • x 2) → x i = 0 := by
      intro i a b c hh
      rw [h1, h2, h3] at hh
      simp only [smul_zero, add_zero] at hh
      exact (smul_eq_zero.1 hh).resolve_left hs
    funext i
    fin_cases i
    · refine key 0 (n 0) (t 1 1 * n 2 - t 1 2 * n 1) (n 1 * t 0 2 - n 2 * t 0 1) ?_
      rw [n0, n1, n2]; module
    · refine key 1 (n 1) (t 1 2 * n 0 - t 1 0 * n 2) (n 2 * t 0 0 - n 0 * t 0 2) ?_
      rw [n0, n1, n2]; module
    · refine key 2 (n 2) (t 1 0 * n 1 - t 1 1 * n 0) (n 0 * t 0 1 - n 1 * t 0 0) ?_
      rw [n0, n1, n2]; module

end Ordered

end FInAT.Traction
