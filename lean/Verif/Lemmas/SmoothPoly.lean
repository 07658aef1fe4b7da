import Verif.Lemmas.ZanyNodal3
import Mathlib.Analysis.SpecialFunctions.Integrals.Basic
import Mathlib.Algebra.Polynomial.FieldDivision
import Mathlib.RingTheory.Polynomial.Basic
import Mathlib.Algebra.MvPolynomial.Degrees
import Mathlib.Topology.Algebra.Polynomial

/-!
# Polynomials determined by their values at two points and their moments
-/

namespace FInAT.Zany

open FInAT.Spec.Zany Polynomial

theorem integral_interval (a b : ℝ) (p : ℝ[X]) : Spec.Zany.integral a b p = ∫ x in a..b, p.eval x := by
  induction p using Polynomial.induction_on' with
  | add p q hp hq =>
    rw [integral_add, hp, hq]
    simp only [eval_add]
    rw [intervalIntegral.integral_add] <;> exact (Polynomial.continuous _).intervalIntegrable _ _
  | monomial n c =>
    rw [integral_monomial]
    simp only [eval_monomial]
    rw [intervalIntegral.integral_const_mul, integral_pow]
    ring

/-- A weight that is positive inside the interval. -/
theorem zero_of_square (m : Nat) (r : ℝ[X]) (h : Spec.Zany.integral 0 1 (X ^ m * (1 - X) ^ m * r * r) = 0) : r = 0 := by
  by_contra hr
  rw [integral_interval] at h
  have hinf : (Set.Ioo (0 : ℝ) 1).Infinite := Set.Ioo_infinite (by norm_num)
  obtain ⟨x, hx, hxr⟩ := hinf.exists_notMem_finset r.roots.toFinset
  have hxr : r.eval x ≠ 0 := by
    intro h0
    exact hxr (by simp [hr, h0])
  have hlt := intervalIntegral.integral_lt_integral_of_continuousOn_of_le_of_exists_lt (a := (0 : ℝ)) (b := 1)
    (f := fun _ => 0) (g := fun x => (X ^ m * (1 - X) ^ m * r * r : ℝ[X]).eval x) (by norm_num)
    (by fun_prop) (Polynomial.continuous _).continuousOn ?_ ⟨x, ⟨hx.1.le, hx.2.le⟩, ?_⟩
  · rw [h] at hlt
    simp at hlt
  · intro y hy
    simp only [eval_mul, eval_pow, eval_X, eval_sub, eval_one]
    rw [mul_assoc]
    exact mul_nonneg (mul_nonneg (pow_nonneg hy.1.le _) (pow_nonneg (by linarith [hy.2]) _)) (mul_self_nonneg _)
  · simp only [eval_mul, eval_pow, eval_X, eval_sub, eval_one]
    rw [mul_assoc]
    exact mul_pos (mul_pos (pow_pos hx.1 _) (pow_pos (by linarith [hx.2]) _)) (mul_self_pos.2 hxr)

variable {K : Type} [Field K]

theorem integral_map [Algebra K ℝ] (p : K[X]) :
    Spec.Zany.integral 0 1 (p.map (algebraMap K ℝ)) = algebraMap K ℝ (Spec.Zany.integral 0 1 p) := by
  induction p using Polynomial.induction_on' with
  | add p q hp hq => rw [Polynomial.map_add, integral_add, hp, hq, integral_add, map_add]
  | monomial n c =>
    rw [map_monomial, integral_monomial, integral_monomial]
    simp

theorem zero_of_square' [Algebra K ℝ] (m : Nat) (r : K[X])
    (h : Spec.Zany.integral 0 1 (X ^ m * (1 - X) ^ m * r * r) = 0) : r = 0 := by
  have := zero_of_square m (r.map (algebraMap K ℝ)) (by
    have := integral_map (X ^ m * (1 - X) ^ m * r * r)
    rw [h, map_zero] at this
    refine Eq.trans ?_ this
    simp)
  exact (Polynomial.map_eq_zero _).1 this

/-- Roots of order `m` at both ends. -/
theorem factor_ends [CharZero K] {m : Nat} {p : K[X]} (h : ∀ k < m, (derivative^[k] p).eval 0 = 0 ∧ (derivative^[k] p).eval 1 = 0) :
    ∃ r, p = X ^ m * (1 - X) ^ m * r := by
  by_cases hp : p = 0
  · exact ⟨0, by simp [hp]⟩
  cases m with
  | zero => exact ⟨p, by simp⟩
  | succ m =>
    have h0 : (X - C 0 : K[X]) ^ (m + 1) ∣ p := by
      rw [← le_rootMultiplicity_iff hp]
      exact (lt_rootMultiplicity_iff_isRoot_iterate_derivative hp).2 fun k hk => (h k (by omega)).1
    have h1 : (X - C 1 : K[X]) ^ (m + 1) ∣ p := by
      rw [← le_rootMultiplicity_iff hp]
      exact (lt_rootMultiplicity_iff_isRoot_iterate_derivative hp).2 fun k hk => (h k (by omega)).2
    have hcop : IsCoprime ((X - C 0 : K[X]) ^ (m + 1)) ((X - C 1) ^ (m + 1)) :=
      IsCoprime.pow (isCoprime_X_sub_C_of_isUnit_sub (by norm_num))
    obtain ⟨r, hr⟩ := hcop.mul_dvd h0 h1
    refine ⟨(-1) ^ (m + 1) * r, ?_⟩
    rw [hr, show (1 - X : K[X]) = (-1) * (X - C 1) by simp, mul_pow]
    have : ((-1 : K[X]) ^ (m + 1)) * (-1) ^ (m + 1) = 1 := by rw [← mul_pow]; simp
    simp only [map_zero, sub_zero]
    linear_combination (-(X ^ (m + 1) * (X - C 1) ^ (m + 1) * r)) * this

theorem zero_of_moments [CharZero K] [Algebra K ℝ] {m q : Nat} {p : K[X]} (hdeg : p.natDegree < 2 * m + q)
    (h : ∀ k < m, (derivative^[k] p).eval 0 = 0 ∧ (derivative^[k] p).eval 1 = 0)
    (hw : ∀ w : K[X], w.natDegree < q → Spec.Zany.integral 0 1 (p * w) = 0) : p = 0 := by
  obtain ⟨r, hr⟩ := factor_ends h
  by_contra hp
  have hr0 : r ≠ 0 := by rintro rfl; exact hp (by simp [hr])
  have h1 : (1 - X : K[X]).natDegree = 1 := by
    rw [show (1 - X : K[X]) = -(X - C 1) by simp, natDegree_neg, natDegree_X_sub_C]
  have h1' : (1 - X : K[X]) ≠ 0 := by rintro h; rw [h] at h1; simp at h1
  have hd : p.natDegree = m + m + r.natDegree := by
    rw [hr, natDegree_mul (mul_ne_zero (pow_ne_zero _ X_ne_zero) (pow_ne_zero _ h1')) hr0,
      natDegree_mul (pow_ne_zero _ X_ne_zero) (pow_ne_zero _ h1'), natDegree_pow, natDegree_pow, natDegree_X, h1]
    ring
  refine hr0 (zero_of_square' m r ?_)
  rw [← hr]
  exact hw r (by omega)

/-- Moments against polynomials of all degrees below `n`. -/
theorem all_moments {p : K[X]} {B : Nat → K[X]} : ∀ n : Nat, (∀ k < n, B k ≠ 0 ∧ (B k).natDegree = k) →
    (∀ k < n, Spec.Zany.integral 0 1 (p * B k) = 0) → ∀ w : K[X], w.natDegree < n → Spec.Zany.integral 0 1 (p * w) = 0
  | 0, _, _, w, h => by omega
  | n + 1, hB, hI, w, hw => by
    have ih := all_moments (p := p) n (fun k hk => hB k (by omega)) (fun k hk => hI k (by omega))
    obtain ⟨hne, hdeg⟩ := hB n (by omega)
    have hlc : (B n).coeff n ≠ 0 := by
      have := leadingCoeff_ne_zero.2 hne
      rw [leadingCoeff, hdeg] at this
      exact this
    set c := w.coeff n / (B n).coeff n with hc
    have hsplit : w = (w - C c * B n) + C c * B n := by ring
    have hcoef : (w - C c * B n).coeff n = 0 := by
      rw [coeff_sub, coeff_C_mul, hc, div_mul_cancel₀ _ hlc, sub_self]
    have hle : (w - C c * B n).natDegree ≤ n := by
      refine (natDegree_sub_le _ _).trans (max_le (by omega) ((natDegree_C_mul_le _ _).trans hdeg.le))
    rw [hsplit, mul_add, integral_add, show p * (C c * B n) = C c * (p * B n) by ring, integral_C_mul, hI n (by omega),
      mul_zero, add_zero]
    cases n with
    | zero =>
      have : w - C c * B 0 = 0 := by
        rw [eq_C_of_natDegree_le_zero hle, hcoef, map_zero]
      rw [this, mul_zero, integral_zero]
    | succ n =>
      refine ih _ ?_
      rcases Nat.lt_or_ge (w - C c * B (n + 1)).natDegree (n + 1) with h | h
      · exact h
      · have heq : (w - C c * B (n + 1)).natDegree = n + 1 := by omega
        have : w - C c * B (n + 1) = 0 := leadingCoeff_eq_zero.1 (by rw [leadingCoeff, heq, hcoef])
        rw [this]
        simp

theorem jacobi_natDegree [CharZero K] (a k : Nat) : (jacobi a k : K[X]) ≠ 0 ∧ (jacobi a k : K[X]).natDegree = k := by
  have hmon : ∀ i ∈ Finset.range (k + 1), ((X - 1 : K[X]) ^ i * X ^ (k - i)).Monic ∧
      ((X - 1 : K[X]) ^ i * X ^ (k - i)).natDegree = k := by
    intro i hi
    have hi : i ≤ k := by simpa [Nat.lt_succ_iff] using hi
    have h1 : (X - 1 : K[X]).Monic := monic_X_sub_C 1
    refine ⟨(h1.pow i).mul (monic_X_pow _), ?_⟩
    rw [(h1.pow i).natDegree_mul (monic_X_pow _), h1.natDegree_pow, natDegree_X_pow,
      show (X - 1 : K[X]).natDegree = 1 from natDegree_X_sub_C 1]
    omega
  have hle : (jacobi a k : K[X]).natDegree ≤ k := by
    unfold jacobi
    refine natDegree_sum_le_of_forall_le _ _ fun i hi => ?_
    rw [mul_assoc]
    exact (natDegree_C_mul_le _ _).trans (hmon i hi).2.le
  have hcoef : (jacobi a k : K[X]).coeff k ≠ 0 := by
    have he : (jacobi a k : K[X]).coeff k =
        ((∑ i ∈ Finset.range (k + 1), (k + a).choose (k - i) * (k + a).choose i : Nat) : K) := by
      unfold jacobi
      rw [finsetSum_coeff, Nat.cast_sum]
      refine Finset.sum_congr rfl fun i hi => ?_
      rw [mul_assoc, coeff_C_mul]
      have := (hmon i hi).1.leadingCoeff
      rw [leadingCoeff, (hmon i hi).2] at this
      rw [this, mul_one]
    rw [he, Nat.cast_ne_zero]
    refine (Finset.sum_pos (fun i hi => ?_) ⟨0, by simp⟩).ne'
    have hi : i ≤ k := by simpa [Nat.lt_succ_iff] using hi
    exact Nat.mul_pos (Nat.choose_pos (by omega)) (Nat.choose_pos (by omega))
  refine ⟨fun h => ?_, le_antisymm hle (le_natDegree_of_ne_zero hcoef)⟩
  rw [h] at hcoef
  simp at hcoef

theorem jacobi_derivative [CharZero K] (a k : Nat) : derivative (jacobi a (k + 1) : K[X]) ≠ 0 ∧
    (derivative (jacobi a (k + 1) : K[X])).natDegree = k := by
  obtain ⟨-, hd⟩ := jacobi_natDegree (K := K) a (k + 1)
  have h : (derivative (jacobi a (k + 1) : K[X])).natDegree = k := by
    rw [natDegree_derivative, hd]
    omega
  refine ⟨fun h0 => ?_, h⟩
  have := derivative_eq_zero.1 h0
  omega

/-- A polynomial of degree four with double roots at both ends is determined by its value in the middle. -/
theorem zero_of_midpoint [CharZero K] {p : K[X]} (hdeg : p.natDegree ≤ 4)
    (h : ∀ k < 2, (derivative^[k] p).eval 0 = 0 ∧ (derivative^[k] p).eval 1 = 0) (hm : p.eval (1 / 2) = 0) : p = 0 := by
  obtain ⟨r, hr⟩ := factor_ends h
  by_contra hp
  have hr0 : r ≠ 0 := by rintro rfl; exact hp (by simp [hr])
  have h1 : (1 - X : K[X]).natDegree = 1 := by
    rw [show (1 - X : K[X]) = -(X - C 1) by simp, natDegree_neg, natDegree_X_sub_C]
  have h1' : (1 - X : K[X]) ≠ 0 := by rintro h; rw [h] at h1; simp at h1
  have hd : p.natDegree = 2 + 2 + r.natDegree := by
    rw [hr, natDegree_mul (mul_ne_zero (pow_ne_zero _ X_ne_zero) (pow_ne_zero _ h1')) hr0,
      natDegree_mul (pow_ne_zero _ X_ne_zero) (pow_ne_zero _ h1'), natDegree_pow, natDegree_pow, natDegree_X, h1]
  have hc := eq_C_of_natDegree_le_zero (p := r) (by omega)
  rw [hr, hc] at hm
  simp only [eval_mul, eval_pow, eval_X, eval_sub, eval_one, eval_C] at hm
  have : (1 - 1 / 2 : K) = 1 / 2 := by ring
  rw [this] at hm
  have hz : r.coeff 0 = 0 := by
    by_contra hne
    exact mul_ne_zero (mul_ne_zero (pow_ne_zero _ (by norm_num)) (pow_ne_zero _ (by norm_num))) hne hm
  exact hr0 (by rw [hc, hz, map_zero])

theorem trace_monomial {d : Nat} (x₀ x₁ : Nat → K) (s : Fin d →₀ ℕ) (a : K) :
    (trace x₀ x₁ (MvPolynomial.monomial s a)).natDegree ≤ s.sum fun _ e => e := by
  unfold trace
  rw [MvPolynomial.aeval_monomial, Polynomial.algebraMap_eq]
  refine (natDegree_C_mul_le _ _).trans ?_
  unfold Finsupp.prod Finsupp.sum
  refine (natDegree_prod_le _ _).trans (Finset.sum_le_sum fun i _ => ?_)
  refine natDegree_pow_le_of_le _ ?_ |>.trans (by rw [mul_one])
  rw [add_comm, mul_comm]
  exact natDegree_linear_le

theorem trace_degree {d : Nat} (x₀ x₁ : Nat → K) (f : MvPolynomial (Fin d) K) :
    (trace x₀ x₁ f).natDegree ≤ f.totalDegree := by
  conv_lhs => rw [← MvPolynomial.support_sum_monomial_coeff f, map_sum]
  exact natDegree_sum_le_of_forall_le _ _ fun s hs =>
    (trace_monomial x₀ x₁ s _).trans (MvPolynomial.le_totalDegree hs)

theorem trace_pderiv {d : Nat} (x₀ x₁ : Nat → K) (i : Fin d) (f : MvPolynomial (Fin d) K) :
    (trace x₀ x₁ (MvPolynomial.pderiv i f)).natDegree ≤ f.totalDegree - 1 := by
  conv_lhs => rw [← MvPolynomial.support_sum_monomial_coeff f, map_sum, map_sum]
  refine natDegree_sum_le_of_forall_le _ _ fun s hs => ?_
  rw [MvPolynomial.pderiv_monomial]
  by_cases h0 : s i = 0
  · simp [h0]
  refine (trace_monomial x₀ x₁ _ _).trans ?_
  have h1 := MvPolynomial.le_totalDegree hs
  have h2 : (s.sum fun _ e => e) = ((s - Finsupp.single i 1).sum fun _ e => e) + 1 := by
    conv_lhs => rw [show s = (s - Finsupp.single i 1) + Finsupp.single i 1 from
      (tsub_add_cancel_of_le (by simpa using Nat.one_le_iff_ne_zero.2 h0)).symm]
    rw [Finsupp.sum_add_index' (fun _ => rfl) (fun _ _ _ => rfl)]
    simp
  omega

theorem trace_along {d : Nat} (x₀ x₁ u : Nat → K) (f : MvPolynomial (Fin d) K) :
    (trace x₀ x₁ (along u f)).natDegree ≤ f.totalDegree - 1 := by
  unfold along
  rw [map_sum]
  refine natDegree_sum_le_of_forall_le _ _ fun i _ => ?_
  rw [map_mul, show trace x₀ x₁ (MvPolynomial.C (u i)) = C (u i) by simp [trace]]
  exact (natDegree_C_mul_le _ _).trans (trace_pderiv _ _ _ _)

end FInAT.Zany
