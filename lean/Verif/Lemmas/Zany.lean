import Verif.Spec.Zany
import Mathlib.LinearAlgebra.Matrix.NonsingularInverse
import Mathlib.Tactic.Ring
import Mathlib.Tactic.FieldSimp
import Mathlib.Tactic.LinearCombination

/-!
# Chain rule, integration along edges, nodality
-/

namespace FInAT.Spec.Zany

open MvPolynomial Finset

variable {K : Type} [Field K] {d : Nat}

theorem value_pull (J : Nat → Nat → K) (b x : Nat → K) (f : MvPolynomial (Fin d) K) :
    value x (pull J b f) = value (mapPoint d J b x) f := by
  have : (value x).comp (pull J b) = value (d := d) (mapPoint d J b x) := by
    ext i
    simp [value, pull, mapPoint, Finset.sum_range]
  exact DFunLike.congr_fun this f

theorem pderiv_pull (J : Nat → Nat → K) (b : Nat → K) (j : Fin d) (f : MvPolynomial (Fin d) K) :
    pderiv j (pull J b f) = ∑ i : Fin d, C (J i j) * pull J b (pderiv i f) := by
  induction f using MvPolynomial.induction_on with
  | C a => simp [pull, algebraMap_eq]
  | add p q hp hq => simp only [map_add, hp, hq, mul_add, Finset.sum_add_distrib]
  | mul_X p n hp =>
    rw [map_mul, pderiv_mul, hp]
    have h1 : pderiv j (pull J b (X n)) = C (J n j) := by
      simp only [pull, aeval_X, map_add, pderiv_C, zero_add, map_sum, pderiv_mul, pderiv_X, zero_mul]
      rw [Finset.sum_eq_single j]
      · simp
      · intro k _ hk; simp [Pi.single_eq_of_ne hk]
      · simp
    rw [h1]
    simp only [pderiv_mul, pderiv_X, map_add, map_mul, mul_add, Finset.sum_add_distrib]
    congr 1
    · rw [Finset.sum_mul]
      exact Finset.sum_congr rfl fun i _ => by ring
    · rw [Finset.sum_eq_single n]
      · simp [mul_comm]
      · intro k _ hk; simp [Pi.single_eq_of_ne (Ne.symm hk)]
      · simp

theorem D_pull (J : Nat → Nat → K) (b : Nat → K) (j : Nat) (hj : j < d) (f : MvPolynomial (Fin d) K) :
    D j (pull J b f) = ∑ i ∈ range d, C (J i j) * pull J b (D i f) := by
  simp only [D, hj, dif_pos, pderiv_pull, Finset.sum_range, Fin.is_lt]

theorem D_add (i : Nat) (f g : MvPolynomial (Fin d) K) : D i (f + g) = D i f + D i g := by
  unfold D; split <;> simp

theorem D_zero (i : Nat) : D i (0 : MvPolynomial (Fin d) K) = 0 := by
  unfold D; split <;> simp

theorem D_C_mul (i : Nat) (c : K) (f : MvPolynomial (Fin d) K) : D i (C c * f) = C c * D i f := by
  unfold D; split <;> simp

theorem D_smul (i : Nat) (c : K) (f : MvPolynomial (Fin d) K) : D i (c • f) = c • D i f := by
  rw [smul_eq_C_mul, D_C_mul, smul_eq_C_mul]

theorem D_sum {ι : Type} (s : Finset ι) (i : Nat) (f : ι → MvPolynomial (Fin d) K) :
    D i (∑ a ∈ s, f a) = ∑ a ∈ s, D i (f a) := by
  classical
  induction s using Finset.induction_on with
  | empty => simp [D_zero]
  | insert a s ha ih => rw [Finset.sum_insert ha, Finset.sum_insert ha, D_add, ih]

theorem D_comm (i j : Nat) (f : MvPolynomial (Fin d) K) : D i (D j f) = D j (D i f) := by
  unfold D
  by_cases hi : i < d <;> by_cases hj : j < d
  · simp only [hi, hj, dif_pos]
    induction f using MvPolynomial.induction_on with
    | C a => simp
    | add p q hp hq => simp [hp, hq]
    | mul_X p n hp =>
      simp only [pderiv_mul, map_add, pderiv_X]
      rw [hp]
      have hc : ∀ (k l : Fin d) , pderiv k ((Pi.single l 1 : Fin d → MvPolynomial (Fin d) K) n) = 0 := by
        intro k l
        by_cases h : n = l
        · subst h; simp
        · rw [Pi.single_eq_of_ne h]; simp
      rw [hc, hc]
      ring
  all_goals simp [hi, hj]

theorem value_D_pull (J : Nat → Nat → K) (b x : Nat → K) (j : Nat) (hj : j < d)
    (f : MvPolynomial (Fin d) K) :
    value x (D j (pull J b f)) = ∑ i ∈ range d, J i j * value (mapPoint d J b x) (D i f) := by
  rw [D_pull J b j hj, map_sum]
  refine Finset.sum_congr rfl fun i _ => ?_
  rw [map_mul, value_pull]
  simp [value]

theorem value_DD_pull (J : Nat → Nat → K) (b x : Nat → K) (i j : Nat) (hi : i < d) (hj : j < d)
    (f : MvPolynomial (Fin d) K) :
    value x (D i (D j (pull J b f))) =
      ∑ m ∈ range d, ∑ n ∈ range d, J m i * J n j * value (mapPoint d J b x) (D m (D n f)) := by
  rw [D_pull J b j hj, D_sum, map_sum, Finset.sum_comm]
  refine Finset.sum_congr rfl fun n _ => ?_
  rw [D_C_mul, map_mul, value_D_pull J b x i hi, Finset.mul_sum]
  refine Finset.sum_congr rfl fun m _ => ?_
  have : value x (C (J n j) : MvPolynomial (Fin d) K) = J n j := by simp [value]
  rw [this]; ring

theorem along_eq (u : Nat → K) (f : MvPolynomial (Fin d) K) :
    along u f = ∑ i ∈ range d, C (u i) * D i f := by
  simp only [along, D, Finset.sum_range, Fin.is_lt, dif_pos]

theorem along_pull (J : Nat → Nat → K) (b u : Nat → K) (f : MvPolynomial (Fin d) K) :
    along u (pull J b f) = pull J b (along (fun i => ∑ j ∈ range d, J i j * u j) f) := by
  have hC : ∀ c : K, pull (d := d) J b (C c) = C c := fun c => by simp [pull, algebraMap_eq]
  simp only [along, pderiv_pull, map_sum, map_mul, hC, Finset.mul_sum]
  rw [Finset.sum_comm]
  refine Finset.sum_congr rfl fun i _ => ?_
  rw [Finset.sum_range]
  simp only [Finset.sum_mul]
  exact Finset.sum_congr rfl fun j _ => by ring

theorem trace_pull (J : Nat → Nat → K) (b x₀ x₁ : Nat → K) (f : MvPolynomial (Fin d) K) :
    trace x₀ x₁ (pull J b f) = trace (mapPoint d J b x₀) (mapPoint d J b x₁) f := by
  have : (trace x₀ x₁).comp (pull J b) = trace (d := d) (mapPoint d J b x₀) (mapPoint d J b x₁) := by
    ext1 i
    simp only [AlgHom.comp_apply, pull, trace, aeval_X, map_add, map_sum, map_mul, mapPoint,
      Finset.sum_range]
    simp only [algHom_C, Polynomial.algebraMap_eq, map_add, map_sum, map_mul, map_sub, mul_add,
      Finset.sum_add_distrib, mul_sub, Finset.sum_sub_distrib, Finset.mul_sum]
    rw [add_assoc]
    congr 1
    congr 1
    rw [add_sub_add_left_eq_sub]
    congr 1 <;> exact Finset.sum_congr rfl fun j _ => by ring
  exact DFunLike.congr_fun this f

/-- Along an edge the derivative of the trace is the trace of the tangential derivative. -/
theorem derivative_trace (x₀ x₁ : Nat → K) (f : MvPolynomial (Fin d) K) :
    Polynomial.derivative (trace x₀ x₁ f) = trace x₀ x₁ (along (fun i => x₁ i - x₀ i) f) := by
  have htC : ∀ c : K, trace (d := d) x₀ x₁ (C c) = Polynomial.C c := fun c => by
    simp [trace]
  induction f using MvPolynomial.induction_on with
  | C a => simp [along, htC]
  | add p q hp hq => simp only [map_add, hp, hq, along, mul_add, Finset.sum_add_distrib]
  | mul_X p n hp =>
    rw [map_mul, Polynomial.derivative_mul, hp]
    have h1 : Polynomial.derivative (trace x₀ x₁ (X n : MvPolynomial (Fin d) K)) =
        Polynomial.C (x₁ n - x₀ n) := by
      simp [trace]
    rw [h1]
    simp only [along, pderiv_mul, pderiv_X, mul_add, map_add, Finset.sum_add_distrib]
    congr 1
    · rw [map_sum, map_sum, Finset.sum_mul]
      exact Finset.sum_congr rfl fun i _ => by simp only [map_mul]; ring
    · rw [map_sum, Finset.sum_eq_single n]
      · simp [htC, mul_comm]
      · intro k _ hk; simp [Pi.single_eq_of_ne (Ne.symm hk)]
      · simp

theorem eval_trace_zero (x₀ x₁ : Nat → K) (f : MvPolynomial (Fin d) K) :
    (trace x₀ x₁ f).eval 0 = value x₀ f := by
  have : (Polynomial.aeval (0 : K)).comp (trace x₀ x₁) = value (d := d) x₀ := by
    ext i; simp [trace, value]
  have := DFunLike.congr_fun this f
  simpa [Polynomial.aeval_def, Polynomial.eval₂_eq_eval_map] using this

theorem eval_trace_one (x₀ x₁ : Nat → K) (f : MvPolynomial (Fin d) K) :
    (trace x₀ x₁ f).eval 1 = value x₁ f := by
  have : (Polynomial.aeval (1 : K)).comp (trace x₀ x₁) = value (d := d) x₁ := by
    ext i; simp [trace, value]
  have := DFunLike.congr_fun this f
  simpa [Polynomial.aeval_def, Polynomial.eval₂_eq_eval_map] using this

theorem integral_add (a b : K) (p q : Polynomial K) :
    integral a b (p + q) = integral a b p + integral a b q :=
  Polynomial.sum_add_index p q _ (fun n => by simp) (fun n x y => by ring)

theorem integral_zero (a b : K) : integral a b (0 : Polynomial K) = 0 := Polynomial.sum_zero_index _

theorem integral_C_mul (a b c : K) (p : Polynomial K) :
    integral a b (Polynomial.C c * p) = c * integral a b p := by
  unfold integral
  rw [← Polynomial.smul_eq_C_mul, Polynomial.sum_smul_index _ _ _ (fun n => by simp)]
  simp only [Polynomial.sum, Finset.mul_sum]
  exact Finset.sum_congr rfl fun n _ => by ring

theorem integral_neg (a b : K) (p : Polynomial K) : integral a b (-p) = - integral a b p := by
  have := integral_C_mul a b (-1) p
  simpa using this

theorem integral_sub (a b : K) (p q : Polynomial K) :
    integral a b (p - q) = integral a b p - integral a b q := by
  rw [sub_eq_add_neg, integral_add, integral_neg, ← sub_eq_add_neg]

theorem integral_monomial (a b c : K) (n : Nat) :
    integral a b (Polynomial.monomial n c) = c * (b ^ (n + 1) - a ^ (n + 1)) / (n + 1) :=
  Polynomial.sum_monomial_index c _ (by simp)

/-- Fundamental theorem of calculus for polynomials. -/
theorem integral_derivative [CharZero K] (a b : K) (p : Polynomial K) :
    integral a b (Polynomial.derivative p) = p.eval b - p.eval a := by
  induction p using Polynomial.induction_on' with
  | add p q hp hq => rw [map_add, integral_add, hp, hq]; simp; ring
  | monomial n c =>
    rw [Polynomial.derivative_monomial, integral_monomial]
    cases n with
    | zero => simp
    | succ n =>
      have : (n : K) + 1 ≠ 0 := by exact_mod_cast Nat.succ_ne_zero n
      simp
      field_simp

/-- Integration by parts. -/
theorem integral_by_parts [CharZero K] (a b : K) (p q : Polynomial K) :
    integral a b (Polynomial.derivative p * q) =
      p.eval b * q.eval b - p.eval a * q.eval a - integral a b (p * Polynomial.derivative q) := by
  have := integral_derivative a b (p * q)
  rw [Polynomial.derivative_mul, integral_add, Polynomial.eval_mul, Polynomial.eval_mul] at this
  rw [← this]; ring

theorem jacobi_one (a k : Nat) : (jacobi a k : Polynomial K).eval 1 = ((k + a).choose k : Nat) := by
  unfold jacobi
  rw [Polynomial.eval_finsetSum, Finset.sum_eq_single 0]
  · simp
  · intro i _ hi; simp [hi]
  · simp

theorem jacobi_zero (a k : Nat) :
    (jacobi a k : Polynomial K).eval 0 = (-1) ^ k * ((k + a).choose k : Nat) := by
  unfold jacobi
  rw [Polynomial.eval_finsetSum, Finset.sum_eq_single k]
  · simp; ring
  · intro i hi hk
    have : k - i ≠ 0 := by rw [Finset.mem_range] at hi; omega
    simp [this]
  · simp

/-- If the reference degrees of freedom of a pulled back function are the combinations with matrix `V` of
its physical ones, the transpose of `V` turns a basis that is nodal on the reference cell into one that
is nodal on the physical cell. -/
theorem nodal_transpose {F G : Type} [AddCommGroup F] [Module K F] (N : Nat) (V : Nat → Nat → K)
    (ℓ : Nat → F → K) (hlin : ∀ k, IsLinearMap K (ℓ k)) (ℓ' : Nat → G → K) (p : F → G) (φ : Nat → F)
    (hrow : ∀ i < N, ∀ j < N, ℓ' i (p (φ j)) = ∑ k ∈ range N, V i k * ℓ k (φ j))
    (hn : Nodal N ℓ' (fun j => p (φ j))) :
    Nodal N ℓ (fun i => ∑ j ∈ range N, V j i • φ j) := by
  let A : Matrix (Fin N) (Fin N) K := Matrix.of fun i k => V i k
  let B : Matrix (Fin N) (Fin N) K := Matrix.of fun k j => ℓ k (φ j)
  have hAB : A * B = 1 := by
    funext i j
    rw [Matrix.mul_apply, Matrix.one_apply]
    have h1 := hrow i i.2 j j.2
    rw [hn i i.2 j j.2, Finset.sum_range] at h1
    simp only [A, B, Matrix.of_apply]
    rw [← h1]
    simp [Fin.ext_iff]
  have hBA : B * A = 1 := mul_eq_one_comm.1 hAB
  intro k hk i hi
  have h2 := congrFun (congrFun hBA ⟨k, hk⟩) ⟨i, hi⟩
  rw [Matrix.mul_apply, Matrix.one_apply] at h2
  have h3 : ℓ k (∑ j ∈ range N, V j i • φ j) = ∑ j ∈ range N, V j i * ℓ k (φ j) := by
    refine (map_sum (hlin k).mk' (fun j => V j i • φ j) (range N)).trans ?_
    exact Finset.sum_congr rfl fun j _ => (hlin k).map_smul _ _
  rw [h3, Finset.sum_range]
  simp only [A, B, Matrix.of_apply, Fin.mk.injEq] at h2
  rw [← h2]
  exact Finset.sum_congr rfl fun j _ => by ring

end FInAT.Spec.Zany
