import Verif.Lemmas.ZanyNodal

/-!
# Edge rows that use jets only: Bell, point variant of Argyris, reduced Hsieh-Clough-Tocher
-/

namespace FInAT.Zany

open Finset FInAT.Piola FInAT.Spec.Zany

variable {K : Type} [Field K]

/-- A row after a sequence of writes. -/
def writes (l : List (Nat × K)) (r : Nat → K) : Nat → K :=
  l.foldl (fun r p => Function.update r p.1 p.2) r

theorem act_writes (N : Nat) (n : Nat → K) (l : List (Nat × K)) (r : Nat → K)
    (hnd : (l.map Prod.fst).Nodup) (hr : ∀ p ∈ l, r p.1 = 0) (hN : ∀ p ∈ l, p.1 < N) :
    act N (writes l r) n = act N r n + (l.map fun p => p.2 * n p.1).sum := by
  unfold writes
  induction l generalizing r with
  | nil => simp
  | cons p l ih =>
    rw [List.map_cons, List.nodup_cons] at hnd
    rw [List.foldl_cons, ih _ hnd.2, act_update _ _ _ _ _ (hN p (by simp)), hr p (by simp)]
    · rw [List.map_cons, List.sum_cons]; ring
    · intro x hx
      rw [Function.update_of_ne, hr x (List.mem_cons_of_mem _ hx)]
      intro he
      exact hnd.1 (he ▸ List.mem_map_of_mem hx)
    · exact fun x hx => hN x (List.mem_cons_of_mem _ hx)

/-- What `jetRow2` writes. -/
def jetWrites2 (v0id v1id : Nat) (c0 c1 c2 Bnt : K) (Jt : NVec K) : List (Nat × K) :=
  [(v1id, c0 * Bnt), (v0id, -1 * (c0 * Bnt)),
   (v1id + 1, c1 * Bnt * Jt 0), (v0id + 1, c1 * Bnt * Jt 0),
   (v1id + 2, c1 * Bnt * Jt 1), (v0id + 2, c1 * Bnt * Jt 1),
   (v1id + 3, c2 * Bnt * (Jt 0 * Jt 0)), (v0id + 3, -1 * (c2 * Bnt * (Jt 0 * Jt 0))),
   (v1id + 4, c2 * Bnt * (2 * Jt 0 * Jt 1)), (v0id + 4, -1 * (c2 * Bnt * (2 * Jt 0 * Jt 1))),
   (v1id + 5, c2 * Bnt * (Jt 1 * Jt 1)), (v0id + 5, -1 * (c2 * Bnt * (Jt 1 * Jt 1)))]

theorem jetRow2_get (s v0id v1id : Nat) (c0 c1 c2 Bnt : K) (Jt : NVec K) (V : Arr K) (a : Nat) :
    (jetRow2 s v0id v1id 2 c0 c1 c2 Bnt Jt V).get a =
      if a = s then writes (jetWrites2 v0id v1id c0 c1 c2 Bnt Jt) (V.get a) else V.get a := by
  by_cases h : a = s
  · subst h
    simp [jetRow2, Arr.set, List.range, List.range.loop, writes, jetWrites2, vec, Nat.add_assoc]
  · simp [jetRow2, Arr.set, List.range, List.range.loop, h]

theorem act_jetWrites2 (N v0id v1id : Nat) (c0 c1 c2 Bnt : K) (Jt : NVec K) (n r : Nat → K)
    (h01 : v0id + 6 ≤ v1id) (h1 : v1id + 6 ≤ N) (hr : ∀ b < v1id + 6, r b = 0) :
    act N (writes (jetWrites2 v0id v1id c0 c1 c2 Bnt Jt) r) n = act N r n + Bnt *
      (c0 * (n v1id - n v0id) + c1 * (Jt 0 * (n (v1id + 1) + n (v0id + 1)) +
        Jt 1 * (n (v1id + 2) + n (v0id + 2))) +
        c2 * (Jt 0 * Jt 0 * (n (v1id + 3) - n (v0id + 3)) + 2 * Jt 0 * Jt 1 * (n (v1id + 4) - n (v0id + 4)) +
          Jt 1 * Jt 1 * (n (v1id + 5) - n (v0id + 5)))) := by
  have hb : ∀ p ∈ jetWrites2 v0id v1id c0 c1 c2 Bnt Jt, p.1 < v1id + 6 := by
    intro p hp
    simp only [jetWrites2, List.mem_cons, List.not_mem_nil, or_false] at hp
    rcases hp with h | h | h | h | h | h | h | h | h | h | h | h <;> subst h <;> simp only [] <;> omega
  rw [act_writes]
  · simp only [jetWrites2, List.map_cons, List.map_nil, List.sum_cons, List.sum_nil]
    ring
  · simp only [jetWrites2, List.map_cons, List.map_nil, List.nodup_cons, List.mem_cons, List.not_mem_nil,
      not_or, or_false, not_false_eq_true, List.nodup_nil, and_true]
    refine ⟨?_, ?_, ?_, ?_, ?_, ?_, ?_, ?_, ?_, ?_, ?_⟩ <;> omega
  · exact fun p hp => hr _ (hb p hp)
  · exact fun p hp => lt_of_lt_of_le (hb p hp) h1

/-- What `reducedHctStep` writes. -/
def jetWrites1 (v0id v1id : Nat) (c0 c1 Bnt : K) (Jt : NVec K) : List (Nat × K) :=
  [(v0id, c0 * Bnt), (v1id, -1 * (c0 * Bnt)),
   (v1id + 1, c1 * Bnt * Jt 0), (v0id + 1, c1 * Bnt * Jt 0),
   (v1id + 2, c1 * Bnt * Jt 1), (v0id + 2, c1 * Bnt * Jt 1)]

theorem act_jetWrites1 (N v0id v1id : Nat) (c0 c1 Bnt : K) (Jt : NVec K) (n r : Nat → K)
    (h01 : v0id + 3 ≤ v1id) (h1 : v1id + 3 ≤ N) (hr : ∀ b < v1id + 3, r b = 0) :
    act N (writes (jetWrites1 v0id v1id c0 c1 Bnt Jt) r) n = act N r n + Bnt *
      (c0 * (n v0id - n v1id) + c1 * (Jt 0 * (n (v1id + 1) + n (v0id + 1)) +
        Jt 1 * (n (v1id + 2) + n (v0id + 2)))) := by
  have hb : ∀ p ∈ jetWrites1 v0id v1id c0 c1 Bnt Jt, p.1 < v1id + 3 := by
    intro p hp
    simp only [jetWrites1, List.mem_cons, List.not_mem_nil, or_false] at hp
    rcases hp with h | h | h | h | h | h <;> subst h <;> simp only [] <;> omega
  rw [act_writes]
  · simp only [jetWrites1, List.map_cons, List.map_nil, List.sum_cons, List.sum_nil]
    ring
  · simp only [jetWrites1, List.map_cons, List.map_nil, List.nodup_cons, List.mem_cons, List.not_mem_nil,
      not_or, or_false, not_false_eq_true, List.nodup_nil, and_true]
    refine ⟨?_, ?_, ?_, ?_, ?_⟩ <;> omega
  · exact fun p hp => hr _ (hb p hp)
  · exact fun p hp => lt_of_lt_of_le (hb p hp) h1

/-! ### End-point jets along an edge -/

theorem along_two (u : Nat → K) (f : MvPolynomial (Fin 2) K) :
    along u f = MvPolynomial.C (u 0) * D 0 f + MvPolynomial.C (u 1) * D 1 f := by
  rw [along_eq]; simp [Finset.sum_range_succ]

theorem value_along (x u : Nat → K) (f : MvPolynomial (Fin 2) K) :
    value x (along u f) = u 0 * value x (D 0 f) + u 1 * value x (D 1 f) := by
  have hC : ∀ c : K, value (d := 2) x (MvPolynomial.C c) = c := fun c => by simp [value]
  rw [along_two, map_add, map_mul, map_mul, hC, hC]

theorem value_along2 (x u : Nat → K) (f : MvPolynomial (Fin 2) K) :
    value x (along u (along u f)) = u 0 * u 0 * value x (D 0 (D 0 f)) +
      2 * u 0 * u 1 * value x (D 0 (D 1 f)) + u 1 * u 1 * value x (D 1 (D 1 f)) := by
  rw [value_along, along_two, D_add, D_add, D_C_mul, D_C_mul, D_C_mul, D_C_mul, D_comm 1 0]
  have hC : ∀ c : K, value (d := 2) x (MvPolynomial.C c) = c := fun c => by simp [value]
  simp only [map_add, map_mul, hC]
  ring

/-- The derivatives of the trace at the ends are the derivatives of the function along the tangent. -/
theorem on_jets (G : Tri K) (e : Nat) (f : MvPolynomial (Fin 2) K) :
    (G.on e f).eval 0 = value (G.vert (ends e).1) f ∧ (G.on e f).eval 1 = value (G.vert (ends e).2) f ∧
    (Polynomial.derivative (G.on e f)).eval 0 = value (G.vert (ends e).1) (along (G.tangent e) f) ∧
    (Polynomial.derivative (G.on e f)).eval 1 = value (G.vert (ends e).2) (along (G.tangent e) f) ∧
    (Polynomial.derivative (Polynomial.derivative (G.on e f))).eval 0 =
      value (G.vert (ends e).1) (along (G.tangent e) (along (G.tangent e) f)) ∧
    (Polynomial.derivative (Polynomial.derivative (G.on e f))).eval 1 =
      value (G.vert (ends e).2) (along (G.tangent e) (along (G.tangent e) f)) := by
  unfold Tri.on
  have hd : ∀ p : MvPolynomial (Fin 2) K, Polynomial.derivative
      (trace (G.vert (ends e).1) (G.vert (ends e).2) p) =
      trace (G.vert (ends e).1) (G.vert (ends e).2) (along (G.tangent e) p) := fun p => derivative_trace _ _ p
  rw [hd, hd]
  exact ⟨eval_trace_zero _ _ _, eval_trace_one _ _ _, eval_trace_zero _ _ _, eval_trace_one _ _ _,
    eval_trace_zero _ _ _, eval_trace_one _ _ _⟩

theorem jet_values2 (x : Nat → K) (f : MvPolynomial (Fin 2) K) :
    jet x 1 0 f = value x f ∧ jet x 1 1 f = value x (D 0 f) ∧ jet x 1 2 f = value x (D 1 f) ∧
    jet x 1 3 f = value x (D 0 (D 0 f)) ∧ jet x 1 4 f = value x (D 0 (D 1 f)) ∧
    jet x 1 5 f = value x (D 1 (D 1 f)) := by
  refine ⟨?_, ?_, ?_, ?_, ?_, ?_⟩ <;> simp [jet, pairs, List.range, List.range.loop]

/-! ### The closed forms on polynomials of one variable -/

/-- A polynomial of degree at most `n` as a sum of its coefficients. -/
theorem eval_deg5 (p : Polynomial K) (hp : p.natDegree ≤ 5) :
    p = Polynomial.C (p.coeff 0) + Polynomial.C (p.coeff 1) * Polynomial.X +
      Polynomial.C (p.coeff 2) * Polynomial.X ^ 2 + Polynomial.C (p.coeff 3) * Polynomial.X ^ 3 +
      Polynomial.C (p.coeff 4) * Polynomial.X ^ 4 + Polynomial.C (p.coeff 5) * Polynomial.X ^ 5 := by
  conv_lhs => rw [p.as_sum_range_C_mul_X_pow' (n := 6) (by omega)]
  simp [Finset.sum_range_succ]

theorem argyris_midpoint [CharZero K] (p : Polynomial K) (hp : p.natDegree ≤ 5) :
    (Polynomial.derivative p).eval (1 / 2) = 15 / 8 * (p.eval 1 - p.eval 0) -
      7 / 16 * ((Polynomial.derivative p).eval 1 + (Polynomial.derivative p).eval 0) +
      1 / 32 * ((Polynomial.derivative (Polynomial.derivative p)).eval 1 -
        (Polynomial.derivative (Polynomial.derivative p)).eval 0) := by
  rw [eval_deg5 p hp]
  generalize p.coeff 0 = a0; generalize p.coeff 1 = a1; generalize p.coeff 2 = a2
  generalize p.coeff 3 = a3; generalize p.coeff 4 = a4; generalize p.coeff 5 = a5
  simp
  ring

theorem integral_X_pow (n : Nat) : integral (0 : K) 1 (Polynomial.X ^ n) = 1 / (n + 1) := by
  have := integral_monomial (0 : K) 1 1 n
  rw [Polynomial.monomial_one_right_eq_X_pow] at this
  rw [this]
  simp

theorem legendre4 : (jacobi 0 4 : Polynomial K) = Polynomial.C 70 * Polynomial.X ^ 4 -
    Polynomial.C 140 * Polynomial.X ^ 3 + Polynomial.C 90 * Polynomial.X ^ 2 - Polynomial.C 20 * Polynomial.X +
    1 := by
  simp only [jacobi, Finset.sum_range_succ, Finset.sum_range_zero]
  simp [show Nat.choose 4 2 = 6 from rfl]
  simp only [map_ofNat]
  ring

theorem legendre2 : (jacobi 0 2 : Polynomial K) = Polynomial.C 6 * Polynomial.X ^ 2 -
    Polynomial.C 6 * Polynomial.X + 1 := by
  simp only [jacobi, Finset.sum_range_succ, Finset.sum_range_zero]
  simp
  simp only [map_ofNat]
  ring

theorem integral_legendre4 (m : Nat) : integral (0 : K) 1 (Polynomial.X ^ m * jacobi 0 4) =
    70 / (m + 5) - 140 / (m + 4) + 90 / (m + 3) - 20 / (m + 2) + 1 / (m + 1) := by
  have : (Polynomial.X ^ m * jacobi 0 4 : Polynomial K) =
      Polynomial.C 70 * Polynomial.X ^ (m + 4) - Polynomial.C 140 * Polynomial.X ^ (m + 3) +
      Polynomial.C 90 * Polynomial.X ^ (m + 2) - Polynomial.C 20 * Polynomial.X ^ (m + 1) +
      Polynomial.X ^ m := by
    rw [legendre4]; ring
  rw [this]
  simp only [integral_add, integral_sub, integral_C_mul, integral_X_pow]
  push_cast
  ring_nf

theorem integral_legendre2 (m : Nat) : integral (0 : K) 1 (Polynomial.X ^ m * jacobi 0 2) =
    6 / (m + 3) - 6 / (m + 2) + 1 / (m + 1) := by
  have : (Polynomial.X ^ m * jacobi 0 2 : Polynomial K) =
      Polynomial.C 6 * Polynomial.X ^ (m + 2) - Polynomial.C 6 * Polynomial.X ^ (m + 1) +
      Polynomial.X ^ m := by
    rw [legendre2]; ring
  rw [this]
  simp only [integral_add, integral_sub, integral_C_mul, integral_X_pow]
  push_cast
  ring_nf

theorem bell_moment [CharZero K] (p : Polynomial K) (hp : p.natDegree ≤ 5) :
    integral 0 1 (Polynomial.derivative p * jacobi 0 4) = 1 / 21 * (p.eval 1 - p.eval 0) -
      1 / 42 * ((Polynomial.derivative p).eval 1 + (Polynomial.derivative p).eval 0) +
      1 / 252 * ((Polynomial.derivative (Polynomial.derivative p)).eval 1 -
        (Polynomial.derivative (Polynomial.derivative p)).eval 0) := by
  rw [eval_deg5 p hp]
  generalize p.coeff 0 = a0; generalize p.coeff 1 = a1; generalize p.coeff 2 = a2
  generalize p.coeff 3 = a3; generalize p.coeff 4 = a4; generalize p.coeff 5 = a5
  have hd : Polynomial.derivative (Polynomial.C a0 + Polynomial.C a1 * Polynomial.X +
      Polynomial.C a2 * Polynomial.X ^ 2 + Polynomial.C a3 * Polynomial.X ^ 3 +
      Polynomial.C a4 * Polynomial.X ^ 4 + Polynomial.C a5 * Polynomial.X ^ 5) * jacobi 0 4 =
      Polynomial.C a1 * (Polynomial.X ^ 0 * jacobi 0 4) + Polynomial.C (2 * a2) * (Polynomial.X ^ 1 * jacobi 0 4) +
      Polynomial.C (3 * a3) * (Polynomial.X ^ 2 * jacobi 0 4) +
      Polynomial.C (4 * a4) * (Polynomial.X ^ 3 * jacobi 0 4) +
      Polynomial.C (5 * a5) * (Polynomial.X ^ 4 * jacobi 0 4) := by
    simp
    simp only [map_ofNat]
    ring
  rw [hd]
  simp only [integral_add, integral_C_mul, integral_legendre4]
  simp
  norm_num
  ring

theorem hct_moment [CharZero K] (p : Polynomial K) (hp : p.natDegree ≤ 3) :
    integral 0 1 (Polynomial.derivative p * jacobi 0 2) = 1 / 5 * (p.eval 0 - p.eval 1) +
      1 / 10 * ((Polynomial.derivative p).eval 1 + (Polynomial.derivative p).eval 0) := by
  rw [eval_deg5 p (by omega)]
  rw [Polynomial.coeff_eq_zero_of_natDegree_lt (show p.natDegree < 4 by omega),
    Polynomial.coeff_eq_zero_of_natDegree_lt (show p.natDegree < 5 by omega)]
  generalize p.coeff 0 = a0; generalize p.coeff 1 = a1; generalize p.coeff 2 = a2
  generalize p.coeff 3 = a3
  have hd : Polynomial.derivative (Polynomial.C a0 + Polynomial.C a1 * Polynomial.X +
      Polynomial.C a2 * Polynomial.X ^ 2 + Polynomial.C a3 * Polynomial.X ^ 3 +
      Polynomial.C 0 * Polynomial.X ^ 4 + Polynomial.C 0 * Polynomial.X ^ 5) * jacobi 0 2 =
      Polynomial.C a1 * (Polynomial.X ^ 0 * jacobi 0 2) + Polynomial.C (2 * a2) * (Polynomial.X ^ 1 * jacobi 0 2) +
      Polynomial.C (3 * a3) * (Polynomial.X ^ 2 * jacobi 0 2) := by
    simp
    simp only [map_ofNat]
    ring
  rw [hd]
  simp only [integral_add, integral_C_mul, integral_legendre2]
  simp
  norm_num
  ring

end FInAT.Zany
