import Verif.Lemmas.Smooth
import Verif.Spec.SmoothSplit

/-!
# Functions on a common edge that is split in two
-/

namespace FInAT.Zany

open FInAT.Spec.Zany Polynomial

variable {K : Type} [Field K]

theorem two_terms {p : K[X]} (h : p.natDegree ≤ 1) : p = C (p.coeff 1) * X + C (p.coeff 0) := by
  refine (Polynomial.eq_X_add_C_of_natDegree_le_one h)

theorem three_terms {p : K[X]} (h : p.natDegree ≤ 2) : p = C (p.coeff 2) * X ^ 2 + C (p.coeff 1) * X + C (p.coeff 0) := by
  conv_lhs => rw [p.as_sum_range_C_mul_X_pow' (n := 3) (by omega)]
  simp only [Finset.sum_range_succ, Finset.sum_range_zero]
  simp
  ring

theorem zero_of_knot [CharZero K] {p q : K[X]} {t : K} (ht : t ≠ 0) (ht' : t ≠ 1) (hp : p.natDegree ≤ 2)
    (hq : q.natDegree ≤ 2) (p0 : p.eval 0 = 0) (p1 : (derivative p).eval 0 = 0) (q0 : q.eval 1 = 0)
    (q1 : (derivative q).eval 1 = 0) (h : p.eval t = q.eval t) (h' : (derivative p).eval t = (derivative q).eval t) :
    p = 0 ∧ q = 0 := by
  have ep := three_terms hp
  have eq := three_terms hq
  generalize p.coeff 0 = a0 at *
  generalize p.coeff 1 = a1 at *
  generalize p.coeff 2 = a2 at *
  generalize q.coeff 0 = b0 at *
  generalize q.coeff 1 = b1 at *
  generalize q.coeff 2 = b2 at *
  subst ep eq
  simp at p0 p1 q0 q1 h h'
  subst p0 p1
  have e1 : b1 = -2 * b2 := by linear_combination q1
  have e0 : b0 = b2 := by linear_combination q0 - q1
  subst e1 e0
  have h2 : (2 : K) ≠ 0 := two_ne_zero
  have k1 : a2 * t = b0 * (t - 1) := mul_left_cancel₀ h2 (by linear_combination h')
  have k2 : b0 * (t - 1) = 0 := by linear_combination h - t * k1
  have k3 : b0 = 0 := (mul_eq_zero.1 k2).resolve_right (sub_ne_zero.2 ht')
  subst k3
  have k4 : a2 = 0 := (mul_eq_zero.1 (by simpa using k1)).resolve_right ht
  subst k4
  simp

theorem integral_linear [CharZero K] (a b c d : K) : Spec.Zany.integral a b (C c * X + C d) =
    c * (b * b - a * a) / 2 + d * (b - a) := by
  rw [integral_add, show (C c * X : K[X]) = monomial 1 c by rw [← C_mul_X_eq_monomial],
    show (C d : K[X]) = monomial 0 d from rfl, integral_monomial, integral_monomial]
  push_cast
  ring

theorem zero_of_knot_mean [CharZero K] {p q : K[X]} {t : K} (ht : t ≠ 0) (ht' : t ≠ 1) (hp : p.natDegree ≤ 1)
    (hq : q.natDegree ≤ 1) (p0 : p.eval 0 = 0) (q0 : q.eval 1 = 0) (h : p.eval t = q.eval t)
    (h' : Spec.Zany.integral 0 t p + Spec.Zany.integral t 1 q = 0) : p = 0 ∧ q = 0 := by
  have ep := two_terms hp
  have eq := two_terms hq
  generalize p.coeff 0 = a0 at *
  generalize p.coeff 1 = a1 at *
  generalize q.coeff 0 = b0 at *
  generalize q.coeff 1 = b1 at *
  subst ep eq
  rw [integral_linear, integral_linear] at h'
  simp at p0 q0 h
  subst p0
  have e0 : b0 = -b1 := by linear_combination q0
  subst e0
  have k1 : a1 * t = 0 := by
    field_simp at h'
    linear_combination h' + (1 - t) * h
  have k2 : a1 = 0 := (mul_eq_zero.1 k1).resolve_right ht
  subst k2
  have k3 : b1 * (t - 1) = 0 := by linear_combination -h
  have k4 : b1 = 0 := (mul_eq_zero.1 k3).resolve_right (sub_ne_zero.2 ht')
  subst k4
  simp

theorem zero_of_ends {p : K[X]} (hp : p.natDegree ≤ 1) (p0 : p.eval 0 = 0) (p1 : p.eval 1 = 0) : p = 0 := by
  have ep := two_terms hp
  generalize p.coeff 0 = a0 at *
  generalize p.coeff 1 = a1 at *
  subst ep
  simp at p0 p1
  subst p0
  simp at p1
  simp [p1]

theorem on_eval (G : Tri K) (e : Nat) (t : K) (f : MvPolynomial (Fin 2) K) :
    (G.on e f).eval t = value (G.point e t) f := by
  have : (Polynomial.aeval (t : K)).comp (trace (G.vert (ends e).1) (G.vert (ends e).2)) =
      value (d := 2) (G.point e t) := by
    ext i; simp [trace, value, Tri.point, Tri.tangent]
  have := DFunLike.congr_fun this f
  unfold Tri.on
  simpa [Polynomial.aeval_def, Polynomial.eval₂_eq_eval_map] using this

theorem along_swap (u v : Nat → K) (f : MvPolynomial (Fin 2) K) : along u (along v f) = along v (along u f) := by
  simp only [along_two, D_add, D_C_mul]
  rw [D_comm 1 0]
  ring

/-- Quadratic pieces that meet in a line with the same first derivatives have the same derivatives in the direction of this
line. -/
theorem joined_along (G : Tri K) (e : Nat) (t : K) (z : Nat → K) (Q : MvPolynomial (Fin 2) K) (hd : Q.totalDegree ≤ 2)
    (h : ∀ k < 2, trace (G.point e t) z (D k Q) = 0) : G.on e (along (fun i => z i - G.point e t i) Q) = 0 := by
  have hl : ∀ u : Nat → K, trace (G.point e t) z (along u Q) = 0 := by
    intro u
    rw [along_two, map_add, map_mul, map_mul, h 0 (by omega), h 1 (by omega), mul_zero, mul_zero, add_zero]
  have hdeg : (G.on e (along (fun i => z i - G.point e t i) Q)).natDegree ≤ 1 :=
    (trace_along _ _ _ _).trans (Nat.sub_le_sub_right hd 1)
  have v0 : (G.on e (along (fun i => z i - G.point e t i) Q)).eval t = 0 := by
    rw [on_eval, ← eval_trace_zero (G.point e t) z, hl, eval_zero]
  have v1 : (derivative (G.on e (along (fun i => z i - G.point e t i) Q))).eval t = 0 := by
    have hT : derivative (G.on e (along (fun i => z i - G.point e t i) Q)) =
        G.on e (along (G.tangent e) (along (fun i => z i - G.point e t i) Q)) := derivative_trace _ _ _
    rw [hT, along_swap, on_eval, ← eval_trace_zero (G.point e t) z, ← derivative_trace, hl, derivative_zero, eval_zero]
  have ep := two_terms hdeg
  generalize G.on e (along (fun i => z i - G.point e t i) Q) = p at *
  generalize p.coeff 0 = a0 at *
  generalize p.coeff 1 = a1 at *
  subst ep
  simp at v0 v1
  subst v1
  simp at v0
  simp [v0]

/-- All first derivatives from those along the edge and in another direction. -/
theorem gradient_zero' (G : Tri K) (e : Nat) (w : Nat → K) (hw : G.tangent e 0 * w 1 - G.tangent e 1 * w 0 ≠ 0)
    (Q : MvPolynomial (Fin 2) K) (ht : G.on e Q = 0) (hn : G.on e (along w Q) = 0) (i : Nat) (hi : i < 2) :
    G.on e (D i Q) = 0 := by
  have hd : G.on e (along (G.tangent e) Q) = 0 := by
    have : derivative (G.on e Q) = G.on e (along (G.tangent e) Q) := derivative_trace _ _ Q
    rw [← this, ht, derivative_zero]
  have hC : ∀ (c : K) (f : MvPolynomial (Fin 2) K), G.on e (MvPolynomial.C c * f) = C c * G.on e f := by
    intro c f
    unfold Tri.on
    rw [map_mul]
    simp [trace]
  have hadd : ∀ f f' : MvPolynomial (Fin 2) K, G.on e (f + f') = G.on e f + G.on e f' := fun f f' => map_add _ _ _
  rw [along_two, hadd, hC, hC] at hd hn
  have h0 : C (G.tangent e 0 * w 1 - G.tangent e 1 * w 0) ≠ (0 : K[X]) := C_ne_zero.2 hw
  match i, hi with
  | 0, _ =>
    refine (mul_eq_zero.1 (?_ : C (G.tangent e 0 * w 1 - G.tangent e 1 * w 0) * _ = 0)).resolve_left h0
    rw [C_sub, C_mul, C_mul]
    linear_combination C (w 1) * hd - C (G.tangent e 1) * hn
  | 1, _ =>
    refine (mul_eq_zero.1 (?_ : C (G.tangent e 0 * w 1 - G.tangent e 1 * w 0) * _ = 0)).resolve_left h0
    rw [C_sub, C_mul, C_mul]
    linear_combination C (G.tangent e 0) * hn - C (w 0) * hd

/-- The jets at the end points are the same. -/
theorem split_jets {G G' : Tri K} {e e' : Nat} (H : SharedEdge G G' e e') (hh : ∀ v < 3, G.h v ≠ 0) (S : Split K)
    (w : Nat) (u u' : Fn 2 K) (hf : G.Fits S w u) (hf' : G'.Fits S w u')
    (h : ∀ k < w, jet (G.vert (ends e).1) (G.h (ends e).1) k (u (.vertex (ends e).1)) =
        jet (G'.vert (ends e').1) (G'.h (ends e').1) k (u' (.vertex (ends e').1)) ∧
      jet (G.vert (ends e).2) (G.h (ends e).2) k (u (.vertex (ends e).2)) =
        jet (G'.vert (ends e').2) (G'.h (ends e').2) k (u' (.vertex (ends e').2))) :
    ∀ k < w, jet (G.vert (ends e).1) 1 k (u (.edge e 0) - u' (.edge e' 0)) = 0 ∧
      jet (G.vert (ends e).2) 1 k (u (.edge e (S.m - 1)) - u' (.edge e' (S.m - 1))) = 0 := by
  intro k hk
  have hl : ∀ (x : Nat → K) (f f' : MvPolynomial (Fin 2) K), jet x 1 k (f - f') = jet x 1 k f - jet x 1 k f' :=
    fun x f f' => (IsLinearMap.mk' _ (jet_linear (K := K) (d := 2) x 1 k)).map_sub f f'
  obtain ⟨h1, h2⟩ := h k hk
  have s1 := hf.start e H.left k hk
  have s2 := hf.stop e H.left k hk
  have s1' := hf'.start e' H.right k hk
  have s2' := hf'.stop e' H.right k hk
  rw [← H.start, ← H.size_start] at h1
  rw [← H.stop, ← H.size_stop] at h2
  rw [← H.start] at s1'
  rw [← H.stop] at s2'
  have z1 := jet_unsize _ _ (hh _ ((ends_lt e).1.trans (ends_lt e).2)) _ _ _ h1
  have z2 := jet_unsize _ _ (hh _ (ends_lt e).2) _ _ _ h2
  rw [hl] at z1 z2 ⊢
  rw [hl]
  exact ⟨by rw [s1, s1', z1], by rw [s2, s2', z2]⟩

/-- Values and first derivatives at the two ends. -/
theorem ends_zero (G : Tri K) (e : Nat) (P Q : MvPolynomial (Fin 2) K)
    (hj : ∀ k < 3, jet (G.vert (ends e).1) 1 k P = 0 ∧ jet (G.vert (ends e).2) 1 k Q = 0) :
    (G.on e P).eval 0 = 0 ∧ (G.on e Q).eval 1 = 0 ∧
      ∀ u, (G.on e (along u P)).eval 0 = 0 ∧ (G.on e (along u Q)).eval 1 = 0 := by
  obtain ⟨j0, j1, j2, -⟩ := jet_values2 (G.vert (ends e).1) P
  obtain ⟨k0, k1, k2, -⟩ := jet_values2 (G.vert (ends e).2) Q
  refine ⟨(eval_trace_zero _ _ _).trans (j0 ▸ (hj 0 (by omega)).1), (eval_trace_one _ _ _).trans (k0 ▸ (hj 0 (by omega)).2),
    fun u => ⟨(eval_trace_zero _ _ _).trans ?_, (eval_trace_one _ _ _).trans ?_⟩⟩
  · rw [value_along, ← j1, ← j2, (hj 1 (by omega)).1, (hj 2 (by omega)).1]; ring
  · rw [value_along, ← k1, ← k2, (hj 1 (by omega)).2, (hj 2 (by omega)).2]; ring

theorem shared_point {G G' : Tri K} {e e' : Nat} (H : SharedEdge G G' e e') (t : K) : G'.point e' t = G.point e t := by
  unfold Tri.point
  rw [shared_tangent H, H.start]

/-- Quadratic pieces with the same jets at the end points of a split edge are the same along it. -/
theorem split_continuous [CharZero K] {G G' : Tri K} {e e' : Nat} (H : SharedEdge G G' e e') (S : Split K) (hS : S.Two)
    (u u' : Fn 2 K) (hf : G.Fits S 3 u) (hf' : G'.Fits S 3 u')
    (hd : ∀ i < 2, (u (.edge e i)).totalDegree ≤ 2) (hd' : ∀ i < 2, (u' (.edge e' i)).totalDegree ≤ 2)
    (hk : ∀ k < 2, value (G.point e (S.pt 1)) (D k (u (.edge e 0))) = value (G.point e (S.pt 1)) (D k (u (.edge e 1))))
    (hk' : ∀ k < 2, value (G'.point e' (S.pt 1)) (D k (u' (.edge e' 0))) =
      value (G'.point e' (S.pt 1)) (D k (u' (.edge e' 1))))
    (hj : ∀ k < 3, jet (G.vert (ends e).1) 1 k (u (.edge e 0) - u' (.edge e' 0)) = 0 ∧
      jet (G.vert (ends e).2) 1 k (u (.edge e 1) - u' (.edge e' 1)) = 0) :
    (∀ i < 2, (u (.edge e i) - u' (.edge e' i)).totalDegree ≤ 2) ∧
    (∀ i < 2, G.on e (u (.edge e i) - u' (.edge e' i)) = 0) ∧
    ∀ w : Nat → K, (G.on e (along w (u (.edge e 0) - u' (.edge e' 0)))).eval (S.pt 1) =
      (G.on e (along w (u (.edge e 1) - u' (.edge e' 1)))).eval (S.pt 1) := by
  have deg : ∀ i < 2, (u (.edge e i) - u' (.edge e' i)).totalDegree ≤ 2 := fun i hi =>
    (MvPolynomial.totalDegree_sub _ _).trans (max_le (hd i hi) (hd' i hi))
  have grad : ∀ w : Nat → K, (G.on e (along w (u (.edge e 0) - u' (.edge e' 0)))).eval (S.pt 1) =
      (G.on e (along w (u (.edge e 1) - u' (.edge e' 1)))).eval (S.pt 1) := by
    intro w
    rw [shared_point H] at hk'
    rw [on_eval, on_eval, value_along, value_along]
    simp only [D_sub, map_sub]
    rw [hk 0 (by omega), hk 1 (by omega), hk' 0 (by omega), hk' 1 (by omega)]
  have val : (G.on e (u (.edge e 0) - u' (.edge e' 0))).eval (S.pt 1) =
      (G.on e (u (.edge e 1) - u' (.edge e' 1))).eval (S.pt 1) := by
    have c1 := hf.cont e H.left 0 (by rw [hS.segments]; omega)
    have c2 := hf'.cont e' H.right 0 (by rw [hS.segments]; omega)
    rw [shared_on H] at c2
    rw [on_sub, on_sub, eval_sub, eval_sub, c1, c2]
  obtain ⟨z0, z1, z2⟩ := ends_zero G e _ _ hj
  have hT : ∀ f, derivative (G.on e f) = G.on e (along (G.tangent e) f) := fun f => derivative_trace _ _ f
  have := zero_of_knot hS.left hS.right ((trace_degree _ _ _).trans (deg 0 (by omega)))
    ((trace_degree _ _ _).trans (deg 1 (by omega))) z0 (by rw [← Tri.on, hT]; exact (z2 _).1) z1
    (by rw [← Tri.on, hT]; exact (z2 _).2) val (by rw [← Tri.on, ← Tri.on, hT, hT]; exact grad _)
  refine ⟨deg, fun i hi => ?_, grad⟩
  match i, hi with
  | 0, _ => exact this.1
  | 1, _ => exact this.2

theorem continuousOn_of_zero {G G' : Tri K} {e e' : Nat} (H : SharedEdge G G' e e') (S : Split K) (hS : S.Two)
    (u u' : Fn 2 K) (ht : ∀ i < 2, G.on e (u (.edge e i) - u' (.edge e' i)) = 0) :
    ContinuousOn S G G' e e' u u' := by
  intro i hi
  rw [hS.segments] at hi
  have := ht i hi
  rw [on_sub] at this
  rw [shared_on H]
  exact sub_eq_zero.1 this

theorem smoothOn_of_zero {G G' : Tri K} {e e' : Nat} (H : SharedEdge G G' e e') (S : Split K) (hS : S.Two)
    (u u' : Fn 2 K) (w : Nat → K) (hw : G.tangent e 0 * w 1 - G.tangent e 1 * w 0 ≠ 0)
    (ht : ∀ i < 2, G.on e (u (.edge e i) - u' (.edge e' i)) = 0)
    (hn : ∀ i < 2, G.on e (along w (u (.edge e i) - u' (.edge e' i))) = 0) : SmoothOn S G G' e e' u u' := by
  refine ⟨continuousOn_of_zero H S hS u u' ht, fun i hi k hk => ?_⟩
  rw [hS.segments] at hi
  have := gradient_zero' G e w hw _ (ht i hi) (hn i hi) k hk
  rw [D_sub, on_sub] at this
  rw [shared_on H]
  exact sub_eq_zero.1 this

end FInAT.Zany
