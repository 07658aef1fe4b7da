import Verif.Lemmas.SmoothPoly
import Verif.Spec.Smooth

/-!
# Functions with the same degrees of freedom on a common edge
-/

namespace FInAT.Zany

open FInAT.Spec.Zany Polynomial

variable {K : Type} [Field K]

theorem value_along_along (x u v : Nat → K) (f : MvPolynomial (Fin 2) K) :
    value x (along u (along v f)) = u 0 * v 0 * value x (D 0 (D 0 f)) +
      (u 0 * v 1 + u 1 * v 0) * value x (D 0 (D 1 f)) + u 1 * v 1 * value x (D 1 (D 1 f)) := by
  rw [value_along, along_two, D_add, D_add, D_C_mul, D_C_mul, D_C_mul, D_C_mul, D_comm 1 0]
  have hC : ∀ c : K, value (d := 2) x (MvPolynomial.C c) = c := fun c => by simp [value]
  simp only [map_add, map_mul, hC]
  ring

/-- Jets and the sizes that scale them. -/
theorem jet_size {d : Nat} (x : Nat → K) (h : K) (c : Nat) (f : MvPolynomial (Fin d) K) :
    jet x h c f = (if c = 0 then 1 else if c ≤ d then h else h * h) * jet x 1 c f := by
  unfold jet
  split_ifs <;> ring

theorem jet_unsize {d : Nat} (x : Nat → K) (h : K) (hh : h ≠ 0) (c : Nat) (f f' : MvPolynomial (Fin d) K)
    (e : jet x h c f = jet x h c f') : jet x 1 c (f - f') = 0 := by
  have hl := (jet_linear (K := K) (d := d) x 1 c)
  have : jet x 1 c (f - f') = jet x 1 c f - jet x 1 c f' := (IsLinearMap.mk' _ hl).map_sub f f'
  rw [this, sub_eq_zero]
  rw [jet_size x h c f, jet_size x h c f'] at e
  refine mul_left_cancel₀ ?_ e
  split_ifs
  · exact one_ne_zero
  · exact hh
  · exact mul_ne_zero hh hh

/-- Vanishing first jets at the end points of an edge. -/
theorem roots1 (G : Tri K) (e : Nat) (Q : MvPolynomial (Fin 2) K)
    (hj : ∀ c < 3, jet (G.vert (ends e).1) 1 c Q = 0 ∧ jet (G.vert (ends e).2) 1 c Q = 0) :
    (∀ k < 2, (derivative^[k] (G.on e Q)).eval 0 = 0 ∧ (derivative^[k] (G.on e Q)).eval 1 = 0) ∧
    ∀ u, ∀ k < 1, (derivative^[k] (G.on e (along u Q))).eval 0 = 0 ∧ (derivative^[k] (G.on e (along u Q))).eval 1 = 0 := by
  have hz : ∀ x : Nat → K, (∀ c < 3, jet x 1 c Q = 0) → value x Q = 0 ∧ value x (D 0 Q) = 0 ∧ value x (D 1 Q) = 0 := by
    intro x h
    obtain ⟨j0, j1, j2, -⟩ := jet_values2 x Q
    exact ⟨j0 ▸ h 0 (by omega), j1 ▸ h 1 (by omega), j2 ▸ h 2 (by omega)⟩
  obtain ⟨a0, a1, a2⟩ := hz _ fun c hc => (hj c hc).1
  obtain ⟨b0, b1, b2⟩ := hz _ fun c hc => (hj c hc).2
  obtain ⟨o0, o1, o2, o3, -⟩ := on_jets G e Q
  refine ⟨fun k hk => ?_, fun u k hk => ?_⟩
  · match k, hk with
    | 0, _ => exact ⟨o0.trans a0, o1.trans b0⟩
    | 1, _ =>
      refine ⟨o2.trans ?_, o3.trans ?_⟩ <;> rw [value_along]
      · rw [a1, a2]; ring
      · rw [b1, b2]; ring
  · obtain rfl : k = 0 := by omega
    obtain ⟨o0, o1, -⟩ := on_jets G e (along u Q)
    refine ⟨o0.trans ?_, o1.trans ?_⟩ <;> rw [value_along]
    · rw [a1, a2]; ring
    · rw [b1, b2]; ring

/-- Vanishing second jets. -/
theorem roots2 (G : Tri K) (e : Nat) (Q : MvPolynomial (Fin 2) K)
    (hj : ∀ c < 6, jet (G.vert (ends e).1) 1 c Q = 0 ∧ jet (G.vert (ends e).2) 1 c Q = 0) :
    (∀ k < 3, (derivative^[k] (G.on e Q)).eval 0 = 0 ∧ (derivative^[k] (G.on e Q)).eval 1 = 0) ∧
    ∀ u, ∀ k < 2, (derivative^[k] (G.on e (along u Q))).eval 0 = 0 ∧ (derivative^[k] (G.on e (along u Q))).eval 1 = 0 := by
  obtain ⟨r1, r2⟩ := roots1 G e Q fun c hc => hj c (by omega)
  have hz : ∀ x : Nat → K, (∀ c < 6, jet x 1 c Q = 0) → value x (D 0 (D 0 Q)) = 0 ∧ value x (D 0 (D 1 Q)) = 0 ∧
      value x (D 1 (D 1 Q)) = 0 := by
    intro x h
    obtain ⟨-, -, -, j0, j1, j2⟩ := jet_values2 x Q
    exact ⟨j0 ▸ h 3 (by omega), j1 ▸ h 4 (by omega), j2 ▸ h 5 (by omega)⟩
  obtain ⟨a0, a1, a2⟩ := hz _ fun c hc => (hj c hc).1
  obtain ⟨b0, b1, b2⟩ := hz _ fun c hc => (hj c hc).2
  obtain ⟨-, -, -, -, o4, o5⟩ := on_jets G e Q
  refine ⟨fun k hk => ?_, fun u k hk => ?_⟩
  · rcases Nat.lt_or_ge k 2 with h | h
    · exact r1 k h
    · obtain rfl : k = 2 := by omega
      refine ⟨o4.trans ?_, o5.trans ?_⟩ <;> rw [value_along_along]
      · rw [a0, a1, a2]; ring
      · rw [b0, b1, b2]; ring
  · rcases Nat.lt_or_ge k 1 with h | h
    · exact r2 u k h
    · obtain rfl : k = 1 := by omega
      obtain ⟨-, -, o2, o3, -⟩ := on_jets G e (along u Q)
      refine ⟨o2.trans ?_, o3.trans ?_⟩ <;> rw [value_along_along]
      · rw [a0, a1, a2]; ring
      · rw [b0, b1, b2]; ring

/-- All first derivatives from those along the edge and across it. -/
theorem gradient_zero (G : Tri K) (e : Nat) (hL : G.len e ≠ 0 ∧
      G.len e * G.len e = G.tangent e 0 * G.tangent e 0 + G.tangent e 1 * G.tangent e 1) (Q : MvPolynomial (Fin 2) K)
    (ht : G.on e Q = 0) (hn : G.on e (along (G.normal e) Q) = 0) (i : Nat) (hi : i < 2) : G.on e (D i Q) = 0 := by
  obtain ⟨h0, hL⟩ := hL
  have hd : G.on e (along (G.tangent e) Q) = 0 := by
    have : derivative (G.on e Q) = G.on e (along (G.tangent e) Q) := derivative_trace _ _ Q
    rw [← this, ht, derivative_zero]
  have hcomb : ∀ (a b : K) (u : Nat → K), (∀ i < 2, u i = a * G.tangent e i + b * G.normal e i) →
      G.on e (along u Q) = 0 := by
    intro a b u hu
    rw [along_comb a b (G.tangent e) (G.normal e) u Q hu]
    unfold Tri.on at hd hn ⊢
    rw [map_add, map_mul, map_mul, hd, hn, mul_zero, mul_zero, add_zero]
  have hD : ∀ i < 2, D i Q = along (fun j => if j = i then 1 else 0) Q := by
    intro i hi
    rw [along_two]
    match i, hi with
    | 0, _ => simp
    | 1, _ => simp
  rw [hD i hi]
  match i, hi with
  | 0, _ =>
    refine hcomb (G.tangent e 0 / (G.len e * G.len e)) (G.tangent e 1 / G.len e) _ fun j hj => ?_
    match j, hj with
    | 0, _ =>
      simp only [Tri.normal, if_true]
      field_simp
      linear_combination hL
    | 1, _ =>
      simp only [Tri.normal, one_ne_zero, if_false]
      field_simp
      ring
  | 1, _ =>
    refine hcomb (G.tangent e 1 / (G.len e * G.len e)) (- G.tangent e 0 / G.len e) _ fun j hj => ?_
    match j, hj with
    | 0, _ =>
      simp only [Tri.normal, if_true, zero_ne_one, if_false]
      field_simp
      ring
    | 1, _ =>
      simp only [Tri.normal, one_ne_zero, if_true, if_false]
      field_simp
      linear_combination hL

/-- Two triangles see a common edge in the same way. -/
theorem shared_on {G G' : Tri K} {e e' : Nat} (H : SharedEdge G G' e e') : G'.on e' = G.on e := by
  unfold Tri.on
  rw [H.start, H.stop]

theorem shared_tangent {G G' : Tri K} {e e' : Nat} (H : SharedEdge G G' e e') : G'.tangent e' = G.tangent e := by
  unfold Tri.tangent
  rw [H.start, H.stop]

theorem shared_normal {G G' : Tri K} {e e' : Nat} (H : SharedEdge G G' e e') : G'.normal e' = G.normal e := by
  unfold Tri.normal
  rw [shared_tangent H, H.length]

theorem on_sub (G : Tri K) (e : Nat) (f f' : MvPolynomial (Fin 2) K) : G.on e (f - f') = G.on e f - G.on e f' :=
  map_sub _ _ _

theorem along_sub (u : Nat → K) (f f' : MvPolynomial (Fin 2) K) : along u (f - f') = along u f - along u f' := by
  rw [sub_eq_add_neg, along_add, show -f' = (-1 : K) • f' by simp, along_smul]
  simp [sub_eq_add_neg]

theorem D_sub (i : Nat) (f f' : MvPolynomial (Fin 2) K) : D i (f - f') = D i f - D i f' := by
  unfold D
  split_ifs
  · exact map_sub _ _ _
  · simp

theorem smooth_of_zero {G G' : Tri K} {e e' : Nat} (H : SharedEdge G G' e e') (hL : G.len e ≠ 0 ∧
      G.len e * G.len e = G.tangent e 0 * G.tangent e 0 + G.tangent e 1 * G.tangent e 1) (u u' : Fn 2 K)
    (ht : G.on e (u (.edge e 0) - u' (.edge e' 0)) = 0)
    (hn : G.on e (along (G.normal e) (u (.edge e 0) - u' (.edge e' 0))) = 0) : Smooth G G' e e' u u' := by
  refine ⟨?_, fun i hi => ?_⟩
  · unfold Spec.Zany.Continuous
    rw [shared_on H]
    rw [on_sub] at ht
    exact sub_eq_zero.1 ht
  · have := gradient_zero G e hL _ ht hn i hi
    rw [D_sub, on_sub] at this
    rw [shared_on H]
    exact sub_eq_zero.1 this

/-- The jets at the end points are the same. -/
theorem shared_jets {G G' : Tri K} {e e' : Nat} (H : SharedEdge G G' e e') (hh : ∀ v < 3, G.h v ≠ 0) (S : Split K)
    (hS : S.m = 1) (w : Nat) (u u' : Fn 2 K) (hf : G.Fits S w u) (hf' : G'.Fits S w u')
    (h : ∀ k < w, jet (G.vert (ends e).1) (G.h (ends e).1) k (u (.vertex (ends e).1)) =
        jet (G'.vert (ends e').1) (G'.h (ends e').1) k (u' (.vertex (ends e').1)) ∧
      jet (G.vert (ends e).2) (G.h (ends e).2) k (u (.vertex (ends e).2)) =
        jet (G'.vert (ends e').2) (G'.h (ends e').2) k (u' (.vertex (ends e').2))) :
    ∀ k < w, jet (G.vert (ends e).1) 1 k (u (.edge e 0) - u' (.edge e' 0)) = 0 ∧
      jet (G.vert (ends e).2) 1 k (u (.edge e 0) - u' (.edge e' 0)) = 0 := by
  intro k hk
  have hl : ∀ (x : Nat → K) (f f' : MvPolynomial (Fin 2) K), jet x 1 k (f - f') = jet x 1 k f - jet x 1 k f' :=
    fun x f f' => (IsLinearMap.mk' _ (jet_linear (K := K) (d := 2) x 1 k)).map_sub f f'
  obtain ⟨h1, h2⟩ := h k hk
  have s1 := hf.start e H.left k hk
  have s2 := hf.stop e H.left k hk
  have s1' := hf'.start e' H.right k hk
  have s2' := hf'.stop e' H.right k hk
  rw [hS, Nat.sub_self] at s2 s2'
  rw [← H.start, ← H.size_start] at h1
  rw [← H.stop, ← H.size_stop] at h2
  rw [← H.start] at s1'
  rw [← H.stop] at s2'
  have z1 := jet_unsize _ _ (hh _ ((ends_lt e).1.trans (ends_lt e).2)) _ _ _ h1
  have z2 := jet_unsize _ _ (hh _ (ends_lt e).2) _ _ _ h2
  rw [hl] at z1 z2 ⊢
  rw [hl]
  exact ⟨by rw [s1, s1', z1], by rw [s2, s2', z2]⟩

end FInAT.Zany
