import Verif.Lemmas.ZanyElem

/-!
# Rows of the whole matrices, linearity of the degrees of freedom
-/

namespace FInAT.Zany

open Finset FInAT.Piola FInAT.Spec.Zany

variable {K : Type} [Field K]

/-! ### Linearity -/

theorem jet_linear {d : Nat} (x : Nat → K) (h : K) (c : Nat) :
    IsLinearMap K (fun f : MvPolynomial (Fin d) K => jet x h c f) := by
  constructor
  · intro f g
    unfold jet
    split
    · exact map_add _ _ _
    · split
      · rw [D_add, map_add, mul_add]
      · rw [D_add, D_add, map_add, mul_add]
  · intro a f
    unfold jet
    split
    · simp
    · split
      · rw [D_smul, map_smul, smul_eq_mul, smul_eq_mul]; ring
      · rw [D_smul, D_smul, map_smul, smul_eq_mul, smul_eq_mul]; ring

theorem along_add {d : Nat} (u : Nat → K) (f g : MvPolynomial (Fin d) K) :
    along u (f + g) = along u f + along u g := by
  simp only [along, map_add, mul_add, Finset.sum_add_distrib]

theorem along_smul {d : Nat} (u : Nat → K) (a : K) (f : MvPolynomial (Fin d) K) :
    along u (a • f) = a • along u f := by
  simp only [along, Finset.smul_sum]
  refine Finset.sum_congr rfl fun i _ => ?_
  rw [MvPolynomial.smul_eq_C_mul, MvPolynomial.smul_eq_C_mul, MvPolynomial.pderiv_C_mul]
  ring

theorem integral_smul (a b c : K) (p : Polynomial K) :
    integral a b (c • p) = c * integral a b p := by
  rw [Polynomial.smul_eq_C_mul, integral_C_mul]

theorem split_smul (S : Split K) (c : K) (p : Nat → Polynomial K) :
    S.integral (fun i => c • p i) = c * S.integral p := by
  simp only [Split.integral, integral_smul, Finset.mul_sum]

theorem normalMoment_linear (G : Tri K) (S : Split K) (e : Nat) (w : Polynomial K) :
    IsLinearMap K (fun f : Fn 2 K => G.normalMoment S e w f) := by
  constructor
  · intro f g
    simp only [Tri.normalMoment, Pi.add_apply, along_add, Tri.on, map_add, add_mul, split_add, mul_add]
  · intro a f
    simp only [Tri.normalMoment, Pi.smul_apply, along_smul, Tri.on, map_smul, smul_mul_assoc, split_smul,
      smul_eq_mul]
    ring

theorem traceMoment_linear (G : Tri K) (S : Split K) (e : Nat) (w : Polynomial K) :
    IsLinearMap K (fun f : Fn 2 K => G.traceMoment S e w f) := by
  constructor
  · intro f g
    simp only [Tri.traceMoment, Pi.add_apply, Tri.on, map_add, add_mul, split_add]
  · intro a f
    simp only [Tri.traceMoment, Pi.smul_apply, Tri.on, map_smul, smul_mul_assoc, split_smul, smul_eq_mul]

theorem normalMidpoint_linear (G : Tri K) (e : Nat) :
    IsLinearMap K (fun f : Fn 2 K => G.normalMidpoint e f) := by
  constructor
  · intro f g
    simp only [Tri.normalMidpoint, Pi.add_apply, along_add, Tri.on, map_add, Polynomial.eval_add, mul_add]
  · intro a f
    simp only [Tri.normalMidpoint, Pi.smul_apply, along_smul, Tri.on, map_smul, Polynomial.smul_eq_C_mul,
      Polynomial.eval_mul, Polynomial.eval_C, smul_eq_mul]
    ring

theorem jetDofs_linear (G : Tri K) (w : Nat) (rest : Nat → Fn 2 K → K) (hr : ∀ k, IsLinearMap K (rest k))
    (k : Nat) : IsLinearMap K (G.jetDofs w rest k) := by
  by_cases h : k < 3 * w
  · constructor
    · intro f g
      simp only [Tri.jetDofs, h, if_true, Pi.add_apply]
      exact (jet_linear _ _ _).map_add _ _
    · intro a f
      simp only [Tri.jetDofs, h, if_true, Pi.smul_apply]
      exact (jet_linear _ _ _).map_smul _ _
  · constructor
    · intro f g
      simp only [Tri.jetDofs, h, if_false]
      exact (hr _).map_add _ _
    · intro a f
      simp only [Tri.jetDofs, h, if_false]
      exact (hr _).map_smul _ _

theorem momentDofs_linear (G : Tri K) (S : Split K) (a w q : Nat) (inner : Nat → Fn 2 K → K)
    (hi : ∀ k, IsLinearMap K (inner k)) (k : Nat) : IsLinearMap K (G.momentDofs S a w q inner k) := by
  refine jetDofs_linear G w _ (fun r => ?_) k
  by_cases h1 : r < 3 * (2 * q + 1)
  · by_cases h2 : r % (2 * q + 1) ≤ q
    · simp only [h1, h2, if_true]; exact normalMoment_linear _ _ _ _
    · simp only [h1, h2, if_true, if_false]; exact traceMoment_linear _ _ _ _
  · simp only [h1, if_false]; exact hi _

theorem pull_linear {d : Nat} (J : NMat K) (b : NVec K) (ℓ : Fn d K → K) (h : IsLinearMap K ℓ) :
    IsLinearMap K (fun f : Fn d K => ℓ (f.pull J b)) := by
  constructor
  · intro f g
    rw [show (f + g).pull J b = f.pull J b + g.pull J b from funext fun p => map_add _ _ _, h.map_add]
  · intro a f
    rw [show (a • f).pull J b = a • f.pull J b from
      funext fun p => map_smul (Spec.Zany.pull J b) a (f p), h.map_smul]

/-! ### Rows -/

theorem jetScale_jet {d : Nat} (w nv : Nat) (h : NVec K) (v c : Nat) (hv : v < nv) (hc : c < w) (hh : h v ≠ 0)
    (x : Nat → K) (f : MvPolynomial (Fin d) K) :
    jetScale w d nv h (v * w + c) * jet x (h v) c f = jet x 1 c f := by
  have hlt : v * w + c < nv * w := by
    have := Nat.mul_le_mul_right w (Nat.succ_le_of_lt hv)
    rw [Nat.succ_mul] at this
    omega
  obtain ⟨h1, h2⟩ := divmod w v c hc
  unfold jetScale jet
  rw [if_pos hlt, h1, h2]
  by_cases hc0 : c = 0
  · simp [hc0]
  · by_cases hcd : c ≤ d
    · rw [if_neg hc0, if_pos hcd, if_neg hc0, if_pos hcd, if_neg hc0, if_pos hcd]
      field_simp
    · rw [if_neg hc0, if_neg hcd, if_neg hc0, if_neg hcd, if_neg hc0, if_neg hcd]
      field_simp

theorem jetScale_after (w sd nv : Nat) (h : NVec K) (b : Nat) (hb : nv * w ≤ b) :
    jetScale w sd nv h b = 1 := by
  unfold jetScale; rw [if_neg (by omega)]

/-- The unscaled degrees of freedom. -/
theorem jetDofs_scale (P P1 : Tri K) (w : Nat) (rest : Nat → Fn 2 K → K) (hvert : P1.vert = P.vert)
    (hone : ∀ v, P1.h v = 1) (hh : ∀ v < 3, P.h v ≠ 0) (hw : 0 < w) (f : Fn 2 K) (k : Nat) :
    P1.jetDofs w rest k f = jetScale w 2 3 P.h k * P.jetDofs w rest k f := by
  unfold Tri.jetDofs
  by_cases hk : k < 3 * w
  · rw [if_pos hk, if_pos hk, hvert, hone]
    have hv : k / w < 3 := by rw [Nat.div_lt_iff_lt_mul hw]; omega
    have hc : k % w < w := Nat.mod_lt _ hw
    have := jetScale_jet (d := 2) w 3 P.h (k / w) (k % w) hv hc (hh _ hv) (P.vert (k / w)) (f (.vertex (k / w)))
    rw [show k / w * w + k % w = k by rw [Nat.mul_comm]; exact Nat.div_add_mod k w] at this
    exact this.symm
  · rw [if_neg hk, if_neg hk, jetScale_after _ _ _ _ _ (by omega), one_mul]

theorem jetDofs_at (G : Tri K) (w : Nat) (rest : Nat → Fn 2 K → K) (f : Fn 2 K) (v c : Nat) (hv : v < 3)
    (hc : c < w) : G.jetDofs w rest (v * w + c) f = jet (G.vert v) (G.h v) c (f (.vertex v)) := by
  have hlt : v * w + c < 3 * w := by
    have := Nat.mul_le_mul_right w (Nat.succ_le_of_lt hv)
    rw [Nat.succ_mul] at this
    omega
  obtain ⟨h1, h2⟩ := divmod w v c hc
  unfold Tri.jetDofs
  rw [if_pos hlt, h1, h2]

theorem jetDofs_rest (G : Tri K) (w : Nat) (rest : Nat → Fn 2 K → K) (f : Fn 2 K) (r : Nat) :
    G.jetDofs w rest (3 * w + r) f = rest r f := by
  unfold Tri.jetDofs
  rw [if_neg (by omega), Nat.add_sub_cancel_left]

theorem jacobi_order_zero (a : Nat) : Polynomial.derivative (jacobi a 0 : Polynomial K) = 0 := by
  simp [jacobi]

/-- Rows of the matrix of an element with jets at vertices and moments on edges. -/
theorem moment_rows [CharZero K] (R : Tri K) (S : Split K) (hS : S.OK) (g : Geometry K) (b : NVec K)
    (avg : Bool) (vorder w q m : Nat) (hw : (2 + vorder).choose vorder = w) (hw2 : w = vwidth 2 vorder)
    (hdet : g.detJ = g.J 0 0 * g.J 1 1 - g.J 0 1 * g.J 1 0) (hR : R.Lengths) (hRh : ∀ v, R.h v = 1)
    (hRs : ∀ e, R.scale e = 1)
    (hP : (R.image g.J b g.h g.pel (fun e => if avg then 1 else g.pel e)).Lengths)
    (hh : ∀ v < 3, g.h v ≠ 0) (inner : Nat → Fn 2 K → K) (f : Fn 2 K)
    (hf : (R.image g.J b g.h g.pel (fun e => if avg then 1 else g.pel e)).Fits S w f) (V : Arr K)
    (hV : ∀ a c, V.get a c = (edgeTransform (vertexTransform (identity (3 * w + 3 * (2 * q + 1) + m)
      (3 * w + 3 * (2 * q + 1) + m)) vorder (triangle R.vert) g) vorder q (triangle R.vert) R.len g avg).get a c *
        jetScale w 2 3 g.h c)
    (i : Nat) (hi : i < 3 * w + 3 * (2 * q + 1) + m) :
    R.momentDofs S vorder w q inner i (f.pull g.J b) =
      ∑ k ∈ range (3 * w + 3 * (2 * q + 1) + m), V.get i k *
        (R.image g.J b g.h g.pel (fun e => if avg then 1 else g.pel e)).momentDofs S vorder w q
          (fun k f => inner k (f.pull g.J b)) k f := by
  set N := 3 * w + 3 * (2 * q + 1) + m with hN
  set sc : Nat → K := fun e => if avg then 1 else g.pel e with hsc
  set P := R.image g.J b g.h g.pel sc with hPdef
  let P1 : Tri K := { P with h := fun _ => 1 }
  have hwpos : 0 < w := by rw [hw2]; unfold vwidth; omega
  -- remove the scaling
  have hact : ∑ k ∈ range N, V.get i k * P.momentDofs S vorder w q (fun k f => inner k (f.pull g.J b)) k f =
      act N ((edgeTransform (vertexTransform (identity N N) vorder (triangle R.vert) g) vorder q
        (triangle R.vert) R.len g avg).get i)
        (fun k => P1.momentDofs S vorder w q (fun k f => inner k (f.pull g.J b)) k f) := by
    rw [← act_scaled N _ (jetScale w 2 3 g.h)
      (fun k => P.momentDofs S vorder w q (fun k f => inner k (f.pull g.J b)) k f)]
    · exact Finset.sum_congr rfl fun k _ => by rw [hV]
    · intro k _
      exact jetDofs_scale P P1 w _ rfl (fun _ => rfl) hh hwpos f k
  rw [hact]
  obtain ⟨hE1, hE2, hE3, hE4⟩ := edgeTransform_rows vorder q R.vert R.len g avg
    (vertexTransform (identity N N) vorder (triangle R.vert) g) w hw
  obtain ⟨-, -, -, hV4⟩ := vertexTransform_rows (identity (K := K) N N) vorder (triangle R.vert) g
  rw [show (triangle R.vert).nverts = 3 from rfl, show (triangle R.vert).sd = 2 from rfl, ← hw2] at hV4
  by_cases h1 : i < 3 * w
  · -- vertex rows
    obtain ⟨v, c, hv, hc, rfl⟩ : ∃ v c, v < 3 ∧ c < w ∧ i = v * w + c :=
      ⟨i / w, i % w, by rw [Nat.div_lt_iff_lt_mul hwpos]; omega, Nat.mod_lt _ hwpos,
        by rw [Nat.mul_comm]; exact (Nat.div_add_mod i w).symm⟩
    rw [hE3 _ h1]
    have := vertex_rows (d := 2) (triangle R.vert) rfl g N N N vorder
      (by rw [← hw2, show (triangle R.vert).nverts = 3 from rfl]; omega) b
      (fun k => P1.momentDofs S vorder w q (fun k f => inner k (f.pull g.J b)) k f) (f (.vertex v)) v hv
      (by
        intro c' hc'
        rw [← hw2] at hc' ⊢
        exact jetDofs_at P1 w _ f v c' hv hc') c (by rw [← hw2]; exact hc)
    rw [← hw2] at this
    rw [this]
    rw [show R.momentDofs S vorder w q inner (v * w + c) (f.pull g.J b) =
      jet (R.vert v) (R.h v) c (f.pull g.J b (.vertex v)) from jetDofs_at R w _ _ v c hv hc, hRh]
    rfl
  · obtain ⟨r, rfl⟩ : ∃ r, i = 3 * w + r := ⟨i - 3 * w, by omega⟩
    have hid : (vertexTransform (identity N N) vorder (triangle R.vert) g).get (3 * w + r) =
        fun b => if 3 * w + r = b then (1 : K) else 0 := hV4 _ (by omega)
    by_cases h2 : r < 3 * (2 * q + 1)
    · obtain ⟨e, k, he, hk, rfl⟩ : ∃ e k, e < 3 ∧ k < 2 * q + 1 ∧ r = e * (2 * q + 1) + k :=
        ⟨r / (2 * q + 1), r % (2 * q + 1), by rw [Nat.div_lt_iff_lt_mul (by omega)]; omega,
          Nat.mod_lt _ (by omega), by rw [Nat.mul_comm]; exact (Nat.div_add_mod r _).symm⟩
      have hmul : e * (2 * q + 1) + (2 * q + 1) ≤ 3 * (2 * q + 1) := by
        have := Nat.mul_le_mul_right (2 * q + 1) (Nat.succ_le_of_lt he)
        rwa [Nat.succ_mul] at this
      obtain ⟨d1, d2⟩ := divmod (2 * q + 1) e k hk
      have hends : (ends e).1 < 3 ∧ (ends e).2 < 3 ∧ (ends e).1 ≠ (ends e).2 := by
        unfold ends; split <;> [skip; split] <;> simp
      have hdofR : ∀ (G : Tri K) (inn : Nat → Fn 2 K → K) (f' : Fn 2 K) (k' : Nat), k' < 2 * q + 1 →
          G.momentDofs S vorder w q inn (3 * w + (e * (2 * q + 1) + k')) f' =
            if k' ≤ q then G.normalMoment S e (jacobi vorder k') f'
            else G.traceMoment S e (Polynomial.derivative (jacobi vorder (k' - q))) f' := by
        intro G inn f' k' hk'
        obtain ⟨d1, d2⟩ := divmod (2 * q + 1) e k' hk'
        unfold Tri.momentDofs
        rw [jetDofs_rest, d1, d2, if_pos (by omega)]
      by_cases hkq : k ≤ q
      · -- moments of the normal derivative
        have hrow := hE1 e he k hkq
        rw [Nat.add_assoc] at hrow
        rw [hrow, hid]
        have hv0 : (ends e).1 * w + w ≤ 3 * w := by
          have := Nat.mul_le_mul_right w (Nat.succ_le_of_lt hends.1)
          rwa [Nat.succ_mul] at this
        have hv1 : (ends e).2 * w + w ≤ 3 * w := by
          have := Nat.mul_le_mul_right w (Nat.succ_le_of_lt hends.2.1)
          rwa [Nat.succ_mul] at this
        have hne : (ends e).1 * w ≠ (ends e).2 * w := fun hc =>
          hends.2.2 (Nat.eq_of_mul_eq_mul_right hwpos hc)
        rw [act_momentRow N vorder q _ _ _ _ _ k _ (by omega) (by omega) (by omega) hne (by omega) (by omega)
          hkq (by omega)]
        rw [hdofR R inner _ k hk, if_pos hkq]
        rw [normal_moment R S hS g.J g.detJ b g.h g.pel sc hdet hR hP hRs w hwpos e he _ f hf]
        rw [hdofR P1 _ f k hk, if_pos hkq]
        have hj1 := jetDofs_at P1 w (fun r f => if r < 3 * (2 * q + 1) then
          if r % (2 * q + 1) ≤ q then P1.normalMoment S (r / (2 * q + 1)) (jacobi vorder (r % (2 * q + 1))) f
          else P1.traceMoment S (r / (2 * q + 1))
            (Polynomial.derivative (jacobi vorder (r % (2 * q + 1) - q))) f
          else inner (r - 3 * (2 * q + 1)) (f.pull g.J b)) f (ends e).2 0 hends.2.1 hwpos
        have hj0 := jetDofs_at P1 w (fun r f => if r < 3 * (2 * q + 1) then
          if r % (2 * q + 1) ≤ q then P1.normalMoment S (r / (2 * q + 1)) (jacobi vorder (r % (2 * q + 1))) f
          else P1.traceMoment S (r / (2 * q + 1))
            (Polynomial.derivative (jacobi vorder (r % (2 * q + 1) - q))) f
          else inner (r - 3 * (2 * q + 1)) (f.pull g.J b)) f (ends e).1 0 hends.1 hwpos
        rw [jet_zero, Nat.add_zero] at hj1 hj0
        have hm1 : P1.momentDofs S vorder w q (fun k f => inner k (f.pull g.J b)) ((ends e).2 * w) f =
          value (P.vert (ends e).2) (f (.vertex (ends e).2)) := hj1
        have hm0 : P1.momentDofs S vorder w q (fun k f => inner k (f.pull g.J b)) ((ends e).1 * w) f =
          value (P.vert (ends e).1) (f (.vertex (ends e).1)) := hj0
        rw [hm1, hm0, jacobi_one, jacobi_zero]
        have hBnt : edgeBnt R.vert R.len g e =
          (normalTangential g.J g.detJ (R.tangent e) (R.len e)).2.1 := rfl
        have hBnn : edgeBnn R.vert R.len g avg e * P1.normalMoment S e (jacobi vorder k) f =
            (normalTangential g.J g.detJ (R.tangent e) (R.len e)).1 * g.pel e *
              S.integral (fun i => P.on e (along (P.normal e) (f (.edge e i))) * jacobi vorder k) := by
          have : P1.normalMoment S e (jacobi vorder k) f = sc e *
            S.integral (fun i => P.on e (along (P.normal e) (f (.edge e i))) * jacobi vorder k) := rfl
          rw [this]
          have hB : edgeBnn R.vert R.len g avg e = if avg then
            (normalTangential g.J g.detJ (R.tangent e) (R.len e)).1 * g.pel e else
            (normalTangential g.J g.detJ (R.tangent e) (R.len e)).1 := rfl
          rw [hB, hsc]
          cases avg
          · simp; ring
          · simp
        rw [hBnn, hBnt]
        have htr : (if k > 0 then (normalTangential g.J g.detJ (R.tangent e) (R.len e)).2.1 *
              P1.momentDofs S vorder w q (fun k f => inner k (f.pull g.J b))
                (3 * w + (e * (2 * q + 1) + k) + q) f else 0) =
            (normalTangential g.J g.detJ (R.tangent e) (R.len e)).2.1 *
              P.traceMoment S e (Polynomial.derivative (jacobi vorder k)) f := by
          by_cases hk0 : k > 0
          · rw [if_pos hk0, show 3 * w + (e * (2 * q + 1) + k) + q = 3 * w + (e * (2 * q + 1) + (k + q)) by omega,
              hdofR P1 _ f (k + q) (by omega), if_neg (by omega), Nat.add_sub_cancel]
            rfl
          · have : k = 0 := by omega
            subst this
            rw [if_neg hk0, jacobi_order_zero]
            simp [Tri.traceMoment, Split.integral, integral_zero]
        rw [htr]
        ring
      · have hrow := hE2 e he k (by omega) hk
        rw [Nat.add_assoc] at hrow
        rw [hrow, hid, act_delta _ _ _ (by omega), hdofR R inner _ k hk, if_neg hkq, hdofR P1 _ f k hk,
          if_neg hkq]
        unfold Tri.traceMoment
        refine congrArg S.integral (funext fun i => ?_)
        unfold Tri.on
        rw [show f.pull g.J b (.edge e i) = pull g.J b (f (.edge e i)) from rfl, trace_pull]
        rfl
    · rw [hE4 _ (by omega), hid, act_delta _ _ _ hi]
      unfold Tri.momentDofs
      rw [jetDofs_rest, jetDofs_rest, if_neg h2, if_neg h2]

end FInAT.Zany
