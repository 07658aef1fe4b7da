import Verif.Lemmas.ZanyMorley
import Verif.Lemmas.ZanyHermite
import Verif.Props.Zany

/-!
# C35, C36, C37: Hermite, Powell-Sabin and Morley

`hermite` (which is also `QuadraticPowellSabin6`), `morley` and `powellSabin12` model the code.
-/

namespace FInAT.Props

open Finset FInAT.Zany FInAT.Spec.Zany

variable {K : Type} [Field K]

/-! ### C35 -/

/-- Values and derivatives at the vertices and others in one list. -/
def dofList {F : Type} (w : Nat) (V : Nat → F → K) (Gr : Nat → Nat → F → K) (I : Nat → F → K) (k : Nat) (f : F) : K :=
  if k < w * w then (if k % w = 0 then V (k / w) f else Gr (k / w) (k % w - 1) f) else I (k - w * w) f

theorem vertex_lt (w : Nat) : ∀ v < w, ∀ c < w, v * w + c < w * w := by
  intro v hv c hc
  have := Nat.mul_le_mul_right w (Nat.succ_le_of_lt hv)
  rw [Nat.succ_mul] at this; omega

omit [Field K] in
theorem dof0 {F : Type} {w : Nat} (V : Nat → F → K) (Gr : Nat → Nat → F → K) (I : Nat → F → K) (v : Nat) (hv : v < w)
    (f : F) : dofList w V Gr I (v * w) f = V v f := by
  have := divmod w v 0 (by omega)
  rw [Nat.add_zero] at this
  unfold dofList
  rw [if_pos (by simpa using vertex_lt w v hv 0 (by omega)), if_pos this.2, this.1]

omit [Field K] in
theorem dof1 {F : Type} (d w : Nat) (hw : w = d + 1) (V : Nat → F → K) (Gr : Nat → Nat → F → K) (I : Nat → F → K)
    (v : Nat) (hv : v < w) (i : Nat) (hi : i < d) (f : F) : dofList w V Gr I (v * w + 1 + i) f = Gr v i f := by
  have := divmod w v (1 + i) (by omega)
  rw [← Nat.add_assoc] at this
  unfold dofList
  rw [if_pos (by simpa [Nat.add_assoc] using vertex_lt w v hv (1 + i) (by omega)), this.2, if_neg (by omega), this.1,
    Nat.add_sub_cancel_left]

omit [Field K] in
theorem dof2 {F : Type} {w : Nat} (V : Nat → F → K) (Gr : Nat → Nat → F → K) (I : Nat → F → K) (k : Nat)
    (f : F) : dofList w V Gr I (w * w + k) f = I k f := by
  unfold dofList
  rw [if_neg (by omega), Nat.add_sub_cancel_left]

/-- Any cell map, curved or not: `val v`, `grad v i` are the value and the derivatives at physical vertex `v`,
`rval v`, `rgrad v i` those on the reference cell, `p f = f ∘ F`, and `g.Js v` the Jacobian matrix of `F` at vertex
`v`, so that the chain rule holds. If the `φ_j` are nodal on the reference cell for values and derivatives at the
vertices (and further degrees of freedom `inner`), the transformed functions are nodal for values and `h` times the
derivatives at the physical vertices. -/
theorem C35_hermite_chain {F G : Type} [AddCommGroup F] [Module K F] (d : Nat) (g : Geometry K) (m N : Nat)
    (hN : N = (d + 1) * (d + 1) + m) (hh : ∀ v < d + 1, g.h v ≠ 0)
    (val : Nat → F → K) (hval : ∀ v, IsLinearMap K (val v))
    (grad : Nat → Nat → F → K) (hgrad : ∀ v i, IsLinearMap K (grad v i))
    (rval : Nat → G → K) (rgrad : Nat → Nat → G → K) (p : F → G)
    (h0 : ∀ v < d + 1, ∀ f, rval v (p f) = val v f)
    (h1 : ∀ v < d + 1, ∀ k < d, ∀ f, rgrad v k (p f) = ∑ j ∈ range d, g.Js v j k * grad v j f)
    (inner : Nat → G → K) (hinner : ∀ k, IsLinearMap K fun f => inner k (p f)) (φ : Nat → F)
    (hφ : ∀ j < N, (∀ v < d + 1, rval v (p (φ j)) = if j = v * (d + 1) then 1 else 0) ∧
      (∀ v < d + 1, ∀ i < d, rgrad v i (p (φ j)) = if j = v * (d + 1) + 1 + i then 1 else 0) ∧
      ∀ k < m, inner k (p (φ j)) = if j = (d + 1) * (d + 1) + k then 1 else 0) :
    let ψ := fun i => ∑ j ∈ range N, (hermite d g N).get i j • φ j
    ∀ i < N, (∀ v < d + 1, val v (ψ i) = if i = v * (d + 1) then 1 else 0) ∧
      (∀ v < d + 1, ∀ k < d, g.h v * grad v k (ψ i) = if i = v * (d + 1) + 1 + k then 1 else 0) ∧
      ∀ k < m, inner k (p (ψ i)) = if i = (d + 1) * (d + 1) + k then 1 else 0 := by
  intro ψ
  set w := d + 1 with hw
  have lt := vertex_lt w
  have cases : ∀ a < N, (∃ v < w, a = v * w) ∨ (∃ v < w, ∃ i < d, a = v * w + 1 + i) ∨ ∃ k < m, a = w * w + k := by
    intro a ha
    by_cases h : a < w * w
    · have hv : a / w < w := by rw [Nat.div_lt_iff_lt_mul (by omega)]; exact h
      have hdm := Nat.div_add_mod a w
      have hma := Nat.mod_lt a (show 0 < w by omega)
      rw [Nat.mul_comm] at hdm
      by_cases hz : a % w = 0
      · exact Or.inl ⟨_, hv, by omega⟩
      · exact Or.inr (Or.inl ⟨_, hv, a % w - 1, by omega, by omega⟩)
    · exact Or.inr (Or.inr ⟨a - w * w, by omega, by omega⟩)
  have c1 := fun n => (hermite_column d g N n).1
  have c0 := fun n => (hermite_column d g N n).2.1
  have c2 := fun n => (hermite_column d g N n).2.2
  rw [← hw] at c0 c1 c2
  have key := nodal_transpose N (fun i k => (hermite d g N).get k i) (dofList w val (fun v i f => g.h v * grad v i f) fun k f => inner k (p f))
    (fun k => by
      unfold dofList
      by_cases ha : k < w * w
      · by_cases hb : k % w = 0
        · simp only [ha, hb, if_true]; exact hval _
        · simp only [ha, hb, if_true, if_false]
          refine ⟨fun x y => ?_, fun c x => ?_⟩
          · rw [(hgrad _ _).map_add, mul_add]
          · rw [(hgrad _ _).map_smul, smul_eq_mul, smul_eq_mul]; ring
      · simp only [ha, if_false]; exact hinner _)
    (dofList w rval rgrad inner) p φ
    (fun i hi j hj => by
      rcases cases i hi with ⟨v, hv, rfl⟩ | ⟨v, hv, k, hk, rfl⟩ | ⟨k, hk, rfl⟩
      · rw [dof0 _ _ _ v hv, c0 _ v hv (by omega), dof0 _ _ _ v hv, h0 v hv]
      · rw [dof1 d w hw _ _ _ v hv k hk,
          c1 _ v hv k hk (by omega), h1 v hv k hk]
        refine Finset.sum_congr rfl fun j hj => ?_
        rw [dof1 d w hw _ _ _ v hv j (Finset.mem_range.1 hj)]
        have := hh v hv
        field_simp
      · rw [c2 _ _ (by omega) (by omega), dof2, dof2])
    (fun i hi j hj => by
      obtain ⟨a0, a1, a2⟩ := hφ j hj
      have hs : ∀ a : Nat, (if j = a then (1 : K) else 0) = if a = j then 1 else 0 := fun a => by
        by_cases h : j = a
        · rw [if_pos h, if_pos h.symm]
        · rw [if_neg h, if_neg (fun h' => h h'.symm)]
      rcases cases i hi with ⟨v, hv, rfl⟩ | ⟨v, hv, k, hk, rfl⟩ | ⟨k, hk, rfl⟩
      · rw [dof0 _ _ _ v hv, a0 v hv, hs]
      · rw [dof1 d w hw _ _ _ v hv k hk, a1 v hv k hk, hs]
      · rw [dof2, a2 k hk, hs])
  have hs : ∀ i a : Nat, (if a = i then (1 : K) else 0) = if i = a then 1 else 0 := fun i a => by
    by_cases h : i = a
    · rw [if_pos h, if_pos h.symm]
    · rw [if_neg h, if_neg (fun h' => h h'.symm)]
  intro i hi
  refine ⟨fun v hv => ?_, fun v hv k hk => ?_, fun k hk => ?_⟩
  · have := key (v * w) (by have := lt v hv 0 (by omega); omega) i hi
    rw [dof0 _ _ _ v hv, hs] at this
    exact this
  · have := key (v * w + 1 + k) (by have := lt v hv (1 + k) (by omega); omega) i hi
    rw [dof1 d w hw _ _ _ v hv k hk, hs] at this
    exact this
  · have := key (w * w + k) (by omega) i hi
    rw [dof2, hs] at this
    exact this

/-- Hermite on the image of a simplex with vertices `x 0, ..., x d` under a polynomial map `F`, in every dimension;
the functions are piecewise polynomials (`QuadraticPowellSabin6` is the case `d = 2`, `m = 0` with pieces). -/
theorem C35_hermite (d : Nat) (g : Geometry K) (m N : Nat) (hN : N = (d + 1) * (d + 1) + m)
    (hh : ∀ v < d + 1, g.h v ≠ 0) (F : Nat → MvPolynomial (Fin d) K) (x : Nat → Nat → K)
    (hJ : ∀ v i j, g.Js v i j = value (x v) (D j (F i)))
    (inner : Nat → Fn d K → K) (hinner : ∀ k, IsLinearMap K (inner k)) (φ : Nat → Fn d K)
    (hφ : ∀ j < N,
      (∀ v < d + 1, value (x v) ((φ j).pullBy F (.vertex v)) = if j = v * (d + 1) then 1 else 0) ∧
      (∀ v < d + 1, ∀ i < d, value (x v) (D i ((φ j).pullBy F (.vertex v))) =
        if j = v * (d + 1) + 1 + i then 1 else 0) ∧
      ∀ k < m, inner k ((φ j).pullBy F) = if j = (d + 1) * (d + 1) + k then 1 else 0) :
    let ψ := fun i => ∑ j ∈ range N, (hermite d g N).get i j • φ j
    let y := fun v i => value (x v) (F i)
    ∀ i < N, (∀ v < d + 1, value (y v) (ψ i (.vertex v)) = if i = v * (d + 1) then 1 else 0) ∧
      (∀ v < d + 1, ∀ k < d, g.h v * value (y v) (D k (ψ i (.vertex v))) =
        if i = v * (d + 1) + 1 + k then 1 else 0) ∧
      ∀ k < m, inner k ((ψ i).pullBy F) = if i = (d + 1) * (d + 1) + k then 1 else 0 := by
  intro ψ y
  refine C35_hermite_chain d g m N hN hh (fun v f => value (y v) (f (.vertex v)))
    (fun v => ⟨fun f g => by simp, fun c f => by simp⟩)
    (fun v i f => value (y v) (D i (f (.vertex v))))
    (fun v i => ⟨fun f g => by simp [D_add], fun c f => by simp [D_smul]⟩)
    (fun v f => value (x v) (f (.vertex v))) (fun v i f => value (x v) (D i (f (.vertex v)))) (Fn.pullBy F)
    (fun v _ f => value_pullBy F (x v) (f (.vertex v))) ?_ inner ?_ φ hφ
  · intro v _ k hk f
    simp only [hJ]
    exact value_D_pullBy F (x v) k hk (f (.vertex v))
  · intro k
    refine ⟨fun f g => ?_, fun c f => ?_⟩
    · rw [show Fn.pullBy F (f + g) = Fn.pullBy F f + Fn.pullBy F g from funext fun p => map_add _ _ _,
        (hinner k).map_add]
    · rw [show Fn.pullBy F (c • f) = c • Fn.pullBy F f from funext fun p => map_smul (pullBy F) c (f p), (hinner k).map_smul]

/-! ### C36 -/

/-- Morley on the image of a triangle with vertices `x 0, x 1, x 2` under `y = b + J x`: `g.rns e` are any vectors
(the reference normals), `g.pts e`, `g.pel e` the unit tangent and the length of the physical edge from its
lower to its higher numbered vertex, `g.pns e` a unit normal of it. If the `φ_j` are nodal on the reference
cell, the transformed functions are nodal for the values at the vertices and the means of the normal derivatives
times the mean of the sizes `h` at the ends of the edge. -/
theorem C36_morley [CharZero K] (g : Geometry K) (x : Nat → Nat → K) (b : Nat → K)
    (hlen : ∀ e < 3, g.pel e ≠ 0) (htan : ∀ e < 3, ∀ i < 2, g.pts e i * g.pel e =
      mapPoint 2 g.J b (x (ends e).2) i - mapPoint 2 g.J b (x (ends e).1) i)
    (hunit : ∀ e < 3, g.pns e 0 * g.pns e 0 + g.pns e 1 * g.pns e 1 = 1 ∧
      g.pts e 0 * g.pts e 0 + g.pts e 1 * g.pts e 1 = 1 ∧ g.pns e 0 * g.pts e 0 + g.pns e 1 * g.pts e 1 = 0)
    (hsize : ∀ e < 3, g.h (ends e).1 + g.h (ends e).2 ≠ 0) (φ : Nat → MvPolynomial (Fin 2) K)
    (hφ : Nodal 6 (morleyDofs x g.rns fun _ => 1) fun j => pull g.J b (φ j)) :
    Nodal 6 (morleyDofs (fun v => mapPoint 2 g.J b (x v)) g.pns fun e => (g.h (ends e).1 + g.h (ends e).2) / 2)
      (fun i => ∑ j ∈ range 6, (morley g 6).get i j • φ j) := by
  refine nodal_transpose 6 (fun i k => (morley g 6).get k i) _ (fun k => ?_) (morleyDofs x g.rns fun _ => 1)
    (fun f => pull g.J b f) φ (fun i hi j hj => ?_) hφ
  · unfold morleyDofs
    by_cases h : k < 3
    · simp only [h, if_true]
      exact ⟨fun f g => map_add _ _ _, fun c f => map_smul _ _ _⟩
    · simp only [h, if_false]
      have ha : ∀ (u : Nat → K) (f f' : MvPolynomial (Fin 2) K), along u (f + f') = along u f + along u f' := by
        intro u f f'; simp only [along, map_add, mul_add, Finset.sum_add_distrib]
      have hm : ∀ (u : Nat → K) (c : K) (f : MvPolynomial (Fin 2) K), along u (c • f) = c • along u f := by
        intro u c f; simp only [along, Derivation.map_smul, mul_smul_comm, Finset.smul_sum]
      refine ⟨fun f f' => ?_, fun c f => ?_⟩
      · rw [ha, map_add, integral_add, mul_add]
      · rw [hm, map_smul, Polynomial.smul_eq_C_mul, integral_C_mul, smul_eq_mul]; ring
  · obtain ⟨p1, p2⟩ := morley_entries g
    by_cases h3 : i < 3
    · rw [Finset.sum_congr rfl (fun k hk => by rw [p1 i h3 k (Finset.mem_range.1 hk)]), Finset.sum_eq_single i]
      · rw [if_pos rfl, one_mul]
        unfold morleyDofs
        rw [if_pos h3, if_pos h3, value_pull]
      · intro k _ hk; rw [if_neg hk, zero_mul]
      · intro h; exact absurd (Finset.mem_range.2 hi) h
    · obtain ⟨e, rfl⟩ : ∃ e, i = 3 + e := ⟨i - 3, by omega⟩
      have he : e < 3 := by omega
      obtain ⟨u1, u2, u3⟩ := hunit e he
      set y := fun v => mapPoint 2 g.J b (x v) with hy
      -- the normal derivative in terms of the physical normal and tangent
      have hcomb : ∀ i < 2, (fun i => ∑ j ∈ range 2, g.J i j * g.rns e j) i =
          morleyB g g.pns e * g.pns e i + (morleyB g g.pts e / g.pel e) * (y (ends e).2 i - y (ends e).1 i) := by
        intro i hi
        have hl := hlen e he
        rw [hy]
        rw [← htan e he i hi]
        simp only [Finset.sum_range_succ, Finset.sum_range_zero, zero_add, morleyB]
        have hN : (g.pns e 0 * g.pts e 1 - g.pns e 1 * g.pts e 0) ^ 2 = 1 := by
          linear_combination (g.pts e 0 ^ 2 + g.pts e 1 ^ 2) * u1 + u2 -
            (g.pns e 0 * g.pts e 0 + g.pns e 1 * g.pts e 1) * u3
        have hA : ∀ a0 a1 : K, g.pns e 0 * (g.pns e 0 * a0 + g.pns e 1 * a1) +
            g.pts e 0 * (g.pts e 0 * a0 + g.pts e 1 * a1) = a0 ∧
            g.pns e 1 * (g.pns e 0 * a0 + g.pns e 1 * a1) +
            g.pts e 1 * (g.pts e 0 * a0 + g.pts e 1 * a1) = a1 := by
          intro a0 a1
          generalize hD : g.pns e 0 * g.pts e 1 - g.pns e 1 * g.pts e 0 = Δ at hN
          have n0 : g.pns e 0 = g.pts e 1 * Δ := by
            rw [← hD]; linear_combination - g.pns e 0 * u2 + g.pts e 0 * u3
          have n1 : g.pns e 1 = - g.pts e 0 * Δ := by
            rw [← hD]; linear_combination - g.pns e 1 * u2 + g.pts e 1 * u3
          rw [n0, n1]
          constructor
          · linear_combination (g.pts e 1 ^ 2 * a0 - g.pts e 0 * g.pts e 1 * a1) * hN + a0 * u2
          · linear_combination (g.pts e 0 ^ 2 * a1 - g.pts e 0 * g.pts e 1 * a0) * hN + a1 * u2
        obtain ⟨q0, q1⟩ := hA (g.J 0 0 * g.rns e 0 + g.J 0 1 * g.rns e 1) (g.J 1 0 * g.rns e 0 + g.J 1 1 * g.rns e 1)
        field_simp
        interval_cases i
        · linear_combination - q0
        · linear_combination - q1
      have hval : ∀ f, morleyDofs y g.pns (fun e => (g.h (ends e).1 + g.h (ends e).2) / 2) (3 + e) f =
          (g.h (ends e).1 + g.h (ends e).2) / 2 *
            integral 0 1 (trace (y (ends e).1) (y (ends e).2) (along (g.pns e) f)) := by
        intro f; unfold morleyDofs; rw [if_neg (by omega), Nat.add_sub_cancel_left]
      have hv : ∀ v < 3, ∀ f, morleyDofs y g.pns (fun e => (g.h (ends e).1 + g.h (ends e).2) / 2) v f =
          value (y v) f := by
        intro v hv f; unfold morleyDofs; rw [if_pos hv]
      have hends : (ends e).1 < 3 ∧ (ends e).2 < 3 ∧ (ends e).1 ≠ (ends e).2 := by
        interval_cases e <;> simp [ends]
      obtain ⟨e1, e2, e3⟩ := hends
      have hlhs : morleyDofs x g.rns (fun _ => 1) (3 + e) (pull g.J b (φ j)) =
          morleyB g g.pns e * integral 0 1 (trace (y (ends e).1) (y (ends e).2) (along (g.pns e) (φ j))) +
          morleyB g g.pts e / g.pel e * (value (y (ends e).2) (φ j) - value (y (ends e).1) (φ j)) := by
        unfold morleyDofs
        rw [if_neg (by omega), Nat.add_sub_cancel_left, one_mul, along_pull, trace_pull,
          along_comb _ _ _ _ _ _ hcomb]
        have hC : ∀ c : K, trace (d := 2) (y (ends e).1) (y (ends e).2) (MvPolynomial.C c) = Polynomial.C c :=
          fun c => by simp [trace]
        rw [show mapPoint 2 g.J b (x (ends e).1) = y (ends e).1 from rfl,
          show mapPoint 2 g.J b (x (ends e).2) = y (ends e).2 from rfl]
        rw [map_add, map_mul, map_mul, hC, hC, integral_add, integral_C_mul, integral_C_mul, ← derivative_trace,
          integral_derivative, eval_trace_one, eval_trace_zero]
      beta_reduce
      rw [hlhs, Finset.sum_congr rfl (fun k hk => by rw [p2 e he k (Finset.mem_range.1 hk)])]
      have hs := hsize e he
      have hsplit : ∀ (n : Nat → K) (A B C : K), ∑ k ∈ range 6, (if k = 3 + e then A else if k = (ends e).1 then B
          else if k = (ends e).2 then C else 0) * n k = A * n (3 + e) + B * n (ends e).1 + C * n (ends e).2 := by
        intro n A B C
        simp only [Finset.sum_range_succ, Finset.sum_range_zero]
        interval_cases e <;> simp [ends] <;> ring
      rw [hsplit, hval, hv _ e1, hv _ e2]
      field_simp
      ring

/-! ### C38: what the vanishing moments say -/

theorem cubic_of_moment [CharZero K] (p : Polynomial K) (hp : p.natDegree ≤ 4)
    (h : integral 0 1 (p * jacobi 0 4) = 0) : p.natDegree ≤ 3 := by
  by_contra hc
  have h4 : p.natDegree = 4 := by omega
  have hsum := p.as_sum_range_C_mul_X_pow
  rw [h4] at hsum
  rw [hsum] at h
  simp only [Finset.sum_range_succ, Finset.sum_range_zero, zero_add, add_mul, mul_assoc, integral_add, integral_C_mul,
    integral_legendre4] at h
  have h' : p.coeff 4 * (1 / 630) = 0 := by
    refine Eq.trans ?_ h
    push_cast
    norm_num
  have : p.coeff 4 ≠ 0 := by
    rw [← h4]
    exact Polynomial.leadingCoeff_ne_zero.2 (by rintro rfl; simp at h4)
  rcases mul_eq_zero.1 h' with h1 | h1
  · exact this h1
  · norm_num at h1

theorem linear_of_moment [CharZero K] (p : Polynomial K) (hp : p.natDegree ≤ 2)
    (h : integral 0 1 (p * jacobi 0 2) = 0) : p.natDegree ≤ 1 := by
  by_contra hc
  have h4 : p.natDegree = 2 := by omega
  have hsum := p.as_sum_range_C_mul_X_pow
  rw [h4] at hsum
  rw [hsum] at h
  simp only [Finset.sum_range_succ, Finset.sum_range_zero, zero_add, add_mul, mul_assoc, integral_add, integral_C_mul,
    integral_legendre2] at h
  have h' : p.coeff 2 * (1 / 30) = 0 := by
    refine Eq.trans ?_ h
    push_cast
    norm_num
  have : p.coeff 2 ≠ 0 := by
    rw [← h4]
    exact Polynomial.leadingCoeff_ne_zero.2 (by rintro rfl; simp at h4)
  rcases mul_eq_zero.1 h' with h1 | h1
  · exact this h1
  · norm_num at h1

/-- The normal derivative along an edge of a combination. -/
theorem normal_degree (G : Tri K) (e N n : Nat) (M : Nat → Nat → K) (φ : Nat → Fn 2 K)
    (h : ∀ j < N, (G.on e (along (G.normal e) (φ j (.edge e 0)))).natDegree ≤ n) (i : Nat) :
    (G.on e (along (G.normal e) (transformed N M φ i (.edge e 0)))).natDegree ≤ n := by
  have ha : ∀ (u : Nat → K) (f f' : MvPolynomial (Fin 2) K), along u (f + f') = along u f + along u f' := by
    intro u f f'; simp only [along, map_add, mul_add, Finset.sum_add_distrib]
  have hm : ∀ (u : Nat → K) (c : K) (f : MvPolynomial (Fin 2) K), along u (c • f) = c • along u f := by
    intro u c f; simp only [along, Derivation.map_smul, mul_smul_comm, Finset.smul_sum]
  have hL : IsLinearMap K fun f : Fn 2 K => G.on e (along (G.normal e) (f (.edge e 0))) := by
    refine ⟨fun f f' => ?_, fun c f => ?_⟩
    · rw [Pi.add_apply, ha]; exact map_add _ _ _
    · rw [Pi.smul_apply, hm]; exact map_smul (trace _ _) _ _
  have hs := map_sum (IsLinearMap.mk' _ hL) (fun j => M i j • φ j) (range N)
  simp only [IsLinearMap.mk'_apply] at hs
  unfold transformed
  rw [hs]
  refine Polynomial.natDegree_sum_le_of_forall_le _ _ fun j hj => ?_
  rw [hL.map_smul]
  exact (Polynomial.natDegree_smul_le _ _).trans (h j (Finset.mem_range.1 hj))

/-- Bell: the normal derivatives of the transformed functions along the edges are cubic. -/
theorem C38_bell_cubic [CharZero K] (R : Tri K) (g : Geometry K) (b : Nat → K) (A : Affine R g b)
    (φ : Nat → Fn 2 K) (hfit : ∀ j < 21, (phys R g b true).Fits whole 6 (φ j))
    (hdeg : ∀ j < 21, ∀ e < 3, ((phys R g b true).on e (φ j (.edge e 0))).natDegree ≤ 5)
    (hn : ∀ j < 21, ∀ e < 3,
      ((phys R g b true).on e (along ((phys R g b true).normal e) (φ j (.edge e 0)))).natDegree ≤ 4)
    (hφ : Nodal 21 (R.jetDofs 6 fun e => R.normalMoment whole e (jacobi 0 4)) fun j => (φ j).pull g.J b) :
    let ψ := transformed 21 (bell (triangle R.vert) R.len g 21 18).get φ
    ∀ e < 3, ∀ i < 18, ((phys R g b true).on e (along ((phys R g b true).normal e) (ψ i (.edge e 0)))).natDegree ≤ 3 := by
  intro ψ e he i hi
  refine cubic_of_moment _ (normal_degree _ e 21 4 _ φ (fun j hj => hn j hj e he) i) ?_
  have := (C38_bell R g b A φ hfit hdeg hφ).2 e he i hi
  unfold Tri.normalMoment at this
  rw [show (phys R g b true).scale e = 1 from rfl, one_mul] at this
  simpa [Split.integral, whole] using this

/-- Reduced Hsieh-Clough-Tocher: the normal derivatives of the transformed functions along the edges are linear. -/
theorem C38_reducedHct_linear [CharZero K] (R : Tri K) (g : Geometry K) (b : Nat → K) (A : Affine R g b)
    (φ : Nat → Fn 2 K) (hfit : ∀ j < 12, (phys R g b true).Fits whole 3 (φ j))
    (hdeg : ∀ j < 12, ∀ e < 3, ((phys R g b true).on e (φ j (.edge e 0))).natDegree ≤ 3)
    (hn : ∀ j < 12, ∀ e < 3,
      ((phys R g b true).on e (along ((phys R g b true).normal e) (φ j (.edge e 0)))).natDegree ≤ 2)
    (hφ : Nodal 12 (R.jetDofs 3 fun e => R.normalMoment whole e (jacobi 0 2)) fun j => (φ j).pull g.J b) :
    let ψ := transformed 12 (reducedHct (triangle R.vert) R.len g 12 9).get φ
    ∀ e < 3, ∀ i < 9, ((phys R g b true).on e (along ((phys R g b true).normal e) (ψ i (.edge e 0)))).natDegree ≤ 1 := by
  intro ψ e he i hi
  refine linear_of_moment _ (normal_degree _ e 12 2 _ φ (fun j hj => hn j hj e he) i) ?_
  have := (C38_reducedHct R g b A φ hfit hdeg hφ).2 e he i hi
  unfold Tri.normalMoment at this
  rw [show (phys R g b true).scale e = 1 from rfl, one_mul] at this
  simpa [Split.integral, whole] using this

/-! ### C37: QuadraticPowellSabin12 -/

/-- `QuadraticPowellSabin12`: edges split into `S.m` segments; jets of three components at the vertices and the
moment of the normal derivative on each edge. -/
theorem C37_powellSabin12 [CharZero K] (R : Tri K) (S : Split K) (hS : S.OK) (g : Geometry K) (b : Nat → K)
    (A : Affine R g b) (avg : Bool) (φ : Nat → Fn 2 K) (hfit : ∀ j < 12, (phys R g b avg).Fits S 3 (φ j))
    (hφ : Nodal 12 (R.jetDofs 3 fun e => R.normalMoment S e 1) fun j => (φ j).pull g.J b) :
    Nodal 12 ((phys R g b avg).jetDofs 3 fun e => (phys R g b avg).normalMoment S e 1)
      (transformed 12 (powellSabin12 (triangle R.vert) R.len g 12 avg).get φ) := by
  have hj : (jacobi 1 0 : Polynomial K) = 1 := by simp [jacobi]
  have key : ∀ (G : Tri K) (I : Nat → Fn 2 K → K) (k : Nat) (_ : k < 12) f, G.momentDofs S 1 3 0 I k f =
      G.jetDofs 3 (fun e => G.normalMoment S e 1) k f := by
    intro G I k hk f
    unfold Tri.momentDofs Tri.jetDofs
    by_cases h : k < 3 * 3
    · rw [if_pos h, if_pos h]
    · rw [if_neg h, if_neg h]
      beta_reduce
      rw [if_pos (by omega)]
      simp [Nat.mod_one, hj]
  have := C37_hct R S hS g b A avg 0 0 12 rfl (fun _ _ => 0) (fun _ => ⟨fun _ _ => by simp, fun _ _ => by simp⟩) φ hfit
    (fun i hi j hj => by rw [key R _ i hi]; exact hφ i hi j hj)
  rw [powellSabin12_eq]
  intro i hi j hj
  have := this i hi j hj
  rwa [key _ _ i hi] at this

end FInAT.Props
