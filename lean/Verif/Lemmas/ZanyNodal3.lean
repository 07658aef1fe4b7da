import Verif.Lemmas.ZanyNodal2

/-!
# Rows of the matrices of Bell, the point variant of Argyris and the reduced Hsieh-Clough-Tocher element
-/

namespace FInAT.Zany

open Finset FInAT.Piola FInAT.Spec.Zany

variable {K : Type} [Field K]

theorem ends_lt (e : Nat) : (ends e).1 < (ends e).2 ∧ (ends e).2 < 3 := by
  unfold ends; split <;> [skip; split] <;> simp

theorem mul_ends (w e : Nat) : (ends e).1 * w + w ≤ (ends e).2 * w ∧ (ends e).2 * w + w ≤ 3 * w := by
  obtain ⟨h1, h2⟩ := ends_lt e
  have a := Nat.mul_le_mul_right w (Nat.succ_le_of_lt h1)
  have b := Nat.mul_le_mul_right w (Nat.succ_le_of_lt h2)
  rw [Nat.succ_mul] at a b
  exact ⟨a, b⟩

theorem sum_three (N : Nat) (F : Nat → K) :
    ∑ k ∈ range (N + 3), F k = ∑ k ∈ range N, F k + (F N + F (N + 1) + F (N + 2)) := by
  rw [Finset.sum_range_succ, Finset.sum_range_succ, Finset.sum_range_succ]; ring

/-- Rows of a matrix with jets of `w` components at the vertices and one functional on each edge that is
expressed by its physical counterpart and the jets at the ends. -/
theorem jet_rows [NeZero (2 : K)] (R : Tri K) (g : Geometry K) (b sc : NVec K) (vorder w N ncols : Nat)
    (hw2 : w = vwidth 2 vorder) (hRh : ∀ v, R.h v = 1) (hh : ∀ v < 3, g.h v ≠ 0)
    (ER EP : Nat → Fn 2 K → K) (A : Nat → K) (wr : Nat → List (Nat × K)) (f : Fn 2 K) (V : NMat K)
    (hV1 : ∀ a < 3 * w, ∀ c < 3 * w, V a c =
      (vertexTransform (identity N ncols) vorder (triangle R.vert) g).get a c * jetScale w 2 3 g.h c)
    (hV2 : ∀ a < 3 * w, ∀ e < 3, V a (3 * w + e) = 0)
    (hV3 : ∀ e < 3, ∀ c < 3 * w, V (3 * w + e) c = writes (wr e) (fun _ => 0) c * jetScale w 2 3 g.h c)
    (hV4 : ∀ e < 3, ∀ e' < 3, V (3 * w + e) (3 * w + e') = if e = e' then A e else 0)
    (hE : ∀ e < 3, ER e (f.pull g.J b) = A e * EP e f + act (3 * w) (writes (wr e) fun _ => 0)
      (fun k => jet (mapPoint 2 g.J b (R.vert (k / w))) 1 (k % w) (f (.vertex (k / w)))))
    (i : Nat) (hi : i < 3 * w + 3) :
    R.jetDofs w ER i (f.pull g.J b) = ∑ k ∈ range (3 * w + 3), V i k *
      (R.image g.J b g.h g.pel sc).jetDofs w EP k f := by
  set P := R.image g.J b g.h g.pel sc with hP
  let P1 : Tri K := { P with h := fun _ => 1 }
  have hwpos : 0 < w := by rw [hw2]; unfold vwidth; omega
  have hsplit : ∀ r : Nat → K, (∀ c < 3 * w, V i c = r c * jetScale w 2 3 g.h c) →
      ∑ k ∈ range (3 * w), V i k * P.jetDofs w EP k f =
        act (3 * w) r (fun k => P1.jetDofs w EP k f) := by
    intro r hr
    rw [← act_scaled (3 * w) r (jetScale w 2 3 g.h) (fun k => P.jetDofs w EP k f)]
    · exact Finset.sum_congr rfl fun k hk => by rw [hr k (Finset.mem_range.1 hk)]
    · intro k _
      exact jetDofs_scale P P1 w EP rfl (fun _ => rfl) hh hwpos f k
  rw [sum_three, jetDofs_rest P w EP f 1, jetDofs_rest P w EP f 2,
    show P.jetDofs w EP (3 * w) f = EP 0 f from jetDofs_rest P w EP f 0]
  by_cases h1 : i < 3 * w
  · rw [hsplit _ (hV1 i h1)]
    have z0 := hV2 i h1 0 (by omega)
    rw [Nat.add_zero] at z0
    rw [z0, hV2 i h1 1 (by omega), hV2 i h1 2 (by omega)]
    obtain ⟨v, c, hv, hc, rfl⟩ : ∃ v c, v < 3 ∧ c < w ∧ i = v * w + c :=
      ⟨i / w, i % w, by rw [Nat.div_lt_iff_lt_mul hwpos]; omega, Nat.mod_lt _ hwpos,
        by rw [Nat.mul_comm]; exact (Nat.div_add_mod i w).symm⟩
    have := vertex_rows (d := 2) (triangle R.vert) rfl g N ncols (3 * w) vorder
      (by rw [← hw2, show (triangle R.vert).nverts = 3 from rfl]) b
      (fun k => P1.jetDofs w EP k f) (f (.vertex v)) v hv
      (by
        intro c' hc'
        rw [← hw2] at hc' ⊢
        exact jetDofs_at P1 w _ f v c' hv hc') c (by rw [← hw2]; exact hc)
    rw [← hw2] at this
    rw [this, jetDofs_at R w _ _ v c hv hc, hRh]
    simp
    rfl
  · obtain ⟨e, rfl⟩ : ∃ e, i = 3 * w + e := ⟨i - 3 * w, by omega⟩
    have he : e < 3 := by omega
    rw [hsplit _ (hV3 e he), jetDofs_rest R w ER _ e, hE e he]
    have z0 := hV4 e he 0 (by omega)
    rw [Nat.add_zero] at z0
    rw [z0, hV4 e he 1 (by omega), hV4 e he 2 (by omega)]
    have hact : act (3 * w) (writes (wr e) fun _ => 0)
        (fun k => jet (mapPoint 2 g.J b (R.vert (k / w))) 1 (k % w) (f (.vertex (k / w)))) =
        act (3 * w) (writes (wr e) fun _ => 0) (fun k => P1.jetDofs w EP k f) := by
      refine Finset.sum_congr rfl fun k hk => ?_
      rw [Finset.mem_range] at hk
      simp only [Tri.jetDofs]
      rw [if_pos hk]
      rfl
    rw [hact]
    rcases e with _ | _ | _ | e
    · simp; ring
    · simp; ring
    · simp; ring
    · omega

/-! ### The edge functionals by jets -/

/-- The jets at the ends of edge `e`, combined as on the edge rows. -/
theorem act_jets2 (R : Tri K) (J : NMat K) (b h len sc : NVec K) (S : Split K) (hS1 : S.m = 1) (c0 c1 c2 Bnt : K)
    (f : Fn 2 K) (hf : (R.image J b h len sc).Fits S 6 f) (e : Nat) (he : e < 3) :
    act (3 * 6) (writes (jetWrites2 ((ends e).1 * 6) ((ends e).2 * 6) c0 c1 c2 Bnt (matVec 2 J (R.tangent e)))
        fun _ => 0)
      (fun k => jet (mapPoint 2 J b (R.vert (k / 6))) 1 (k % 6) (f (.vertex (k / 6)))) =
    Bnt * (c0 * (((R.image J b h len sc).on e (f (.edge e 0))).eval 1 -
        ((R.image J b h len sc).on e (f (.edge e 0))).eval 0) +
      c1 * ((Polynomial.derivative ((R.image J b h len sc).on e (f (.edge e 0)))).eval 1 +
        (Polynomial.derivative ((R.image J b h len sc).on e (f (.edge e 0)))).eval 0) +
      c2 * ((Polynomial.derivative (Polynomial.derivative ((R.image J b h len sc).on e (f (.edge e 0))))).eval 1 -
        (Polynomial.derivative (Polynomial.derivative ((R.image J b h len sc).on e (f (.edge e 0))))).eval 0)) := by
  obtain ⟨m1, m2⟩ := mul_ends 6 e
  rw [act_jetWrites2 _ _ _ _ _ _ _ _ _ _ m1 m2 (fun _ _ => rfl)]
  set P := R.image J b h len sc with hP
  have hz : act (3 * 6) (fun _ => (0 : K))
      (fun k => jet (mapPoint 2 J b (R.vert (k / 6))) 1 (k % 6) (f (.vertex (k / 6)))) = 0 := by
    simp [act]
  have hstart : ∀ c < 6, jet (mapPoint 2 J b (R.vert (ends e).1)) 1 c (f (.vertex (ends e).1)) =
      jet (P.vert (ends e).1) 1 c (f (.edge e 0)) := fun c hc => (hf.start e he c hc).symm
  have hstop : ∀ c < 6, jet (mapPoint 2 J b (R.vert (ends e).2)) 1 c (f (.vertex (ends e).2)) =
      jet (P.vert (ends e).2) 1 c (f (.edge e 0)) := fun c hc => by
    have := (hf.stop e he c hc).symm
    rwa [hS1] at this
  have hd0 : ∀ c < 6, jet (mapPoint 2 J b (R.vert (((ends e).1 * 6 + c) / 6))) 1 (((ends e).1 * 6 + c) % 6)
      (f (.vertex (((ends e).1 * 6 + c) / 6))) = jet (P.vert (ends e).1) 1 c (f (.edge e 0)) := fun c hc => by
    obtain ⟨q1, q2⟩ := divmod 6 (ends e).1 c hc
    rw [q1, q2, hstart c hc]
  have hd1 : ∀ c < 6, jet (mapPoint 2 J b (R.vert (((ends e).2 * 6 + c) / 6))) 1 (((ends e).2 * 6 + c) % 6)
      (f (.vertex (((ends e).2 * 6 + c) / 6))) = jet (P.vert (ends e).2) 1 c (f (.edge e 0)) := fun c hc => by
    obtain ⟨q1, q2⟩ := divmod 6 (ends e).2 c hc
    rw [q1, q2, hstop c hc]
  have z0 := hd0 0 (by omega)
  have z1 := hd1 0 (by omega)
  rw [Nat.add_zero] at z0 z1
  obtain ⟨o1, o2, o3, o4, o5, o6⟩ := on_jets P e (f (.edge e 0))
  rw [hz, z0, z1, hd0 1 (by omega), hd0 2 (by omega), hd0 3 (by omega), hd0 4 (by omega), hd0 5 (by omega),
    hd1 1 (by omega), hd1 2 (by omega), hd1 3 (by omega), hd1 4 (by omega), hd1 5 (by omega),
    o1, o2, o3, o4, o5, o6]
  obtain ⟨a0, a1, a2, a3, a4, a5⟩ := jet_values2 (P.vert (ends e).1) (f (.edge e 0))
  obtain ⟨b0, b1, b2, b3, b4, b5⟩ := jet_values2 (P.vert (ends e).2) (f (.edge e 0))
  rw [a0, a1, a2, a3, a4, a5, b0, b1, b2, b3, b4, b5, value_along, value_along, value_along2, value_along2]
  rw [image_tangent, image_tangent]
  ring

/-- The same with jets of three components. -/
theorem act_jets1 (R : Tri K) (J : NMat K) (b h len sc : NVec K) (S : Split K) (hS1 : S.m = 1) (c0 c1 Bnt : K)
    (f : Fn 2 K) (hf : (R.image J b h len sc).Fits S 3 f) (e : Nat) (he : e < 3) :
    act (3 * 3) (writes (jetWrites1 ((ends e).1 * 3) ((ends e).2 * 3) c0 c1 Bnt (matVec 2 J (R.tangent e)))
        fun _ => 0)
      (fun k => jet (mapPoint 2 J b (R.vert (k / 3))) 1 (k % 3) (f (.vertex (k / 3)))) =
    Bnt * (c0 * (((R.image J b h len sc).on e (f (.edge e 0))).eval 0 -
        ((R.image J b h len sc).on e (f (.edge e 0))).eval 1) +
      c1 * ((Polynomial.derivative ((R.image J b h len sc).on e (f (.edge e 0)))).eval 1 +
        (Polynomial.derivative ((R.image J b h len sc).on e (f (.edge e 0)))).eval 0)) := by
  obtain ⟨m1, m2⟩ := mul_ends 3 e
  rw [act_jetWrites1 _ _ _ _ _ _ _ _ _ m1 m2 (fun _ _ => rfl)]
  set P := R.image J b h len sc with hP
  have hz : act (3 * 3) (fun _ => (0 : K))
      (fun k => jet (mapPoint 2 J b (R.vert (k / 3))) 1 (k % 3) (f (.vertex (k / 3)))) = 0 := by
    simp [act]
  have hstop : ∀ c < 3, jet (mapPoint 2 J b (R.vert (ends e).2)) 1 c (f (.vertex (ends e).2)) =
      jet (P.vert (ends e).2) 1 c (f (.edge e 0)) := fun c hc => by
    have := (hf.stop e he c hc).symm
    rwa [hS1] at this
  have hd0 : ∀ c < 3, jet (mapPoint 2 J b (R.vert (((ends e).1 * 3 + c) / 3))) 1 (((ends e).1 * 3 + c) % 3)
      (f (.vertex (((ends e).1 * 3 + c) / 3))) = jet (P.vert (ends e).1) 1 c (f (.edge e 0)) := fun c hc => by
    obtain ⟨q1, q2⟩ := divmod 3 (ends e).1 c hc
    rw [q1, q2]
    exact (hf.start e he c hc).symm
  have hd1 : ∀ c < 3, jet (mapPoint 2 J b (R.vert (((ends e).2 * 3 + c) / 3))) 1 (((ends e).2 * 3 + c) % 3)
      (f (.vertex (((ends e).2 * 3 + c) / 3))) = jet (P.vert (ends e).2) 1 c (f (.edge e 0)) := fun c hc => by
    obtain ⟨q1, q2⟩ := divmod 3 (ends e).2 c hc
    rw [q1, q2, hstop c hc]
  have z0 := hd0 0 (by omega)
  have z1 := hd1 0 (by omega)
  rw [Nat.add_zero] at z0 z1
  obtain ⟨o1, o2, o3, o4, -, -⟩ := on_jets P e (f (.edge e 0))
  rw [hz, z0, z1, hd0 1 (by omega), hd0 2 (by omega), hd1 1 (by omega), hd1 2 (by omega), o1, o2, o3, o4]
  obtain ⟨a0, a1, a2, -, -, -⟩ := jet_values2 (P.vert (ends e).1) (f (.edge e 0))
  obtain ⟨b0, b1, b2, -, -, -⟩ := jet_values2 (P.vert (ends e).2) (f (.edge e 0))
  rw [a0, a1, a2, b0, b1, b2, value_along, value_along]
  rw [image_tangent, image_tangent]
  ring

end FInAT.Zany
