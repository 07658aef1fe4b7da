import Verif.Lemmas.Zany
import Verif.Lemmas.ZanyRows

/-!
# Normal derivatives along edges
-/

namespace FInAT.Zany

open Finset FInAT.Piola FInAT.Spec.Zany

variable {K : Type} [Field K]

theorem pairs_eq (d : Nat) : pairs d = upper d := by
  unfold pairs upper
  refine congrArg List.flatten (List.map_congr_left fun i hi => ?_)
  rw [List.mem_range] at hi
  congr 1
  have : List.range d = List.range i ++ List.range' i (d - i) := by
    have h := List.range'_append_1 (s := 0) (m := i) (n := d - i)
    rw [show i + (d - i) = d by omega, Nat.zero_add] at h
    rw [List.range_eq_range', List.range_eq_range', ← h]
  rw [this, List.filter_append]
  have h1 : (List.range i).filter (fun j => decide (i ≤ j)) = [] := by
    rw [List.filter_eq_nil_iff]; intro a ha; rw [List.mem_range] at ha; simp; omega
  have h2 : (List.range' i (d - i)).filter (fun j => decide (i ≤ j)) = List.range' i (d - i) := by
    rw [List.filter_eq_self]; intro a ha; rw [List.mem_range'_1] at ha; simp; omega
  rw [h1, h2, List.nil_append]

theorem jet_zero {d : Nat} (x : Nat → K) (h : K) (f : MvPolynomial (Fin d) K) : jet x h 0 f = value x f := by
  simp [jet]

theorem jet_grad {d : Nat} (x : Nat → K) (h : K) (i : Nat) (hi : i < d) (f : MvPolynomial (Fin d) K) :
    jet x h (1 + i) f = h * value x (D i f) := by
  unfold jet
  rw [if_neg (by omega), if_pos (by omega), Nat.add_sub_cancel_left]

theorem jet_hess {d : Nat} (x : Nat → K) (h : K) (p : Nat) (f : MvPolynomial (Fin d) K) :
    jet x h (1 + d + p) f = h * h * value x (D ((upper d).getD p (0, 0)).1 (D ((upper d).getD p (0, 0)).2 f)) := by
  unfold jet
  rw [if_neg (by omega), if_neg (by omega), pairs_eq, show 1 + d + p - 1 - d = p by omega]

/-- The vertex rows in every dimension. -/
theorem vertex_rows [NeZero (2 : K)] {d : Nat} (cell : RefCell K) (hsd : cell.sd = d) (g : Geometry K)
    (N ncols M vorder : Nat) (hN : cell.nverts * vwidth d vorder ≤ M) (b : NVec K) (n : Nat → K)
    (f : MvPolynomial (Fin d) K) (v : Nat) (hv : v < cell.nverts)
    (hn : ∀ c < vwidth d vorder, n (v * vwidth d vorder + c) =
      jet (mapPoint d g.J b (cell.verts v)) 1 c f) (c : Nat) (hc : c < vwidth d vorder) :
    act M ((vertexTransform (identity N ncols) vorder cell g).get (v * vwidth d vorder + c)) n =
      jet (cell.verts v) 1 c (pull g.J b f) := by
  subst hsd
  obtain ⟨hG, hH, h0, -⟩ := vertexTransform_rows (identity (K := K) N ncols) vorder cell g
  set w := vwidth cell.sd vorder with hw
  have hw' : w = 1 + cell.sd + hdofs cell.sd vorder := hw
  have hvw : v * w + w ≤ M := by
    have := Nat.mul_le_mul_right w (Nat.succ_le_of_lt hv)
    rw [Nat.succ_mul] at this
    omega
  rcases Nat.eq_zero_or_pos c with rfl | hpos
  · rw [Nat.add_zero, h0 v hv]
    have := act_delta M n (v * w) (by omega)
    rw [show (identity (K := K) N ncols).get (v * w) = fun b => if v * w = b then 1 else 0 from rfl, this]
    have h1 := hn 0 hc
    rw [Nat.add_zero] at h1
    rw [h1, jet_zero, jet_zero, value_pull]
  · by_cases hcd : c ≤ cell.sd
    · obtain ⟨i, rfl⟩ : ∃ i, c = 1 + i := ⟨c - 1, by omega⟩
      rw [← Nat.add_assoc, hG v hv i (by omega)]
      rw [show (identity (K := K) N ncols).get (v * w + 1 + i) =
        fun b => if v * w + 1 + i = b then 1 else 0 from rfl]
      rw [act_block M n (gradBlock g.J i) _ _ _ (by omega) (by omega) (by omega)]
      rw [jet_grad _ _ _ (by omega), one_mul, value_D_pull _ _ _ _ (by omega)]
      refine Finset.sum_congr rfl fun j hj => ?_
      rw [Finset.mem_range] at hj
      rw [show v * w + 1 + j = v * w + (1 + j) by omega, hn _ (by omega), jet_grad _ _ _ hj, one_mul]
      rfl
    · obtain ⟨p, rfl⟩ : ∃ p, c = 1 + cell.sd + p := ⟨c - 1 - cell.sd, by omega⟩
      have hp : p < hdofs cell.sd vorder := by omega
      rw [show v * w + (1 + cell.sd + p) = v * w + 1 + cell.sd + p by omega, hH v hv p hp]
      rw [show (identity (K := K) N ncols).get (v * w + 1 + cell.sd + p) =
        fun b => if v * w + 1 + cell.sd + p = b then 1 else 0 from rfl]
      rw [act_block M n (hessBlock cell.sd g.J p) _ _ _ (by omega) (by omega) (by omega)]
      have hh : hdofs cell.sd vorder = cell.sd * (cell.sd + 1) / 2 := by
        unfold hdofs at hp ⊢
        split at hp
        · omega
        · rw [if_neg ‹_›]
      have hpm : (upper cell.sd).getD p (0, 0) ∈ upper cell.sd := by
        have : p < (upper cell.sd).length := by rw [upper_length]; omega
        rw [List.getD_eq_getElem?_getD, List.getElem?_eq_getElem this]
        exact List.getElem_mem _
      rw [upper_mem] at hpm
      rw [jet_hess, one_mul, one_mul, value_DD_pull _ _ _ _ _ (by omega) (by omega)]
      rw [← hess_row cell.sd g.J (fun m n => value (mapPoint cell.sd g.J b (cell.verts v)) (D m (D n f)))
        (fun m n => by rw [D_comm])]
      rw [hh]
      refine Finset.sum_congr rfl fun q hq => ?_
      rw [Finset.mem_range] at hq
      rw [show v * w + 1 + cell.sd + q = v * w + (1 + cell.sd + q) by omega, hn _ (by omega), jet_hess,
        one_mul, one_mul]

/-! ### The normal derivative -/

theorem matVec_two (J : NMat K) (t : NVec K) (i : Nat) : matVec 2 J t i = J i 0 * t 0 + J i 1 * t 1 := by
  simp [matVec, Finset.sum_range_succ]

theorem dot_two (u v : NVec K) : dot 2 u v = u 0 * v 0 + u 1 * v 1 := by
  simp [dot, Finset.sum_range_succ]

/-- The reference normal as a combination of the image of the tangent turned by a right angle and the
image of the tangent. -/
theorem normal_split (J : NMat K) (detJ : K) (t : NVec K) (L : K) (hdet : detJ = J 0 0 * J 1 1 - J 0 1 * J 1 0)
    (hL : L ≠ 0) (hLt : L * L = t 0 * t 0 + t 1 * t 1)
    (hb : dot 2 (matVec 2 J t) (matVec 2 J t) ≠ 0) :
    let N := normalTangential J detJ t L
    (J 0 0 * (t 1 / L) + J 0 1 * (- t 0 / L) = N.1 * matVec 2 J t 1 + N.2.1 * matVec 2 J t 0) ∧
    (J 1 0 * (t 1 / L) + J 1 1 * (- t 0 / L) = N.1 * (- matVec 2 J t 0) + N.2.1 * matVec 2 J t 1) := by
  intro N
  have hN : N = (detJ / dot 2 (matVec 2 J t) (matVec 2 J t) * L,
      dot 2 (matVec 2 J (rotate t)) (matVec 2 J t) / dot 2 (matVec 2 J t) (matVec 2 J t) / L,
      matVec 2 J t) := rfl
  rw [hN]
  have hr0 : rotate t 0 = t 1 := rfl
  have hr1 : rotate t 1 = - t 0 := rfl
  set β := dot 2 (matVec 2 J t) (matVec 2 J t) with hβ
  have hβ' := hβ
  simp only [dot_two, matVec_two] at hβ'
  simp only [dot_two, matVec_two, hr0, hr1]
  have key : ∀ x y z : K, x * β = detJ * (L * L) * y + z → x / L = detJ / β * L * y + z / β / L := by
    intro x y z h
    field_simp
    linear_combination h
  constructor
  · have := key (J 0 0 * t 1 + J 0 1 * - t 0) (J 1 0 * t 0 + J 1 1 * t 1)
      (((J 0 0 * t 1 + J 0 1 * -t 0) * (J 0 0 * t 0 + J 0 1 * t 1) +
        (J 1 0 * t 1 + J 1 1 * -t 0) * (J 1 0 * t 0 + J 1 1 * t 1)) * (J 0 0 * t 0 + J 0 1 * t 1))
      (by rw [hβ', hLt, hdet]; ring)
    linear_combination this
  · have := key (J 1 0 * t 1 + J 1 1 * - t 0) (- (J 0 0 * t 0 + J 0 1 * t 1))
      (((J 0 0 * t 1 + J 0 1 * -t 0) * (J 0 0 * t 0 + J 0 1 * t 1) +
        (J 1 0 * t 1 + J 1 1 * -t 0) * (J 1 0 * t 0 + J 1 1 * t 1)) * (J 1 0 * t 0 + J 1 1 * t 1))
      (by rw [hβ', hLt, hdet]; ring)
    linear_combination this

theorem along_comb {d : Nat} (a b : K) (x y u : Nat → K) (f : MvPolynomial (Fin d) K)
    (h : ∀ i < d, u i = a * x i + b * y i) :
    along u f = MvPolynomial.C a * along x f + MvPolynomial.C b * along y f := by
  simp only [along, Finset.mul_sum, ← Finset.sum_add_distrib]
  refine Finset.sum_congr rfl fun i _ => ?_
  rw [h i i.2, map_add, map_mul, map_mul]; ring

theorem image_tangent (R : Tri K) (J : NMat K) (b h len sc : Nat → K) (e i : Nat) :
    (R.image J b h len sc).tangent e i = matVec 2 J (R.tangent e) i := by
  simp only [Tri.tangent, Tri.image, mapPoint, matVec, Finset.sum_range_succ, Finset.sum_range_zero]
  ring

/-- The reference normal derivative of `f ∘ F` along an edge, by the physical normal derivative and the
derivative along the edge. -/
theorem normal_on (R : Tri K) (J : NMat K) (detJ : K) (b h len sc : Nat → K)
    (hdet : detJ = J 0 0 * J 1 1 - J 0 1 * J 1 0) (hR : R.Lengths) (hP : (R.image J b h len sc).Lengths)
    (e : Nat) (he : e < 3) (f : MvPolynomial (Fin 2) K) :
    R.on e (along (R.normal e) (pull J b f)) =
      Polynomial.C ((normalTangential J detJ (R.tangent e) (R.len e)).1 * len e) *
        (R.image J b h len sc).on e (along ((R.image J b h len sc).normal e) f) +
      Polynomial.C (normalTangential J detJ (R.tangent e) (R.len e)).2.1 *
        Polynomial.derivative ((R.image J b h len sc).on e f) := by
  have hPe := hP e he
  have hlen : (R.image J b h len sc).len e = len e := rfl
  rw [hlen] at hPe
  obtain ⟨s1, s2⟩ := normal_split J detJ (R.tangent e) (R.len e) hdet (hR e he).1 (hR e he).2 (by
    rw [dot_two, ← image_tangent R J b h len sc, ← image_tangent R J b h len sc, ← hPe.2]
    exact mul_ne_zero hPe.1 hPe.1)
  unfold Tri.on
  rw [along_pull, trace_pull, derivative_trace]
  have hC : ∀ (x y : Nat → K) (c : K), trace (d := 2) x y (MvPolynomial.C c) = Polynomial.C c := fun x y c => by
    simp [trace]
  rw [along_comb ((normalTangential J detJ (R.tangent e) (R.len e)).1 * len e)
    (normalTangential J detJ (R.tangent e) (R.len e)).2.1 ((R.image J b h len sc).normal e)
    ((R.image J b h len sc).tangent e), map_add, map_mul (trace _ _) (MvPolynomial.C _),
    map_mul (trace _ _) (MvPolynomial.C _), hC, hC]
  · rfl
  · intro i hi
    have hne := hPe.1
    have h0 : (R.image J b h len sc).normal e 0 = (R.image J b h len sc).tangent e 1 / len e := rfl
    have h1 : (R.image J b h len sc).normal e 1 = - (R.image J b h len sc).tangent e 0 / len e := rfl
    have r0 : R.normal e 0 = R.tangent e 1 / R.len e := rfl
    have r1 : R.normal e 1 = - R.tangent e 0 / R.len e := rfl
    simp only [Finset.sum_range_succ, Finset.sum_range_zero, zero_add, image_tangent]
    rcases i with _ | _ | i
    · rw [h0, r0, r1, image_tangent, s1]
      field_simp
    · rw [h1, r0, r1, image_tangent]
      simp only [Nat.zero_add]
      rw [s2]
      field_simp
    · omega

theorem split_add (S : Split K) (p q : Nat → Polynomial K) :
    S.integral (fun i => p i + q i) = S.integral p + S.integral q := by
  simp only [Split.integral, integral_add, Finset.sum_add_distrib]

theorem split_C_mul (S : Split K) (c : K) (p : Nat → Polynomial K) :
    S.integral (fun i => Polynomial.C c * p i) = c * S.integral p := by
  simp only [Split.integral, integral_C_mul, Finset.mul_sum]

/-- Integration by parts along an edge that is split into segments. -/
theorem split_by_parts [CharZero K] (S : Split K) (hS : S.OK) (w : Polynomial K) (p : Nat → Polynomial K)
    (hc : ∀ i, i + 1 < S.m → (p i).eval (S.pt (i + 1)) = (p (i + 1)).eval (S.pt (i + 1))) :
    S.integral (fun i => Polynomial.derivative (p i) * w) =
      (p (S.m - 1)).eval 1 * w.eval 1 - (p 0).eval 0 * w.eval 0 -
        S.integral (fun i => p i * Polynomial.derivative w) := by
  simp only [Split.integral, integral_by_parts, Finset.sum_sub_distrib]
  congr 1
  have key : ∀ n, n + 1 ≤ S.m →
      ∑ i ∈ range (n + 1), (p i).eval (S.pt (i + 1)) * w.eval (S.pt (i + 1)) -
        ∑ i ∈ range (n + 1), (p i).eval (S.pt i) * w.eval (S.pt i) =
      (p n).eval (S.pt (n + 1)) * w.eval (S.pt (n + 1)) - (p 0).eval (S.pt 0) * w.eval (S.pt 0) := by
    intro n hn
    induction n with
    | zero => simp
    | succ n ih =>
      rw [Finset.sum_range_succ, Finset.sum_range_succ (n := n + 1)]
      have h1 := ih (by omega)
      have h2 := hc n (by omega)
      linear_combination h1 + w.eval (S.pt (n + 1)) * h2
  have h := key (S.m - 1) (by have := hS.pos; omega)
  rw [show S.m - 1 + 1 = S.m by have := hS.pos; omega, hS.last, hS.first] at h
  exact h

/-- The reference moment of the normal derivative by the physical one, the values at the ends of the edge
and the moment of the function. -/
theorem normal_moment [CharZero K] (R : Tri K) (S : Split K) (hS : S.OK) (J : NMat K) (detJ : K)
    (b h len sc : Nat → K) (hdet : detJ = J 0 0 * J 1 1 - J 0 1 * J 1 0) (hR : R.Lengths)
    (hP : (R.image J b h len sc).Lengths) (hRs : ∀ e, R.scale e = 1) (W : Nat) (hW : 0 < W)
    (e : Nat) (he : e < 3) (w : Polynomial K) (f : Fn 2 K) (hf : (R.image J b h len sc).Fits S W f) :
    R.normalMoment S e w (f.pull J b) =
      (normalTangential J detJ (R.tangent e) (R.len e)).1 * len e *
        (S.integral fun i => (R.image J b h len sc).on e
          (along ((R.image J b h len sc).normal e) (f (.edge e i))) * w) +
      (normalTangential J detJ (R.tangent e) (R.len e)).2.1 *
        (w.eval 1 * value ((R.image J b h len sc).vert (ends e).2) (f (.vertex (ends e).2)) -
          w.eval 0 * value ((R.image J b h len sc).vert (ends e).1) (f (.vertex (ends e).1)) -
          (R.image J b h len sc).traceMoment S e (Polynomial.derivative w) f) := by
  have h1 := hf.start e he 0 hW
  have h2 := hf.stop e he 0 hW
  rw [jet_zero, jet_zero] at h1 h2
  unfold Tri.normalMoment
  rw [hRs, one_mul]
  have : (fun i => R.on e (along (R.normal e) (f.pull J b (.edge e i))) * w) = fun i =>
      Polynomial.C ((normalTangential J detJ (R.tangent e) (R.len e)).1 * len e) *
        ((R.image J b h len sc).on e (along ((R.image J b h len sc).normal e) (f (.edge e i))) * w) +
      Polynomial.C (normalTangential J detJ (R.tangent e) (R.len e)).2.1 *
        (Polynomial.derivative ((R.image J b h len sc).on e (f (.edge e i))) * w) := by
    funext i
    rw [show f.pull J b (.edge e i) = pull J b (f (.edge e i)) from rfl,
      normal_on R J detJ b h len sc hdet hR hP e he]
    ring
  rw [this, split_add, split_C_mul, split_C_mul, split_by_parts S hS w _ (hf.cont e he)]
  have e1 : ((R.image J b h len sc).on e (f (.edge e (S.m - 1)))).eval 1 =
      value ((R.image J b h len sc).vert (ends e).2) (f (.edge e (S.m - 1))) := eval_trace_one _ _ _
  have e0 : ((R.image J b h len sc).on e (f (.edge e 0))).eval 0 =
      value ((R.image J b h len sc).vert (ends e).1) (f (.edge e 0)) := eval_trace_zero _ _ _
  rw [e1, e0, h1, h2]
  unfold Tri.traceMoment
  ring

end FInAT.Zany
