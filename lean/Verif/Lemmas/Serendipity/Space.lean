import Verif.Lemmas.Serendipity.Special
import Verif.Lemmas.Serendipity.Layout
import Mathlib.Algebra.MvPolynomial.CommRing
import Mathlib.LinearAlgebra.FiniteDimensional.Lemmas
import Mathlib.LinearAlgebra.Dimension.Constructions
import Mathlib.Algebra.BigOperators.Fin
import Mathlib.Algebra.BigOperators.Intervals
import Mathlib.RingTheory.Polynomial.Basic

/-! # The space spanned by direct serendipity functions: polynomials and two more functions -/

set_option linter.unusedSectionVars false

namespace FInAT.Serendipity

open FInAT.Spec.Serendipity
open MvPolynomial

/-! ## Polynomial functions -/

section Poly

variable {K : Type} [Field K]

theorem isPoly_const (n : Nat) (a : K) : IsPoly n (fun _ : Pt K => a) :=
  ⟨C a, by simp, fun x => by simp⟩

theorem isPoly_affine {f : Pt K → K} {n : Nat} (hn : 1 ≤ n) (a b c : K)
    (h : ∀ x, f x = a + b * x.1 + c * x.2) : IsPoly n f := by
  refine ⟨C a + C b * X 0 + C c * X 1, ?_, fun x => by rw [h]; simp⟩
  have h1 : (C b * X 0 : MvPolynomial (Fin 2) K).totalDegree ≤ 1 :=
    (totalDegree_mul _ _).trans (by simp)
  have h2 : (C c * X 1 : MvPolynomial (Fin 2) K).totalDegree ≤ 1 :=
    (totalDegree_mul _ _).trans (by simp)
  have h3 : (C a + C b * X 0 : MvPolynomial (Fin 2) K).totalDegree ≤ 1 :=
    (totalDegree_add _ _).trans (by simpa using h1)
  exact ((totalDegree_add _ _).trans (max_le h3 h2)).trans hn

theorem _root_.FInAT.Spec.Serendipity.IsPoly.add {n : Nat} {f g : Pt K → K} (hf : IsPoly n f) (hg : IsPoly n g) :
    IsPoly n fun x => f x + g x := by
  obtain ⟨p, hp, ep⟩ := hf
  obtain ⟨q, hq, eq⟩ := hg
  exact ⟨p + q, (totalDegree_add _ _).trans (max_le hp hq), fun x => by beta_reduce; rw [ep, eq, map_add]⟩

theorem _root_.FInAT.Spec.Serendipity.IsPoly.mul {m n k : Nat} (hk : m + n ≤ k) {f g : Pt K → K} (hf : IsPoly m f)
    (hg : IsPoly n g) : IsPoly k fun x => f x * g x := by
  obtain ⟨p, hp, ep⟩ := hf
  obtain ⟨q, hq, eq⟩ := hg
  exact ⟨p * q, (totalDegree_mul _ _).trans (by omega), fun x => by beta_reduce; rw [ep, eq, map_mul]⟩

theorem _root_.FInAT.Spec.Serendipity.IsPoly.smul {n : Nat} (a : K) {f : Pt K → K} (hf : IsPoly n f) :
    IsPoly n fun x => a * f x :=
  (isPoly_const 0 a).mul (by omega) hf

theorem _root_.FInAT.Spec.Serendipity.IsPoly.pow {n : Nat} {f : Pt K → K} (hf : IsPoly 1 f) : IsPoly n fun x => f x ^ n := by
  induction n with
  | zero => simpa using isPoly_const 0 (1 : K)
  | succ n ih =>
    have := ih.mul (k := n + 1) (by omega) hf
    simpa only [pow_succ] using this

theorem _root_.FInAT.Spec.Serendipity.IsPoly.mono {m n : Nat} (h : m ≤ n) {f : Pt K → K} (hf : IsPoly m f) : IsPoly n f := by
  obtain ⟨p, hp, ep⟩ := hf
  exact ⟨p, hp.trans h, ep⟩

theorem _root_.FInAT.Spec.Serendipity.IsPoly.congr {n : Nat} {f g : Pt K → K} (hf : IsPoly n f) (h : ∀ x, g x = f x) :
    IsPoly n g := by
  obtain ⟨p, hp, ep⟩ := hf
  exact ⟨p, hp, fun x => by rw [h, ep]⟩

theorem isPoly_listProd {α : Type} (l : List α) (F : α → Pt K → K) (d : α → Nat)
    (h : ∀ a ∈ l, IsPoly (d a) (F a)) : IsPoly (l.map d).sum fun x => (l.map fun a => F a x).prod := by
  induction l with
  | nil => simpa using isPoly_const 0 (1 : K)
  | cons a l ih =>
    simp only [List.map_cons, List.prod_cons, List.sum_cons]
    exact (h a (List.mem_cons_self ..)).mul le_rfl
      (ih fun b hb => h b (List.mem_cons_of_mem _ hb))

/-- A polynomial in one variable, evaluated at a linear function. -/
theorem isPoly_eval {n : Nat} (q : Polynomial K) (hq : q.degree < n) {f : Pt K → K}
    (hf : IsPoly 1 f) : IsPoly (n - 1) fun x => q.eval (f x) := by
  obtain ⟨p, hp, ep⟩ := hf
  refine ⟨Polynomial.aeval p q, ?_, fun x => ?_⟩
  · rw [Polynomial.aeval_eq_sum_range]
    refine (totalDegree_finsetSum _ _).trans (Finset.sup_le fun i hi => ?_)
    refine (totalDegree_smul_le _ _).trans ((totalDegree_pow _ _).trans ?_)
    rcases eq_or_ne q 0 with rfl | h0
    · have : i = 0 := by simpa using hi
      simp [this]
    have h1 : q.natDegree < n := (Polynomial.natDegree_lt_iff_degree_lt h0).2 hq
    have h2 : i ≤ q.natDegree := by simpa [Nat.lt_succ_iff] using hi
    calc i * p.totalDegree ≤ i * 1 := Nat.mul_le_mul_left _ hp
      _ ≤ n - 1 := by omega
  · beta_reduce
    rw [ep, Polynomial.aeval_def, Polynomial.hom_eval₂]
    rw [Polynomial.eval]
    congr 1
    ext a
    simp

theorem isPoly_lam (vs : Fin 4 → Pt K) (e : Fin 4) : IsPoly 1 (lam vs e) :=
  isPoly_affine le_rfl (-(xstar vs e).1 * (normal vs e).1 - (xstar vs e).2 * (normal vs e).2)
    (normal vs e).1 (normal vs e).2 fun x => by rw [lam]; ring

end Poly

/-! ## The space -/

variable {K : Type} [Field K] [LinearOrder K] [IsStrictOrderedRing K]

/-- The supplementary function for the pair of opposite edges that `e` belongs to. -/
def supp (vs : Fin 4 → Pt K) (r : Nat) (e : Fin 4) (x : Pt K) : K :=
  lam vs (adjacent e 0) x * lam vs (adjacent e 1) x * (tunnelR vs e x ^ (r - 2) * rEdge vs e x)

/-- Sums of a polynomial of degree `r` and multiples of two functions. -/
def InSpace (vs : Fin 4 → Pt K) (r : Nat) (f : Pt K → K) : Prop :=
  ∃ (g : Pt K → K) (a b : K), IsPoly r g ∧ ∀ x, f x = g x + (a * supp vs r 0 x + b * supp vs r 2 x)

/-- The condition under which the basis is in this space. -/
def Flat (vs : Fin 4 → Pt K) (r : Nat) : Prop :=
  IsPoly (r - 2) (fun x => tunnelR vs 0 x ^ (r - 2)) ∧
    IsPoly (r - 2) (fun x => tunnelR vs 2 x ^ (r - 2))

theorem flat_two (vs : Fin 4 → Pt K) : Flat vs 2 :=
  ⟨by simpa using isPoly_const 0 (1 : K), by simpa using isPoly_const 0 (1 : K)⟩

theorem flat_parallelogram {vs : Fin 4 → Pt K} (hp : Parallelogram vs) (r : Nat) : Flat vs r := by
  obtain ⟨p1, p2⟩ := hp
  have x3 : (vs 3).1 = (vs 1).1 - (vs 0).1 + (vs 2).1 := by rw [p1]; ring
  have y3 : (vs 3).2 = (vs 1).2 - (vs 0).2 + (vs 2).2 := by rw [p2]; ring
  have key : ∀ {i j : Fin 4} (c : K), (∀ x, lam vs i x + lam vs j x = c) →
      IsPoly 1 fun x => (lam vs i x - lam vs j x) / (lam vs i x + lam vs j x) := by
    intro i j c hc
    have : IsPoly 1 fun x => lam vs i x + (-1) * lam vs j x :=
      (isPoly_lam vs i).add ((isPoly_lam vs j).smul _)
    refine (this.smul c⁻¹).congr fun x => ?_
    rw [hc]; rw [div_eq_inv_mul]; ring
  constructor
  · refine IsPoly.pow (key (i := 2) (j := 3) (area (vs 2) (vs 0) (vs 1)) fun x => ?_)
    rw [lam_two, lam_three]; simp only [area, x3, y3]; ring
  · refine IsPoly.pow (key (i := 0) (j := 1) (area (vs 0) (vs 1) (vs 2)) fun x => ?_)
    rw [lam_zero, lam_one]; simp only [area, x3, y3]; ring

theorem InSpace.of_poly {vs : Fin 4 → Pt K} {r : Nat} {f : Pt K → K} (h : IsPoly r f) :
    InSpace vs r f := ⟨f, 0, 0, h, fun x => by ring⟩

theorem InSpace.add {vs : Fin 4 → Pt K} {r : Nat} {f g : Pt K → K} (hf : InSpace vs r f)
    (hg : InSpace vs r g) : InSpace vs r fun x => f x + g x := by
  obtain ⟨p, a, b, hp, e1⟩ := hf
  obtain ⟨q, c, d, hq, e2⟩ := hg
  exact ⟨fun x => p x + q x, a + c, b + d, hp.add hq, fun x => by beta_reduce; rw [e1, e2]; ring⟩

theorem InSpace.smul {vs : Fin 4 → Pt K} {r : Nat} (c : K) {f : Pt K → K} (hf : InSpace vs r f) :
    InSpace vs r fun x => c * f x := by
  obtain ⟨p, a, b, hp, e1⟩ := hf
  exact ⟨fun x => c * p x, c * a, c * b, hp.smul c, fun x => by beta_reduce; rw [e1]; ring⟩

theorem InSpace.congr {vs : Fin 4 → Pt K} {r : Nat} {f g : Pt K → K} (hf : InSpace vs r f)
    (h : ∀ x, g x = f x) : InSpace vs r g := by
  obtain ⟨p, a, b, hp, e1⟩ := hf
  exact ⟨p, a, b, hp, fun x => by rw [h, e1]⟩

theorem InSpace.sub {vs : Fin 4 → Pt K} {r : Nat} {f g : Pt K → K} (hf : InSpace vs r f)
    (hg : InSpace vs r g) : InSpace vs r fun x => f x - g x :=
  (hf.add (hg.smul (-1))).congr fun x => by ring

theorem InSpace.div {vs : Fin 4 → Pt K} {r : Nat} {f : Pt K → K} (hf : InSpace vs r f) (c : K) :
    InSpace vs r fun x => f x / c :=
  (hf.smul c⁻¹).congr fun x => by rw [div_eq_inv_mul]

theorem InSpace.listSum {vs : Fin 4 → Pt K} {r : Nat} {α : Type} (l : List α) (F : α → Pt K → K)
    (h : ∀ a ∈ l, InSpace vs r (F a)) : InSpace vs r fun x => (l.map fun a => F a x).sum := by
  induction l with
  | nil => exact InSpace.of_poly (by simpa using isPoly_const r (0 : K))
  | cons a l ih =>
    simp only [List.map_cons, List.sum_cons]
    exact (h a (List.mem_cons_self ..)).add (ih fun b hb => h b (List.mem_cons_of_mem _ hb))

/-! ## The basis is in the space -/

theorem isPoly_bubble (vs : Fin 4 → Pt K) : IsPoly 4 (bubble vs) := by
  have h := ((((isPoly_lam vs 0).mul (k := 2) le_rfl (isPoly_lam vs 1)).mul (k := 3) le_rfl
    (isPoly_lam vs 2)).mul (k := 4) le_rfl (isPoly_lam vs 3))
  exact h.congr fun x => bubble_eq vs x

theorem isPoly_bary (vs : Fin 4 → Pt K) (r : Nat) (q : Fin 3) : IsPoly 1 fun x => bary vs r x q := by
  have h0 : IsPoly 1 fun x => bary vs r x 0 := by
    let v := triVertex vs r
    let y12 := (v 1).2 - (v 2).2
    let x21 := (v 2).1 - (v 1).1
    let det := y12 * ((v 0).1 - (v 2).1) + x21 * ((v 0).2 - (v 2).2)
    refine isPoly_affine le_rfl (-(y12 * (v 2).1 + x21 * (v 2).2) / det) (y12 / det) (x21 / det)
      fun x => ?_
    change (y12 * (x.1 - (v 2).1) + x21 * (x.2 - (v 2).2)) / det = _
    ring
  have h1 : IsPoly 1 fun x => bary vs r x 1 := by
    let v := triVertex vs r
    let y02 := (v 0).2 - (v 2).2
    let x02 := (v 0).1 - (v 2).1
    let det := ((v 1).2 - (v 2).2) * x02 + ((v 2).1 - (v 1).1) * y02
    refine isPoly_affine le_rfl ((y02 * (v 2).1 - x02 * (v 2).2) / det) (-y02 / det) (x02 / det)
      fun x => ?_
    change (-y02 * (x.1 - (v 2).1) + x02 * (x.2 - (v 2).2)) / det = _
    ring
  obtain rfl | rfl | rfl : q = 0 ∨ q = 1 ∨ q = 2 := by revert q; decide
  · exact h0
  · exact h1
  · refine ((isPoly_const 1 (1 : K)).add ((h0.smul (-1)).add (h1.smul (-1)))).congr fun x => ?_
    change 1 - bary vs r x 0 - bary vs r x 1 = _
    ring

theorem isPoly_lag (vs : Fin 4 → Pt K) (r : Nat) (ii : Fin 3 → Nat) :
    IsPoly (ii 0 + ii 1 + ii 2) (lag vs r ii) := by
  have h := isPoly_listProd (List.finRange 3) (fun q x => ((List.range (ii q)).map fun (p : Nat) =>
    (((r - 4 : Nat) : K) * bary vs r x q - (p : K)) / ((ii q : K) - (p : K))).prod) ii (by
      intro q _
      have := isPoly_listProd (List.range (ii q)) (fun (p : Nat) x =>
        (((r - 4 : Nat) : K) * bary vs r x q - (p : K)) / ((ii q : K) - (p : K))) (fun _ => 1) (by
          intro p _
          refine (((isPoly_bary vs r q).smul (((r - 4 : Nat) : K) / ((ii q : K) - (p : K)))).add
            (isPoly_const 1 (-(p : K) / ((ii q : K) - (p : K))))).congr fun x => ?_
          ring)
      rw [List.map_const', List.sum_replicate, List.length_range, smul_eq_mul, mul_one] at this
      exact this)
  have hs : ((List.finRange 3).map ii).sum = ii 0 + ii 1 + ii 2 := by
    have : (List.finRange 3).map ii = [ii 0, ii 1, ii 2] := rfl
    rw [this]; simp [add_assoc]
  rw [hs] at h
  exact h

theorem internal_inSpace (vs : Fin 4 → Pt K) (r : Nat) :
    ∀ f ∈ internalBfs vs r, InSpace vs r f := by
  intro f hf
  unfold internalBfs at hf
  split at hf
  · simp at hf
  · split at hf
    · next h4 =>
      simp only [List.mem_map] at hf
      obtain ⟨nd, _, rfl⟩ := hf
      exact (InSpace.of_poly ((isPoly_bubble vs).mono (by omega))).div _
    · simp only [List.mem_map] at hf
      obtain ⟨ii, hi, rfl⟩ := hf
      refine (InSpace.of_poly ?_).div _
      exact (isPoly_lag vs r ii).mul (by rw [mem_lattice hi]; omega) (isPoly_bubble vs)

theorem nodalize_inSpace {vs : Fin 4 → Pt K} {r : Nat} {f : Pt K → K} (hf : InSpace vs r f) :
    InSpace vs r (nodalize vs r f) := by
  refine hf.sub (InSpace.listSum _ (fun (p : (Pt K → K) × Pt K) x => f p.2 * p.1 x) ?_)
  intro p hp
  exact (internal_inSpace vs r p.1 (List.of_mem_zip hp).1).smul _

theorem isPoly_edgeP {r : Nat} (hr : 3 ≤ r) (vs : Fin 4 → Pt K) (e : Fin 4) {i : Nat}
    (hi : i < r - 1) : IsPoly (r - 3) (edgeP vs r e i) := by
  let idcs := strike (nodes1d r : List K).length i
  let nodesCur := idcs.map fun j => (nodes1d r : List K).getD j 0
  let edgeCur := idcs.map fun j => (edgeNodes vs r e).getD j (0, 0)
  let pvals := edgeCur.map fun nd => -1 * tunnelR vs e nd ^ (r - 2) / lam vs (opposite e) nd
  obtain ⟨q, hq, hs⟩ := newtonPoly_degree nodesCur pvals
  have hl : nodesCur.length = r - 2 := by
    simp only [nodesCur, idcs, List.length_map, nodes1d_length]
    rw [strike_length hi]; omega
  rw [hl] at hq
  let t := tangent vs e
  let vt0 := (vs (ends e).1).1 * t.1 + (vs (ends e).1).2 * t.2
  let vt1 := (vs (ends e).2).1 * t.1 + (vs (ends e).2).2 * t.2
  have ha : IsPoly 1 fun x : Pt K => (x.1 * t.1 + x.2 * t.2 - vt0) / (vt1 - vt0) :=
    isPoly_affine le_rfl (-vt0 / (vt1 - vt0)) (t.1 / (vt1 - vt0)) (t.2 / (vt1 - vt0))
      fun x => by ring
  have := isPoly_eval q hq ha
  rw [show r - 2 - 1 = r - 3 by omega] at this
  exact this.congr fun x => hs _

theorem supp_inSpace {vs : Fin 4 → Pt K} {r : Nat} (hr : 2 ≤ r) (hf : Flat vs r) (e : Fin 4) :
    InSpace vs r (supp vs r e) := by
  have hz : IsPoly r fun _ : Pt K => (0 : K) := isPoly_const r 0
  rcases fin4 e with rfl | rfl | rfl | rfl
  · exact ⟨fun _ => 0, 1, 0, hz, fun x => by ring⟩
  · refine ⟨fun x => lam vs 2 x * lam vs 3 x * tunnelR vs 0 x ^ (r - 2), -1, 0, ?_, fun x => ?_⟩
    · exact ((isPoly_lam vs 2).mul (k := 2) le_rfl (isPoly_lam vs 3)).mul (by omega) hf.1
    · change lam vs 2 x * lam vs 3 x * (tunnelR vs 0 x ^ (r - 2) * ((1 + rV vs x) / 2))
        = lam vs 2 x * lam vs 3 x * tunnelR vs 0 x ^ (r - 2)
          + (-1 * (lam vs 2 x * lam vs 3 x * (tunnelR vs 0 x ^ (r - 2) * ((1 - rV vs x) / 2)))
          + 0 * _)
      ring
  · exact ⟨fun _ => 0, 0, 1, hz, fun x => by ring⟩
  · refine ⟨fun x => lam vs 0 x * lam vs 1 x * tunnelR vs 2 x ^ (r - 2), 0, -1, ?_, fun x => ?_⟩
    · exact ((isPoly_lam vs 0).mul (k := 2) le_rfl (isPoly_lam vs 1)).mul (by omega) hf.2
    · change lam vs 0 x * lam vs 1 x * (tunnelR vs 2 x ^ (r - 2) * ((1 + rH vs x) / 2))
        = lam vs 0 x * lam vs 1 x * tunnelR vs 2 x ^ (r - 2) + (0 * _
          + -1 * (lam vs 0 x * lam vs 1 x * (tunnelR vs 2 x ^ (r - 2) * ((1 - rH vs x) / 2))))
      ring

theorem edgePre_inSpace {vs : Fin 4 → Pt K} {r : Nat} (hr : 2 ≤ r) (hf : Flat vs r) (e : Fin 4)
    {i : Nat} (hi : i < r - 1) : InSpace vs r (edgePre vs r e i) := by
  by_cases h2 : r = 2
  · refine (supp_inSpace hr hf e).congr fun x => ?_
    rw [edgePre, if_pos h2, supp, h2]
    simp
  · have hp : IsPoly r fun x => lam vs (adjacent e 0) x * lam vs (adjacent e 1) x *
        (lam vs (opposite e) x * edgeP vs r e i x) :=
      ((isPoly_lam vs _).mul (k := 2) le_rfl (isPoly_lam vs _)).mul (n := r - 2) (by omega)
        ((isPoly_lam vs _).mul (by omega) (isPoly_edgeP (by omega) vs e hi))
    refine ((InSpace.of_poly hp).add (supp_inSpace hr hf e)).congr fun x => ?_
    rw [edgePre, if_neg h2, supp]
    ring

theorem edgeBf_inSpace {vs : Fin 4 → Pt K} {r : Nat} (hr : 2 ≤ r) (hf : Flat vs r) (e : Fin 4)
    {i : Nat} (hi : i < r - 1) : InSpace vs r (edgeBf vs r e i) := by
  by_cases h2 : r = 2
  · refine ((nodalize_inSpace (edgePre_inSpace hr hf e hi)).div
      (edgePre vs r e i (xstar vs e))).congr fun x => ?_
    rw [edgeBf, if_pos h2]
  · have h := (nodalize_inSpace (edgePre_inSpace hr hf e hi)).div
      (nodalize vs r (edgePre vs r e i) ((edgeNodes vs r e).getD i (0, 0)))
    refine h.congr fun x => ?_
    rw [edgeBf, if_neg h2]

theorem vertexBf_inSpace {vs : Fin 4 → Pt K} {r : Nat} (hr : 2 ≤ r) (hf : Flat vs r) (v : Fin 4) :
    InSpace vs r (vertexBf vs r v) := by
  refine (nodalize_inSpace ?_).div _
  have h1 : InSpace vs r (lamOff vs v) :=
    InSpace.of_poly ((isPoly_lam vs _).mul (by omega) (isPoly_lam vs _))
  have h2 : InSpace vs r fun x => ((adjEdges v).map fun e => ((List.range (r - 1)).map fun k =>
      lamOff vs v (edgePt vs e (param r k)) * edgeBf vs r e k x).sum).sum := by
    refine InSpace.listSum (adjEdges v) (fun e x => ((List.range (r - 1)).map fun k =>
      lamOff vs v (edgePt vs e (param r k)) * edgeBf vs r e k x).sum) fun e _ => ?_
    refine InSpace.listSum (List.range (r - 1)) (fun k x =>
      lamOff vs v (edgePt vs e (param r k)) * edgeBf vs r e k x) fun k hk => ?_
    exact (edgeBf_inSpace hr hf e (List.mem_range.1 hk)).smul _
  exact (h1.sub h2).congr fun x => vertexPre_eq vs r v x

theorem dsr_inSpace {vs : Fin 4 → Pt K} {r : Nat} (hr : 2 ≤ r) (hf : Flat vs r) :
    ∀ f ∈ dsr vs r, InSpace vs r f := by
  intro f h
  rw [dsr, List.mem_append, List.mem_append, List.mem_map, List.mem_flatMap] at h
  rcases h with (⟨v, _, rfl⟩ | ⟨e, _, h⟩) | h
  · exact vertexBf_inSpace hr hf v
  · obtain ⟨i, hi, rfl⟩ := mem_edgeBfs.1 h
    exact edgeBf_inSpace hr hf e hi
  · exact internal_inSpace vs r f h

/-! ## Dimension -/

/-- Indices of the monomials of degree at most `r` and of the two other functions. -/
abbrev Gens (r : Nat) := (Σ k : Fin (r + 1), Fin (k.val + 1)) ⊕ Bool

/-- The function with this index. -/
def gen (vs : Fin 4 → Pt K) (r : Nat) : Gens r → Pt K → K
  | .inl p => fun x => x.1 ^ p.2.val * x.2 ^ (p.1.val - p.2.val)
  | .inr b => if b then supp vs r 0 else supp vs r 2

/-- Combinations of these functions. -/
def comb (vs : Fin 4 → Pt K) (r : Nat) : (Gens r → K) →ₗ[K] (Pt K → K) where
  toFun c := fun x => ∑ i, c i * gen vs r i x
  map_add' c d := by
    funext x
    simp [add_mul, Finset.sum_add_distrib]
  map_smul' a c := by
    funext x
    change ∑ i, a * c i * gen vs r i x = a * ∑ i, c i * gen vs r i x
    rw [Finset.mul_sum]
    exact Finset.sum_congr rfl fun i _ => mul_assoc _ _ _

theorem gens_card (r : Nat) (hr : 2 ≤ r) : Fintype.card (Gens r) = spaceDimension r := by
  rw [Fintype.card_sum, Fintype.card_sigma, Fintype.card_bool]
  simp only [Fintype.card_fin]
  rw [Fin.sum_univ_eq_sum_range (fun k => k + 1) (r + 1), Finset.sum_add_distrib,
    Finset.sum_range_id, Finset.sum_const, Finset.card_range, smul_eq_mul, mul_one, spaceDimension,
    if_neg (by omega)]
  rw [show r + 1 - 1 = r by omega, show (r + 1) * (r + 2) = (r + 1) * r + (r + 1) * 2 by ring,
    Nat.add_mul_div_right _ _ (by omega)]

theorem gen_mem (vs : Fin 4 → Pt K) (r : Nat) (i : Gens r) :
    gen vs r i ∈ LinearMap.range (comb vs r) := by
  classical
  refine ⟨Pi.single i 1, ?_⟩
  funext x
  change ∑ j, (Pi.single i 1 : Gens r → K) j * gen vs r j x = _
  rw [Finset.sum_eq_single i]
  · simp
  · intro j _ hj
    rw [Pi.single_eq_of_ne hj, zero_mul]
  · simp

theorem inSpace_comb {vs : Fin 4 → Pt K} {r : Nat} {f : Pt K → K} (hf : InSpace vs r f) :
    ∃ c, comb vs r c = f := by
  change f ∈ LinearMap.range (comb vs r)
  obtain ⟨g, a, b, ⟨q, hq, hg⟩, hx⟩ := hf
  have e0 : f = g + (a • supp vs r 0 + b • supp vs r 2) := by
    funext x; rw [hx]; rfl
  rw [e0]
  refine Submodule.add_mem _ ?_ (Submodule.add_mem _ (Submodule.smul_mem _ _ (gen_mem vs r (.inr true)))
    (Submodule.smul_mem _ _ (gen_mem vs r (.inr false))))
  have e1 : g = ∑ d ∈ q.support, q.coeff d • fun x : Pt K => x.1 ^ d 0 * x.2 ^ d 1 := by
    funext x
    rw [hg, MvPolynomial.eval_eq', Finset.sum_apply]
    refine Finset.sum_congr rfl fun d _ => ?_
    rw [Fin.prod_univ_two]
    rfl
  rw [e1]
  refine Submodule.sum_mem _ fun d hd => Submodule.smul_mem _ _ ?_
  have hdeg : d 0 + d 1 ≤ r := by
    have := (le_totalDegree hd).trans hq
    rw [Finsupp.sum_fintype _ _ (fun _ => rfl), Fin.sum_univ_two] at this
    exact this
  have := gen_mem vs r (.inl ⟨⟨d 0 + d 1, by omega⟩, ⟨d 0, by simp⟩⟩)
  have e2 : gen vs r (.inl ⟨⟨d 0 + d 1, by omega⟩, ⟨d 0, by simp⟩⟩)
      = fun x : Pt K => x.1 ^ d 0 * x.2 ^ d 1 := by
    funext x
    simp [gen]
  rwa [e2] at this

/-- A function of the space is the combination of a nodal basis of the right length with its values
at the nodes. -/
theorem reproduce {vs : Fin 4 → Pt K} {r : Nat} (hr : 2 ≤ r) {fs : List (Pt K → K)}
    {ps : List (Pt K)} (hn : Spec.Serendipity.Nodal fs ps) (hl : fs.length = spaceDimension r)
    (hs : ∀ f ∈ fs, InSpace vs r f) {h : Pt K → K} (hh : InSpace vs r h) (x : Pt K) :
    interpolate fs ps h x = h x := by
  classical
  obtain ⟨d, hd⟩ := inSpace_comb hh
  have hI : InSpace vs r (interpolate fs ps h) :=
    InSpace.listSum (List.zip fs ps) (fun (q : (Pt K → K) × Pt K) x => h q.2 * q.1 x)
      fun q hq => (hs q.1 (List.of_mem_zip hq).1).smul _
  obtain ⟨c, hc⟩ := inSpace_comb hI
  have hln : ps.length = spaceDimension r := hn.1 ▸ hl
  -- evaluation at the nodes
  let ev : (Pt K → K) →ₗ[K] (Fin ps.length → K) :=
    { toFun := fun f i => f (ps.get i)
      map_add' := fun _ _ => rfl
      map_smul' := fun _ _ => rfl }
  have hfin : Module.finrank K (Gens r → K) = Module.finrank K (Fin ps.length → K) := by
    rw [Module.finrank_fintype_fun_eq_card, Module.finrank_fintype_fun_eq_card, gens_card r hr,
      Fintype.card_fin, hln]
  have hsurj : Function.Surjective (ev ∘ₗ comb vs r) := by
    intro y
    -- the combination of the basis with coefficients `y`
    have : InSpace vs r fun x => ((List.finRange ps.length).map fun i =>
        y i * (fs.getD i.val (fun _ => 0)) x).sum := by
      refine InSpace.listSum (List.finRange ps.length) (fun i x =>
        y i * (fs.getD i.val (fun _ => 0)) x) fun i _ => (hs _ ?_).smul _
      rw [List.getD_eq_getElem _ _ (by rw [hn.1]; exact i.2)]
      exact List.getElem_mem _
    obtain ⟨b, hb⟩ := inSpace_comb this
    refine ⟨b, ?_⟩
    rw [LinearMap.comp_apply, hb]
    funext j
    change ((List.finRange ps.length).map fun i =>
        y i * (fs.getD i.val (fun _ => 0)) (ps.get j)).sum = y j
    have e : ∀ i : Fin ps.length, y i * (fs.getD i.val (fun _ => 0)) (ps.get j)
        = if i = j then y j else 0 := by
      intro i
      have hi : i.val < fs.length := by rw [hn.1]; exact i.2
      rw [List.getD_eq_getElem _ _ hi]
      have := hn.2 i.val j.val fs[i.val] (ps.get j) (List.getElem?_eq_getElem hi)
        (List.getElem?_eq_getElem j.2)
      rw [this]
      by_cases hij : i = j
      · subst hij; simp
      · rw [if_neg (fun h => hij (Fin.ext h)), if_neg hij, mul_zero]
    simp only [e]
    rw [← List.ofFn_eq_map, List.sum_ofFn]
    simp
  have hinj := (LinearMap.injective_iff_surjective_of_finrank_eq_finrank hfin).2 hsurj
  have : c = d := by
    apply hinj
    rw [LinearMap.comp_apply, LinearMap.comp_apply, hc, hd]
    funext j
    exact sum_zip_nodal hn h (List.getElem?_eq_getElem j.2)
  rw [← hc, ← hd, this]

end FInAT.Serendipity
