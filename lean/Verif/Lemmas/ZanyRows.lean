import Verif.Model.Zany
import Mathlib.Algebra.BigOperators.Ring.Finset
import Mathlib.Algebra.BigOperators.Fin
import Mathlib.Tactic.Ring
import Mathlib.Tactic.FieldSimp
import Mathlib.Tactic.LinearCombination

/-!
# Rows of the transformation matrices
-/

namespace FInAT.Zany

open Finset FInAT.Piola

variable {K : Type} [Field K]

/-- `Σ_k r[k] n[k]`. -/
def act (N : Nat) (r n : Nat → K) : K := ∑ k ∈ range N, r k * n k

theorem act_update (N : Nat) (r n : Nat → K) (j : Nat) (x : K) (hj : j < N) :
    act N (Function.update r j x) n = act N r n + (x - r j) * n j := by
  unfold act
  have h1 : ∀ k ∈ range N, Function.update r j x k * n k = r k * n k +
      (if k = j then (x - r j) * n j else 0) := by
    intro k _
    by_cases h : k = j
    · subst h; simp; ring
    · simp [h]
  rw [Finset.sum_congr rfl h1, Finset.sum_add_distrib, Finset.sum_ite_eq' (range N) j]
  simp [hj]

theorem act_delta (N : Nat) (n : Nat → K) (a : Nat) (ha : a < N) :
    act N (fun b => if a = b then 1 else 0) n = n a := by
  unfold act
  simp [ha]

/-- A row with a block: the identity row outside of the columns `[c, c + m)`, which contain the diagonal. -/
theorem act_block (N : Nat) (n B : Nat → K) (a c m : Nat) (h1 : c ≤ a) (h2 : a < c + m) (h3 : c + m ≤ N) :
    act N (fun b => if c ≤ b ∧ b < c + m then B (b - c) else if a = b then 1 else 0) n =
      ∑ j ∈ range m, B j * n (c + j) := by
  unfold act
  have hsub : Ico c (c + m) ⊆ range N := by
    intro x hx; rw [Finset.mem_Ico] at hx; rw [Finset.mem_range]; omega
  rw [← Finset.sum_subset hsub]
  · rw [Finset.sum_Ico_eq_sum_range]
    simp only [Nat.add_sub_cancel_left]
    refine Finset.sum_congr rfl fun j hj => ?_
    rw [Finset.mem_range] at hj
    rw [if_pos ⟨by omega, by omega⟩]
  · intro x _ hx
    rw [Finset.mem_Ico] at hx
    simp only []
    rw [if_neg hx, if_neg (by omega), zero_mul]

omit [Field K] in
/-- A loop whose passes rewrite disjoint sets of rows. -/
theorem foldl_rows {ι : Type} (step : Arr K → ι → Arr K) (R : ι → Nat → Prop)
    (gr : ι → Nat → (Nat → K) → (Nat → K)) (l : List ι)
    (hin : ∀ V, ∀ x ∈ l, ∀ a, R x a → (step V x).get a = gr x a (V.get a))
    (hout : ∀ V, ∀ x ∈ l, ∀ a, ¬ R x a → (step V x).get a = V.get a)
    (hd : l.Pairwise fun x y => ∀ a, R x a → ¬ R y a) (V : Arr K) :
    (∀ x ∈ l, ∀ a, R x a → (l.foldl step V).get a = gr x a (V.get a)) ∧
      ∀ a, (∀ x ∈ l, ¬ R x a) → (l.foldl step V).get a = V.get a := by
  induction l generalizing V with
  | nil => exact ⟨fun x hx => absurd hx (by simp), fun a _ => rfl⟩
  | cons y l ih =>
    rw [List.pairwise_cons] at hd
    obtain ⟨ih1, ih2⟩ := ih (fun V x hx => hin V x (List.mem_cons_of_mem _ hx))
      (fun V x hx => hout V x (List.mem_cons_of_mem _ hx)) hd.2 (step V y)
    constructor
    · intro x hx a ha
      rw [List.foldl_cons]
      rcases List.mem_cons.1 hx with rfl | hx'
      · rw [ih2 a fun z hz hza => hd.1 z hz a ha hza]
        exact hin V x (by simp) a ha
      · rw [ih1 x hx' a ha, hout V y (by simp) a fun hya => hd.1 x hx' a hya ha]
    · intro a ha
      rw [List.foldl_cons, ih2 a fun x hx => ha x (List.mem_cons_of_mem _ hx),
        hout V y (by simp) a (ha y (by simp))]

omit [Field K] in
theorem foldl_shape {ι : Type} (step : Arr K → ι → Arr K)
    (hr : ∀ V x, (step V x).rows = V.rows) (hc : ∀ V x, (step V x).cols = V.cols) (l : List ι) (V : Arr K) :
    (l.foldl step V).rows = V.rows ∧ (l.foldl step V).cols = V.cols := by
  induction l generalizing V with
  | nil => exact ⟨rfl, rfl⟩
  | cons y l ih => rw [List.foldl_cons]; exact ⟨(ih _).1.trans (hr _ _), (ih _).2.trans (hc _ _)⟩

/-- A loop with a counter that grows by a constant. -/
theorem foldl_counter {σ : Type} (f : Nat × σ → Nat → Nat × σ) (w : Nat) (st : σ → Nat → σ)
    (hf : ∀ s V v, s = v * w → f (s, V) v = ((v + 1) * w, st V v)) (V : σ) (n : Nat) :
    (List.range n).foldl f (0, V) = (n * w, (List.range n).foldl st V) := by
  induction n with
  | zero => simp
  | succ n ih =>
    rw [List.range_succ, List.foldl_append, List.foldl_append, ih]
    exact hf _ _ _ rfl

/-! ### The vertex loop -/

/-- Number of second derivatives kept. -/
def hdofs (sd vorder : Nat) : Nat := if vorder < 2 then 0 else (sd * (sd + 1)) / 2

/-- Degrees of freedom per vertex. -/
def vwidth (sd vorder : Nat) : Nat := 1 + sd + hdofs sd vorder

/-- The state after vertex `v`, without the counter. -/
def vertexStep' (sd vorder : Nat) (J : NMat K) (V : Arr K) (v : Nat) : Arr K :=
  ((V.setBlock (v * vwidth sd vorder + 1) (v * vwidth sd vorder + 1) sd sd (gradBlock J)).setBlock
    (v * vwidth sd vorder + 1 + sd) (v * vwidth sd vorder + 1 + sd) (hdofs sd vorder) (hdofs sd vorder)
    (hessBlock sd J))

theorem vertexTransform_eq (V : Arr K) (vorder : Nat) (cell : RefCell K) (g : Geometry K) :
    vertexTransform V vorder cell g =
      (List.range cell.nverts).foldl (vertexStep' cell.sd vorder g.J) V := by
  unfold vertexTransform
  rw [foldl_counter _ (vwidth cell.sd vorder) (vertexStep' cell.sd vorder g.J)]
  rintro s V v rfl
  simp only [vertexStep, vertexStep', vwidth, hdofs]
  refine Prod.ext ?_ rfl
  ring_nf

theorem vertexTransform_rows (V : Arr K) (vorder : Nat) (cell : RefCell K) (g : Geometry K) :
    (∀ v < cell.nverts, ∀ i < cell.sd, (vertexTransform V vorder cell g).get
        (v * vwidth cell.sd vorder + 1 + i) = fun b =>
        if v * vwidth cell.sd vorder + 1 ≤ b ∧ b < v * vwidth cell.sd vorder + 1 + cell.sd then
          gradBlock g.J i (b - (v * vwidth cell.sd vorder + 1))
        else V.get (v * vwidth cell.sd vorder + 1 + i) b) ∧
    (∀ v < cell.nverts, ∀ p < hdofs cell.sd vorder, (vertexTransform V vorder cell g).get
        (v * vwidth cell.sd vorder + 1 + cell.sd + p) = fun b =>
        if v * vwidth cell.sd vorder + 1 + cell.sd ≤ b ∧
            b < v * vwidth cell.sd vorder + 1 + cell.sd + hdofs cell.sd vorder then
          hessBlock cell.sd g.J p (b - (v * vwidth cell.sd vorder + 1 + cell.sd))
        else V.get (v * vwidth cell.sd vorder + 1 + cell.sd + p) b) ∧
    (∀ v < cell.nverts, (vertexTransform V vorder cell g).get (v * vwidth cell.sd vorder) =
        V.get (v * vwidth cell.sd vorder)) ∧
    ∀ a, cell.nverts * vwidth cell.sd vorder ≤ a → (vertexTransform V vorder cell g).get a = V.get a := by
  rw [vertexTransform_eq]
  set w := vwidth cell.sd vorder with hw
  have hw' : w = 1 + cell.sd + hdofs cell.sd vorder := hw
  have hdist : ∀ x y : Nat, x < y → x * w + w ≤ y * w := by
    intro x y hxy
    have := Nat.mul_le_mul_right w (Nat.succ_le_of_lt hxy)
    rwa [Nat.succ_mul] at this
  have key := foldl_rows (vertexStep' cell.sd vorder g.J)
    (fun v a => v * w + 1 ≤ a ∧ a < v * w + w)
    (fun v a r => if a < v * w + 1 + cell.sd then
        fun b => if v * w + 1 ≤ b ∧ b < v * w + 1 + cell.sd then gradBlock g.J (a - (v * w + 1))
          (b - (v * w + 1)) else r b
      else fun b => if v * w + 1 + cell.sd ≤ b ∧ b < v * w + 1 + cell.sd + hdofs cell.sd vorder then
          hessBlock cell.sd g.J (a - (v * w + 1 + cell.sd)) (b - (v * w + 1 + cell.sd)) else r b)
    (List.range cell.nverts) (?hin) (?hout) (?hd) V
  case hin =>
    intro V v hv a ⟨ha1, ha2⟩
    simp only [vertexStep', Arr.setBlock]
    rw [← hw]
    by_cases h : a < v * w + 1 + cell.sd
    · rw [if_pos h, if_neg (by omega), if_pos ⟨ha1, h⟩]
    · rw [if_neg h, if_pos ⟨by omega, by omega⟩, if_neg (by omega)]
  case hout =>
    intro V v hv a ha
    simp only [vertexStep', Arr.setBlock]
    rw [← hw]
    rw [if_neg (by omega), if_neg (by omega)]
  case hd =>
    refine List.pairwise_lt_range.imp ?_
    rintro x y hxy a ⟨ha1, ha2⟩ ⟨hb1, hb2⟩
    have := hdist _ _ hxy
    omega
  obtain ⟨h1, h2⟩ := key
  refine ⟨?_, ?_, ?_, ?_⟩
  · intro v hv i hi
    rw [h1 v (List.mem_range.2 hv) _ ⟨by omega, by omega⟩]
    rw [if_pos (by omega), Nat.add_sub_cancel_left]
  · intro v hv p hp
    rw [h1 v (List.mem_range.2 hv) _ ⟨by omega, by omega⟩]
    rw [if_neg (by omega), Nat.add_sub_cancel_left]
  · intro v hv
    rw [h2]
    rintro x hx ⟨hx1, hx2⟩
    rcases Nat.lt_trichotomy x v with h | h | h
    · have := hdist _ _ h; omega
    · subst h; omega
    · have := hdist _ _ h; omega
  · intro a ha
    rw [h2]
    rintro x hx ⟨hx1, hx2⟩
    have := hdist x cell.nverts (List.mem_range.1 hx)
    omega

/-! ### Sums over the upper triangle -/

theorem sum_range_list (l : List (Nat × Nat)) (F : Nat × Nat → K) :
    ∑ q ∈ range l.length, F (l.getD q (0, 0)) = (l.map F).sum := by
  induction l with
  | nil => simp
  | cons x l ih =>
    rw [List.length_cons, Finset.sum_range_succ', List.map_cons, List.sum_cons, ← ih, add_comm]
    rfl

theorem sum_list_range (n : Nat) (F : Nat → K) : ((List.range n).map F).sum = ∑ i ∈ range n, F i := by
  induction n with
  | zero => simp
  | succ n ih => rw [List.range_succ, Finset.sum_range_succ, ← ih]; simp

theorem sum_upper (d : Nat) (F : Nat × Nat → K) :
    ((upper d).map F).sum = ∑ m ∈ range d, ∑ n ∈ range (d - m), F (m, m + n) := by
  unfold upper
  have hfl : ∀ (l : List Nat) (G : Nat → List K), (l.flatMap G).sum = (l.map fun a => (G a).sum).sum := by
    intro l G
    induction l with
    | nil => rfl
    | cons a l ih => simp [List.flatMap_cons, ih]
  rw [List.map_flatMap, hfl, sum_list_range]
  refine Finset.sum_congr rfl fun m _ => ?_
  rw [List.map_map, List.range'_eq_map_range, List.map_map, ← sum_list_range]
  rfl

theorem upper_length (d : Nat) : (upper d).length = d * (d + 1) / 2 := by
  have h : (upper d).length = ∑ m ∈ range d, (d - m) := by
    unfold upper
    rw [List.length_flatMap]
    simp only [List.length_map, List.length_range']
    induction d with
    | zero => simp
    | succ d _ =>
      have : ∀ (n : Nat) (F : Nat → Nat), ((List.range n).map F).sum = ∑ i ∈ range n, F i := by
        intro n F
        induction n with
        | zero => simp
        | succ n ih => rw [List.range_succ, Finset.sum_range_succ, ← ih]; simp
      exact this _ _
  rw [h]
  have h2 : (∑ m ∈ range d, (d - m)) * 2 = d * (d + 1) := by
    clear h
    induction d with
    | zero => simp
    | succ d ih =>
      rw [Finset.sum_range_succ']
      simp only [Nat.add_sub_add_right, Nat.sub_zero]
      rw [add_mul, ih]; ring
  omega

theorem upper_mem (d : Nat) (p : Nat × Nat) : p ∈ upper d ↔ p.1 ≤ p.2 ∧ p.2 < d := by
  obtain ⟨i, j⟩ := p
  simp only [upper, List.mem_flatMap, List.mem_range, List.mem_map, List.mem_range'_1, Prod.mk.injEq]
  constructor
  · rintro ⟨a, ha, b, hb, rfl, rfl⟩; omega
  · rintro ⟨h1, h2⟩; exact ⟨i, by omega, j, by omega, rfl, rfl⟩

/-- The entries above the diagonal, taken with both orders of the factors, give the whole double sum. -/
theorem sum_symm (d : Nat) (a S : Nat → Nat → K) (hS : ∀ m n, S m n = S n m) :
    ∑ m ∈ range d, ∑ n ∈ range (d - m),
        (if m = m + n then a m (m + n) else a m (m + n) + a (m + n) m) * S m (m + n) =
      ∑ m ∈ range d, ∑ n ∈ range d, a m n * S m n := by
  induction d with
  | zero => simp
  | succ d ih =>
    rw [Finset.sum_range_succ, Finset.sum_range_succ (n := d)]
    have h1 : ∀ m ∈ range d, ∑ n ∈ range (d + 1 - m),
        (if m = m + n then a m (m + n) else a m (m + n) + a (m + n) m) * S m (m + n) =
        (∑ n ∈ range (d - m), (if m = m + n then a m (m + n) else a m (m + n) + a (m + n) m) *
          S m (m + n)) + (a m d + a d m) * S m d := by
      intro m hm
      rw [Finset.mem_range] at hm
      rw [show d + 1 - m = (d - m) + 1 by omega, Finset.sum_range_succ, show m + (d - m) = d by omega,
        if_neg (by omega)]
    rw [Finset.sum_congr rfl h1, Finset.sum_add_distrib, ih]
    have h2 : ∀ m ∈ range d, ∑ n ∈ range (d + 1), a m n * S m n =
        (∑ n ∈ range d, a m n * S m n) + a m d * S m d := fun m _ => Finset.sum_range_succ _ _
    rw [Finset.sum_congr rfl h2, Finset.sum_add_distrib, Finset.sum_range_succ (n := d)]
    have h3 : ∑ m ∈ range d, (a m d + a d m) * S m d =
        ∑ m ∈ range d, a m d * S m d + ∑ n ∈ range d, a d n * S d n := by
      rw [← Finset.sum_add_distrib]
      exact Finset.sum_congr rfl fun m _ => by rw [hS d m]; ring
    rw [h3, show d + 1 - d = 1 by omega]
    simp
    ring

theorem hess_row (d : Nat) [NeZero (2 : K)] (J : NMat K) (S : Nat → Nat → K) (hS : ∀ m n, S m n = S n m)
    (p : Nat) :
    ∑ q ∈ range (d * (d + 1) / 2), hessBlock d J p q *
        S ((upper d).getD q (0, 0)).1 ((upper d).getD q (0, 0)).2 =
      ∑ m ∈ range d, ∑ n ∈ range d,
        J m ((upper d).getD p (0, 0)).1 * J n ((upper d).getD p (0, 0)).2 * S m n := by
  set i := ((upper d).getD p (0, 0)).1
  set j := ((upper d).getD p (0, 0)).2
  have := sum_range_list (upper d) (fun mn => (if mn.1 = mn.2 then
    (J mn.1 i * J mn.2 j + J mn.1 j * J mn.2 i) * (1 / 2) else
    J mn.1 i * J mn.2 j + J mn.1 j * J mn.2 i) * S mn.1 mn.2)
  rw [upper_length] at this
  refine (Eq.trans ?_ this).trans ?_
  · exact Finset.sum_congr rfl fun q _ => by simp only [hessBlock]; rfl
  rw [sum_upper, ← sum_symm d (fun m n => J m i * J n j) S hS]
  refine Finset.sum_congr rfl fun m _ => Finset.sum_congr rfl fun n _ => ?_
  have h2 : (2 : K) ≠ 0 := NeZero.ne 2
  by_cases h : m = m + n
  · simp only [if_pos h]
    rw [← h]
    field_simp
    ring
  · simp only [if_neg h]
    ring

end FInAT.Zany
