import Verif.Model.Serendipity.Basis
import Mathlib.Algebra.BigOperators.Intervals
import Mathlib.Algebra.Polynomial.Degree.Lemmas
import Mathlib.Algebra.Polynomial.Eval.Degree
import Mathlib.Algebra.Polynomial.BigOperators
import Mathlib.Data.List.GetD
import Mathlib.Tactic.FieldSimp
import Mathlib.Tactic.LinearCombination
import Mathlib.Tactic.Ring

/-! # Newton interpolation -/

namespace FInAT.Serendipity

open Finset

variable {K : Type} [Field K]

/-- Newton's polynomial of order `j` that starts at node `i`. -/
def newtonAt (nds fs : List K) (i j : Nat) (s : K) : K :=
  ∑ m ∈ range (j + 1), ddColumn nds fs m i * ∏ k ∈ range m, (s - nds.getD (i + k) 0)

theorem newtonAt_succ (nds fs : List K) (i j : Nat) (s : K) :
    newtonAt nds fs i (j + 1) s = newtonAt nds fs i j s
      + ddColumn nds fs (j + 1) i * ∏ k ∈ range (j + 1), (s - nds.getD (i + k) 0) := by
  simp only [newtonAt]
  rw [sum_range_succ]

theorem newtonAt_shift (nds fs : List K) (hn : nds.Nodup) (s : K) : ∀ (j i : Nat),
    i + j + 1 < nds.length →
    newtonAt nds fs (i + 1) j s - newtonAt nds fs i j s
      = (nds.getD (i + j + 1) 0 - nds.getD i 0) * ddColumn nds fs (j + 1) i
        * ∏ k ∈ range j, (s - nds.getD (i + 1 + k) 0) := by
  have hne : ∀ (a b : Nat), a < b → b < nds.length → nds.getD b 0 - nds.getD a 0 ≠ 0 := by
    intro a b hab hb h
    rw [List.getD_eq_getElem _ _ hb, List.getD_eq_getElem _ _ (hab.trans hb), sub_eq_zero] at h
    have := hn.getElem_inj_iff.1 h
    omega
  intro j
  induction j with
  | zero =>
    intro i hi
    have := hne i (i + 1) (by omega) (by omega)
    simp only [newtonAt, ddColumn, Nat.add_zero, zero_add, range_one, sum_singleton, range_zero,
      prod_empty, mul_one]
    field_simp
  | succ j ih =>
    intro i hi
    have h1 := hne i (i + j + 1) (by omega) (by omega)
    have h2 := hne i (i + (j + 1) + 1) (by omega) (by omega)
    have hih := ih i (by omega)
    rw [newtonAt_succ, newtonAt_succ]
    have e1 : ∏ k ∈ range (j + 1), (s - nds.getD (i + k) 0)
        = (s - nds.getD i 0) * ∏ k ∈ range j, (s - nds.getD (i + 1 + k) 0) := by
      rw [prod_range_succ']
      rw [mul_comm]
      simp only [Nat.add_zero]
      congr 1
      exact prod_congr rfl fun k _ => by rw [show i + (k + 1) = i + 1 + k by omega]
    have e2 : ∏ k ∈ range (j + 1), (s - nds.getD (i + 1 + k) 0)
        = (∏ k ∈ range j, (s - nds.getD (i + 1 + k) 0)) * (s - nds.getD (i + j + 1) 0) := by
      rw [prod_range_succ, show i + 1 + j = i + j + 1 by omega]
    have e3 : (nds.getD (i + (j + 1) + 1) 0 - nds.getD i 0) * ddColumn nds fs (j + 1 + 1) i
        = ddColumn nds fs (j + 1) (i + 1) - ddColumn nds fs (j + 1) i := by
      conv_lhs => rw [ddColumn]
      field_simp
    rw [e1, e2, e3]
    linear_combination hih

theorem newtonAt_interpolates (nds fs : List K) (hn : nds.Nodup) : ∀ (j i m : Nat),
    m ≤ j → i + j < nds.length →
    newtonAt nds fs i j (nds.getD (i + m) 0) = fs.getD (i + m) 0 := by
  intro j
  induction j with
  | zero =>
    intro i m hm hi
    obtain rfl : m = 0 := by omega
    simp [newtonAt, ddColumn]
  | succ j ih =>
    intro i m hm hi
    by_cases h : m ≤ j
    · rw [newtonAt_succ, ih i m h (by omega), prod_eq_zero (mem_range.2 (by omega : m < j + 1))
        (by simp)]
      ring
    · obtain rfl : m = j + 1 := by omega
      have h1 := newtonAt_shift nds fs hn (nds.getD (i + (j + 1)) 0) j i (by omega)
      have h2 := ih (i + 1) j le_rfl (by omega)
      rw [show i + 1 + j = i + (j + 1) by omega] at h2
      rw [newtonAt_succ, prod_range_succ']
      simp only [Nat.add_zero]
      have e1 : ∏ k ∈ range j, (nds.getD (i + (j + 1)) 0 - nds.getD (i + (k + 1)) 0)
          = ∏ k ∈ range j, (nds.getD (i + (j + 1)) 0 - nds.getD (i + 1 + k) 0) :=
        prod_congr rfl fun k _ => by rw [show i + (k + 1) = i + 1 + k by omega]
      rw [e1]
      rw [show i + j + 1 = i + (j + 1) by omega] at h1
      linear_combination h2 - h1

theorem horner (c x : Nat → K) (s : K) : ∀ (k : Nat) (a : K),
    ((List.range k).reverse).foldl (fun result i => result * (s - x i) + c i) a
      = (∑ j ∈ range k, c j * ∏ l ∈ range j, (s - x l)) + a * ∏ l ∈ range k, (s - x l) := by
  intro k
  induction k with
  | zero => intro a; simp
  | succ k ih =>
    intro a
    rw [List.range_succ, List.reverse_append, List.reverse_singleton, List.singleton_append,
      List.foldl_cons, ih, sum_range_succ, prod_range_succ]
    ring

theorem newtonPoly_eq (nds fs : List K) (n : Nat) (h : nds.length = n + 1) (s : K) :
    newtonPoly nds fs s = newtonAt nds fs 0 n s := by
  have hc : ∀ j, j < n + 1 → (newtonDD nds fs).getD j 0 = ddColumn nds fs j 0 := by
    intro j hj
    rw [List.getD_eq_getElem _ _ (by simpa [newtonDD, h] using hj)]
    simp [newtonDD]
  have hl : (newtonDD nds fs).length = n + 1 := by simp [newtonDD, h]
  unfold newtonPoly
  simp only [hl, Nat.add_sub_cancel]
  rw [horner (fun i => (newtonDD nds fs).getD i 0) (fun i => nds.getD i 0), newtonAt,
    sum_range_succ, hc n (by omega)]
  simp only [Nat.zero_add]
  congr 1
  exact sum_congr rfl fun j hj => by rw [hc j (by have := mem_range.1 hj; omega)]

theorem newtonPoly_interpolates (nds fs : List K) (hn : nds.Nodup) (i : Nat)
    (hi : i < nds.length) : newtonPoly nds fs (nds.getD i 0) = fs.getD i 0 := by
  obtain ⟨n, hl⟩ : ∃ n, nds.length = n + 1 := ⟨nds.length - 1, by omega⟩
  rw [newtonPoly_eq nds fs n hl]
  have := newtonAt_interpolates nds fs hn n 0 i (by omega) (by omega)
  simpa using this

open Polynomial in
theorem newtonPoly_degree (nds fs : List K) :
    ∃ q : K[X], q.degree < nds.length ∧ ∀ s, newtonPoly nds fs s = q.eval s := by
  rcases hl : nds.length with _ | n
  · refine ⟨0, by simp, fun s => ?_⟩
    have : newtonDD nds fs = [] := by simp [newtonDD, hl]
    simp [newtonPoly, this]
  · refine ⟨∑ m ∈ range (n + 1), C (ddColumn nds fs m 0) * ∏ k ∈ range m, (X - C (nds.getD k 0)),
      ?_, fun s => ?_⟩
    · refine (degree_sum_le _ _).trans_lt ?_
      rw [Finset.sup_lt_iff (by exact_mod_cast WithBot.bot_lt_coe (n + 1))]
      intro m hm
      have hm := mem_range.1 hm
      by_cases h0 : ddColumn nds fs m 0 = 0
      · simp [h0]
      rw [degree_C_mul h0, degree_prod]
      simp only [degree_X_sub_C, sum_const, card_range, nsmul_eq_mul, mul_one]
      exact_mod_cast hm
    · rw [newtonPoly_eq nds fs n hl, newtonAt, eval_finsetSum]
      exact sum_congr rfl fun m _ => by simp [eval_prod]

end FInAT.Serendipity
