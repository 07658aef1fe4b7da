import Verif.Py.Lemmas
import Mathlib.Algebra.BigOperators.Ring.List
import Mathlib.Algebra.BigOperators.Group.List.Basic

/-!
# Sums over lists
-/

namespace FInAT

variable {K : Type} [CommRing K] {α β γ : Type}

/-- Sum of `f` over a list. -/
def lsum (l : List α) (f : α → K) : K := (l.map f).sum

@[simp] theorem lsum_nil (f : α → K) : lsum [] f = 0 := rfl
@[simp] theorem lsum_cons (a : α) (l : List α) (f : α → K) : lsum (a :: l) f = f a + lsum l f := by
  simp [lsum]
@[simp] theorem lsum_append (a b : List α) (f : α → K) : lsum (a ++ b) f = lsum a f + lsum b f := by
  simp [lsum]
@[simp] theorem lsum_map (g : β → α) (l : List β) (f : α → K) : lsum (l.map g) f = lsum l fun b => f (g b) := by
  simp [lsum, Function.comp_def]

theorem lsum_congr {l : List α} {f g : α → K} (h : ∀ a ∈ l, f a = g a) : lsum l f = lsum l g := by
  unfold lsum; rw [List.map_congr_left h]

theorem lsum_zero {l : List α} {f : α → K} (h : ∀ a ∈ l, f a = 0) : lsum l f = 0 := by
  induction l with
  | nil => rfl
  | cons a l ih => rw [lsum_cons, h a List.mem_cons_self, ih fun b hb => h b (List.mem_cons_of_mem _ hb), zero_add]

theorem lsum_add (l : List α) (f g : α → K) : lsum l (fun a => f a + g a) = lsum l f + lsum l g := by
  induction l with
  | nil => simp
  | cons a l ih => rw [lsum_cons, lsum_cons, lsum_cons, ih]; ring

theorem lsum_mul_left (c : K) (l : List α) (f : α → K) : lsum l (fun a => c * f a) = c * lsum l f := by
  induction l with
  | nil => simp
  | cons a l ih => rw [lsum_cons, lsum_cons, ih]; ring

theorem lsum_mul_right (c : K) (l : List α) (f : α → K) : lsum l (fun a => f a * c) = lsum l f * c := by
  induction l with
  | nil => simp
  | cons a l ih => rw [lsum_cons, lsum_cons, ih]; ring

theorem lsum_neg (l : List α) (f : α → K) : lsum l (fun a => - f a) = - lsum l f := by
  induction l with
  | nil => simp
  | cons a l ih => rw [lsum_cons, lsum_cons, ih]; ring

theorem lsum_comm (l : List α) (m : List β) (f : α → β → K) :
    (lsum l fun a => lsum m fun b => f a b) = lsum m fun b => lsum l fun a => f a b := by
  induction l with
  | nil => simp [lsum_zero]
  | cons a l ih => simp only [lsum_cons, lsum_add, ih]

theorem lsum_flatMap (l : List α) (g : α → List β) (f : β → K) :
    lsum (l.flatMap g) f = lsum l fun a => lsum (g a) f := by
  induction l with
  | nil => rfl
  | cons a l ih => simp [List.flatMap_cons, ih]

theorem lsum_perm {l l' : List α} (h : l.Perm l') (f : α → K) : lsum l f = lsum l' f :=
  (h.map f).sum_eq

/-- A Kronecker delta picks one term. -/
theorem lsum_delta [DecidableEq α] {l : List α} (hn : l.Nodup) {a : α} (ha : a ∈ l) (f : α → K) :
    (lsum l fun b => if a = b then f b else 0) = f a := by
  induction l with
  | nil => simp at ha
  | cons b l ih =>
    rw [List.nodup_cons] at hn
    rw [lsum_cons]
    by_cases h : a = b
    · subst h
      rw [if_pos rfl, lsum_zero, add_zero]
      intro c hc
      rw [if_neg]
      rintro rfl
      exact hn.1 hc
    · rw [if_neg h, ih hn.2 ((List.mem_cons.1 ha).resolve_left h), zero_add]

/-- Summing over multi-indices of a concatenated shape. -/
theorem lsum_ndindex_append (s t : List Nat) (f : List Nat → K) :
    lsum (ndindex (s ++ t)) f = lsum (ndindex s) fun a => lsum (ndindex t) fun b => f (a ++ b) := by
  induction s generalizing f with
  | nil => simp [ndindex]
  | cons n s ih =>
    have e : ∀ u, ndindex (n :: u) = (List.range n).flatMap fun x => (ndindex u).map (x :: ·) := fun u => rfl
    rw [List.cons_append, e, e, lsum_flatMap, lsum_flatMap]
    refine lsum_congr fun x _ => ?_
    rw [lsum_map, lsum_map, ih]
    rfl

theorem nodup_ndindex (s : List Nat) : (ndindex s).Nodup :=
  nodup_product (by
    intro l hl
    obtain ⟨n, _, rfl⟩ := List.mem_map.1 hl
    exact List.nodup_range)

theorem lsum_ndindex_one (n : Nat) (f : List Nat → K) :
    lsum (ndindex [n]) f = lsum (List.range n) fun i => f [i] := by
  have : ndindex [n] = (List.range n).flatMap fun x => [[x]] := rfl
  rw [this, lsum_flatMap]
  refine lsum_congr fun x _ => ?_
  simp

theorem lsum_ndindex_nil (f : List Nat → K) : lsum (ndindex []) f = f [] := by
  simp [ndindex]

/-- Summing a dictionary's values over a list of keys. -/
theorem lsum_get? {κ : Type} [DecidableEq κ] {S : List κ} (hS : S.Nodup) {d : Dict κ K} (hd : d.keys.Nodup)
    (g : κ → K) :
    (lsum S fun s => (d.get? s).getD 0 * g s) = lsum d fun e => if e.1 ∈ S then e.2 * g e.1 else 0 := by
  induction d with
  | nil => simp [Dict.get?, lsum_zero]
  | cons x d ih =>
    have hd' : x.1 ∉ Dict.keys d ∧ (Dict.keys d).Nodup := by simpa [Dict.keys] using hd
    have key : ∀ s, (Dict.get? (x :: d) s).getD 0 * g s =
        (if x.1 = s then x.2 * g s else 0) + (Dict.get? d s).getD 0 * g s := by
      intro s
      rw [Dict.get?]
      by_cases h : x.1 = s
      · subst h
        have : Dict.get? d x.1 = none := by
          have := Dict.get?_isSome_iff (d := d) (k := x.1)
          cases h0 : Dict.get? d x.1 with
          | none => rfl
          | some v => exact absurd (this.1 (by rw [h0]; rfl)) hd'.1
        simp [this]
      · simp [h]
    rw [lsum_congr fun s _ => key s, lsum_add, ih hd'.2, lsum_cons]
    congr 1
    by_cases h : x.1 ∈ S
    · rw [if_pos h]
      exact lsum_delta hS h fun s => x.2 * g s
    · rw [if_neg h]
      exact lsum_zero fun s hs => if_neg (by rintro rfl; exact h hs)

end FInAT
