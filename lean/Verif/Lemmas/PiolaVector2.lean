import Verif.Lemmas.PiolaVector
import Verif.Lemmas.ZanyNodal4

/-!
# Loops over the entities
-/

namespace FInAT.PiolaNodes

open Finset FInAT.Piola FInAT.Zany FInAT.Stress FInAT.Spec.PiolaNodes FInAT.Spec.Zany

variable {K A : Type} [Field K] [AddCommGroup A] [Module K A] {d : Nat}

theorem undo_all (hd : 0 < d) (N : Nat) (node : Nat → Node K A d) (deriv : Nat → Bool)
    (t : Nat → Nat → Nat → K) (D D' : Fin d → A →ₗ[K] A) (J : Nat → Nat → K) (detJ : K)
    (hdet : detJ = Props.det d J) (h0 : detJ ≠ 0) (hD : ∀ i a, D i a = ∑ k : Fin d, J k i • D' k a)
    (ls : List (List Nat)) (hl : ∀ l ∈ ls, ∃ gs : List (Group K A), l.map node = gs.flatMap (Group.nodes d))
    (hder : ∀ a ∈ ls.flatten, deriv a = true ↔ ∃ m, node a = .divergence m) (hnd : ls.flatten.Nodup)
    (hN : ∀ a ∈ ls.flatten, a < N) (V : Arr K) :
    (∀ a ∉ ls.flatten, (ls.foldl (fun V s => undoPiola d (piolaInverse d J detJ) detJ deriv s.length s V) V).get a =
        V.get a) ∧
      ∀ a ∈ ls.flatten, (V.get a = fun b => if a = b then 1 else 0) →
        RowOK N node t D D' J detJ a
          ((ls.foldl (fun V s => undoPiola d (piolaInverse d J detJ) detJ deriv s.length s V) V).get a) := by
  induction ls generalizing V with
  | nil => exact ⟨fun a _ => rfl, fun a ha => absurd ha (by simp)⟩
  | cons l ls ih =>
    rw [List.flatten_cons] at hder hN hnd ⊢
    rw [List.nodup_append] at hnd
    rw [List.foldl_cons]
    obtain ⟨gs, hgs⟩ := hl l (by simp)
    obtain ⟨u1, u2⟩ := undoPiola_rows hd N node deriv t D D' J detJ hdet h0 hD gs l hgs
      (fun a ha => hder a (List.mem_append_left _ ha)) hnd.1 (fun a ha => hN a (List.mem_append_left _ ha)) l.length le_rfl V
    obtain ⟨i1, i2⟩ := ih (fun l hl' => hl l (List.mem_cons_of_mem _ hl')) (fun a ha => hder a (List.mem_append_right _ ha))
      hnd.2.1 (fun a ha => hN a (List.mem_append_right _ ha))
      (undoPiola d (piolaInverse d J detJ) detJ deriv l.length l V)
    refine ⟨fun a ha => ?_, fun a ha hV => ?_⟩
    · rw [List.mem_append, not_or] at ha
      rw [i1 a ha.2, u1 a ha.1]
    · rcases List.mem_append.1 ha with h | h
      · rw [i1 a fun h' => hnd.2.2 a h a h' rfl]
        exact u2 a h hV
      · refine i2 a h ?_
        rw [u1 a fun h' => hnd.2.2 a h' a h rfl, hV]

/-- The lists of all dimensions but `q`. -/
def others (q : Nat) (dz : List (List (List Nat) × Nat)) : List (List Nat) :=
  ((dz.filter fun e => !(e.2 == q)).map Prod.fst).flatten

theorem skip_fold {σ : Type} (q : Nat) (g : σ → List Nat → σ) (dz : List (List (List Nat) × Nat)) (V : σ) :
    dz.foldl (fun V (ed : List (List Nat) × Nat) => if ed.2 = q then V else ed.1.foldl g V) V =
      (others q dz).foldl g V := by
  unfold others
  induction dz generalizing V with
  | nil => rfl
  | cons e dz ih =>
    rw [List.foldl_cons, ih]
    by_cases h : e.2 = q
    · rw [if_pos h, List.filter_cons_of_neg (by simp [h])]
    · rw [if_neg h, List.filter_cons_of_pos (by simp [h]), List.map_cons, List.flatten_cons, List.foldl_append]

theorem others_zipIdx (q : Nat) (dofs : EntityDofs) (k : Nat) :
    others (k + q) (dofs.zipIdx k) = ((dofs.take q) ++ (dofs.drop (q + 1))).flatten := by
  induction dofs generalizing q k with
  | nil => simp [others]
  | cons e dofs ih =>
    unfold others at ih ⊢
    rw [List.zipIdx_cons]
    cases q with
    | zero =>
      rw [List.filter_cons_of_neg (by simp)]
      have hall : (dofs.zipIdx (k + 1)).filter (fun e => !(e.2 == k + 0)) = dofs.zipIdx (k + 1) := by
        rw [List.filter_eq_self]
        intro x hx
        have := List.le_snd_of_mem_zipIdx hx
        simp only [Nat.add_zero, Bool.not_eq_eq_eq_not, Bool.not_true, beq_eq_false_iff_ne, ne_eq]
        omega
      rw [hall, List.zipIdx_map_fst]
      simp
    | succ q =>
      rw [List.filter_cons_of_pos (by simp), List.map_cons, List.flatten_cons]
      have := ih q (k + 1)
      rw [show k + 1 + q = k + (q + 1) by omega] at this
      rw [this]
      simp

theorem getD_idxOf (l : List Nat) (a : Nat) (h : a ∈ l) : l.getD (l.idxOf a) 0 = a := by
  rw [List.getD_eq_getElem?_getD, List.getElem?_eq_getElem (List.idxOf_lt_length_iff.2 h), Option.getD_some,
    List.getElem_idxOf]

theorem foldl_congr_range {σ : Type} (f g : σ → Nat → σ) (n : Nat) (V : σ) (h : ∀ V, ∀ i < n, f V i = g V i) :
    (List.range n).foldl f V = (List.range n).foldl g V := by
  induction n with
  | zero => rfl
  | succ n ih =>
    rw [List.range_succ, List.foldl_append, List.foldl_append, ih fun V i hi => h V i (by omega)]
    exact h _ n (by omega)

end FInAT.PiolaNodes
