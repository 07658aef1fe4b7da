import Verif.Lemmas.ZanyEdge
import Mathlib.Tactic.IntervalCases

/-!
# Morley
-/

namespace FInAT.Zany

open Finset FInAT.Piola FInAT.Spec.Zany

variable {K : Type} [Field K]

/-- `n · J r`, as the code writes it. -/
def morleyB (g : Geometry K) (n : NMat K) (i : Nat) : K :=
  g.rns i 0 * (n i 0 * g.J 0 0 + n i 1 * g.J 1 0) + g.rns i 1 * (n i 0 * g.J 0 1 + n i 1 * g.J 1 1)

omit [Field K] in
theorem col_loop (n c : Nat) (f : K → K) (V : Arr K) (a b : Nat) :
    ((List.range n).foldl (fun V i => V.set i c (f (V.get i c))) V).get a b =
      if a < n ∧ b = c then f (V.get a c) else V.get a b := by
  induction n generalizing a b with
  | zero => simp
  | succ n ih =>
    rw [List.range_succ, List.foldl_append, List.foldl_cons, List.foldl_nil]
    rw [show ∀ (W : Arr K) i x, (W.set i c x).get a = if a = i then Function.update (W.get a) c x else W.get a from
      fun _ _ _ => rfl]
    by_cases ha : a = n
    · subst ha
      rw [if_pos rfl]
      by_cases hb : b = c
      · subst hb
        rw [Function.update_self, ih, if_neg (by omega), if_pos ⟨by omega, rfl⟩]
      · rw [Function.update_of_ne hb, ih, if_neg (by omega), if_neg (by tauto)]
    · rw [if_neg ha, ih]
      by_cases hc : a < n ∧ b = c
      · rw [if_pos hc, if_pos ⟨by omega, hc.2⟩]
      · rw [if_neg hc, if_neg (by omega)]

theorem morley_scale (h : NVec K) (V : Arr K) :
    (List.range 3).foldl (fun V e =>
      let others := (List.range 3).filter fun i => i ≠ e
      let v0id := others.getD 0 0
      let v1id := others.getD 1 0
      (List.range 6).foldl (fun V i => V.set i (3 + e) (2 * V.get i (3 + e) / (h v0id + h v1id))) V) V =
    (List.range 6).foldl (fun V i => V.set i 5 ((fun x => 2 * x / (h 0 + h 1)) (V.get i 5)))
      ((List.range 6).foldl (fun V i => V.set i 4 ((fun x => 2 * x / (h 0 + h 2)) (V.get i 4)))
      ((List.range 6).foldl (fun V i => V.set i 3 ((fun x => 2 * x / (h 1 + h 2)) (V.get i 3))) V)) := by
  rw [show List.range 3 = [0, 1, 2] from rfl]
  generalize List.range 6 = l
  simp only [List.foldl_cons, List.foldl_nil]
  have f0 : List.filter (fun i => decide (i ≠ 0)) [0, 1, 2] = [1, 2] := rfl
  have f1 : List.filter (fun i => decide (i ≠ 1)) [0, 1, 2] = [0, 2] := rfl
  have f2 : List.filter (fun i => decide (i ≠ 2)) [0, 1, 2] = [0, 1] := rfl
  rw [f0, f1, f2]
  rfl

theorem morley_scale_get (h : NVec K) (V : Arr K) (a : Nat) (ha : a < 6) (c : Nat) :
    ((List.range 3).foldl (fun V e =>
      let others := (List.range 3).filter fun i => i ≠ e
      let v0id := others.getD 0 0
      let v1id := others.getD 1 0
      (List.range 6).foldl (fun V i => V.set i (3 + e) (2 * V.get i (3 + e) / (h v0id + h v1id))) V) V).get a c =
      if c = 5 then 2 * V.get a 5 / (h 0 + h 1) else if c = 4 then 2 * V.get a 4 / (h 0 + h 2)
      else if c = 3 then 2 * V.get a 3 / (h 1 + h 2) else V.get a c := by
  rw [morley_scale]
  generalize hW : (List.range 6).foldl (fun V i => V.set i 3 ((fun x => 2 * x / (h 1 + h 2)) (V.get i 3))) V = W
  have e3 : ∀ b, W.get a b = if a < 6 ∧ b = 3 then 2 * V.get a 3 / (h 1 + h 2) else V.get a b := fun b => by
    rw [← hW]; exact col_loop 6 3 (fun x => 2 * x / (h 1 + h 2)) V a b
  clear hW
  generalize hX : (List.range 6).foldl (fun V i => V.set i 4 ((fun x => 2 * x / (h 0 + h 2)) (V.get i 4))) W = X
  have e4 : ∀ b, X.get a b = if a < 6 ∧ b = 4 then 2 * W.get a 4 / (h 0 + h 2) else W.get a b := fun b => by
    rw [← hX]; exact col_loop 6 4 (fun x => 2 * x / (h 0 + h 2)) W a b
  clear hX
  have e5 := col_loop 6 5 (fun x => 2 * x / (h 0 + h 1)) X a c
  rw [e5, e4, e4, e3, e3, e3]
  simp only [ha, true_and]
  by_cases h5 : c = 5
  · subst h5; simp
  · by_cases h4 : c = 4
    · subst h4; simp
    · simp [h5, h4]

theorem morley_entries (g : Geometry K) :
    (∀ i < 3, ∀ k < 6, (morley g 6).get k i = if k = i then 1 else 0) ∧
    ∀ e < 3, ∀ k < 6, (morley g 6).get k (3 + e) =
      if k = 3 + e then 2 * morleyB g g.pns e / (g.h (ends e).1 + g.h (ends e).2)
      else if k = (ends e).1 then -1 * morleyB g g.pts e / g.pel e
      else if k = (ends e).2 then morleyB g g.pts e / g.pel e else 0 := by
  let V1 : Arr K := (List.range 3).foldl (fun V i => V.set (i + 3) (i + 3) (morleyB g g.pns i)) (identity 6 6)
  let V2 : Arr K := [(1, 2), (0, 2), (0, 1)].zipIdx.foldl (fun V (ci : (Nat × Nat) × Nat) =>
    (V.set (3 + ci.2) ci.1.1 (-1 * morleyB g g.pts ci.2 / g.pel ci.2)).set (3 + ci.2) ci.1.2
      (morleyB g g.pts ci.2 / g.pel ci.2)) V1
  have h2a : ∀ i < 3, ∀ k < 6, V2.get i k = if k = i then 1 else 0 := by
    intro i hi k hk
    simp only [V2, V1, List.zipIdx, List.foldl_cons, List.foldl_nil, Arr.set, List.range, List.range.loop,
      identity]
    rw [if_neg (by omega), if_neg (by omega), if_neg (by omega), if_neg (by omega), if_neg (by omega),
      if_neg (by omega), if_neg (by omega), if_neg (by omega), if_neg (by omega)]
    by_cases h : k = i
    · rw [if_pos h, if_pos h.symm]
    · rw [if_neg h, if_neg (fun h' => h h'.symm)]
  have h2b : ∀ e < 3, ∀ k < 6, V2.get (3 + e) k = if k = 3 + e then morleyB g g.pns e
      else if k = (ends e).1 then -1 * morleyB g g.pts e / g.pel e
      else if k = (ends e).2 then morleyB g g.pts e / g.pel e else 0 := by
    intro e he k hk
    simp only [V2, V1, List.zipIdx, List.foldl_cons, List.foldl_nil, Arr.set, List.range, List.range.loop,
      identity, ends]
    interval_cases e <;> interval_cases k <;> simp
  have h3 : ∀ a < 6, ∀ c, (morley g 6).get c a =
      if c = 5 then 2 * V2.get a 5 / (g.h 0 + g.h 1) else if c = 4 then 2 * V2.get a 4 / (g.h 0 + g.h 2)
      else if c = 3 then 2 * V2.get a 3 / (g.h 1 + g.h 2) else V2.get a c := by
    intro a ha c
    have hm : morley g 6 = Arr.T ((List.range 3).foldl (fun V e =>
      let others := (List.range 3).filter fun i => i ≠ e
      let v0id := others.getD 0 0
      let v1id := others.getD 1 0
      (List.range 6).foldl (fun V i => V.set i (3 + e) (2 * V.get i (3 + e) / (g.h v0id + g.h v1id))) V) V2) := rfl
    rw [hm, show ∀ W : Arr K, W.T.get c a = W.get a c from fun _ => rfl, morley_scale_get _ _ a ha c]
  constructor
  · intro i hi k hk
    rw [h3 i (by omega) k, h2a i hi 5 (by omega), h2a i hi 4 (by omega), h2a i hi 3 (by omega), h2a i hi k hk]
    rw [if_neg (show ¬ 5 = i by omega), if_neg (show ¬ 4 = i by omega), if_neg (show ¬ 3 = i by omega)]
    by_cases h : k = i
    · rw [if_neg (by omega), if_neg (by omega), if_neg (by omega)]
    · rw [if_neg h]; simp
  · intro e he k hk
    rw [h3 (3 + e) (by omega) k, h2b e he 5 (by omega), h2b e he 4 (by omega), h2b e he 3 (by omega), h2b e he k hk]
    interval_cases e <;> interval_cases k <;> simp [ends]

end FInAT.Zany
