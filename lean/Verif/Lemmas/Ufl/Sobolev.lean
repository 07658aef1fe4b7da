import Verif.Model.Ufl.Sobolev
import Verif.Lemmas.Ufl.Degree

/-!
# Lemmas on Sobolev spaces of UFL elements
-/

namespace FInAT.Ufl

open UElem

namespace Sobolev

/-- All spaces. -/
def all : List Sobolev := [.h1, .h2, .l2, .hCurl, .hDiv, .hDivDiv, .hCurlDiv, .hEin, .hInf]

theorem mem_all (s : Sobolev) : s ∈ all := by cases s <;> decide

/-- Contained in, computed. -/
def sub (a b : Sobolev) : Bool := (a :: a.parents).contains b

theorem sub_trans : ∀ a b c : Sobolev, a.sub b = true → b.sub c = true → a.sub c = true := by
  have : ∀ a ∈ all, ∀ b ∈ all, ∀ c ∈ all, a.sub b = true → b.sub c = true → a.sub c = true := by
    decide +kernel
  exact fun a b c => this a (mem_all a) b (mem_all b) c (mem_all c)

theorem sub_antisymm : ∀ a b : Sobolev, a.sub b = true → b.sub a = true → a = b := by
  have : ∀ a ∈ all, ∀ b ∈ all, a.sub b = true → b.sub a = true → a = b := by
    decide +kernel
  exact fun a b => this a (mem_all a) b (mem_all b)

theorem Sub.trans {a b c : Sobolev} (h : Sub a b) (h' : Sub b c) : Sub a c := by
  induction h with
  | refl => exact h'
  | step hs _ ih => exact .step hs (ih h')

theorem sub_refl (a : Sobolev) : a.sub a = true := by simp [sub]

theorem sub_iff {a b : Sobolev} : a.sub b = true ↔ Sub a b := by
  constructor
  · intro h
    have hp : ∀ a b : Sobolev, Step a b → Sub a b := fun a b h => .step h (.refl _)
    have hd := hp _ _ Step.hDiv_l2
    have hc := hp _ _ Step.hCurl_l2
    have h1d := hp _ _ Step.h1_hDiv
    have h1c := hp _ _ Step.h1_hCurl
    have h21 := hp _ _ Step.h2_h1
    have hi2 := hp _ _ Step.hInf_h2
    have e1 := hp _ _ Step.hEin_l2
    have e2 := hp _ _ Step.hDivDiv_l2
    have e3 := hp _ _ Step.hCurlDiv_l2
    simp only [sub, List.contains_iff_mem, List.mem_cons] at h
    rcases h with rfl | h
    · exact .refl _
    · cases a <;> simp only [parents, List.mem_cons, List.not_mem_nil, or_false] at h
      all_goals (try (rcases h with rfl | rfl | rfl | rfl | rfl))
      all_goals (try (rcases h with rfl | rfl | rfl | rfl))
      all_goals (try (rcases h with rfl | rfl | rfl))
      all_goals (try subst h)
      all_goals first
        | assumption
        | exact h1d.trans hd
        | exact h21.trans h1d
        | exact h21.trans h1c
        | exact h21.trans (h1d.trans hd)
        | exact hi2.trans h21
        | exact hi2.trans (h21.trans h1d)
        | exact hi2.trans (h21.trans h1c)
        | exact hi2.trans (h21.trans (h1d.trans hd))
  · intro h
    induction h with
    | refl s => exact sub_refl s
    | step hs _ ih =>
      refine sub_trans _ _ _ ?_ ih
      cases hs <;> decide

/-- The smallest space that contains two. -/
def join (a b : Sobolev) : Sobolev :=
  if a.sub b then b else if b.sub a then a else .l2

theorem join_iff : ∀ a b t : Sobolev, (a.join b).sub t = true ↔ a.sub t = true ∧ b.sub t = true := by
  have : ∀ a ∈ all, ∀ b ∈ all, ∀ t ∈ all,
      ((a.join b).sub t = true ↔ a.sub t = true ∧ b.sub t = true) := by decide +kernel
  exact fun a b t => this a (mem_all a) b (mem_all b) t (mem_all t)

/-- The smallest space that contains all. -/
def joins (s : Sobolev) : List Sobolev → Sobolev
  | [] => s
  | t :: ts => joins (s.join t) ts

theorem joins_iff : ∀ (ss : List Sobolev) (s t : Sobolev), (joins s ss).sub t = true ↔
    s.sub t = true ∧ ∀ u ∈ ss, u.sub t = true
  | [], s, t => by simp [joins]
  | u :: us, s, t => by
    rw [joins, joins_iff us, join_iff]
    simp [and_assoc]

theorem parents_nodup : ∀ a ∈ all, ∀ j ∈ all, a.sub j = true →
    discardParents ((a :: a.parents).filter fun t => j.sub t) = [j] := by
  decide +kernel

end Sobolev

open Sobolev

theorem common_eq (s : Sobolev) (ss : List Sobolev) :
    commonSuperspaces (s :: ss) = (s :: s.parents).filter fun t => (joins s ss).sub t := by
  rw [commonSuperspaces]
  refine List.filter_congr fun t ht => ?_
  rw [Bool.eq_iff_iff, joins_iff]
  simp only [List.all_eq_true]
  have hs : s.sub t = true := by simp only [sub, List.contains_iff_mem]; exact ht
  simp only [hs, true_and]
  rfl

theorem enrichedSobolev_eq (s : Sobolev) (ss : List Sobolev) :
    enrichedSobolev (s :: ss) = .ok (joins s ss) := by
  rw [enrichedSobolev]
  split
  · next h =>
    have h' : ∀ t ∈ ss, t = s := by simpa using h
    congr 1
    apply sub_antisymm
    · have := (joins_iff ss s (joins s ss)).1 (sub_refl _)
      exact this.1
    · rw [joins_iff]
      exact ⟨sub_refl s, fun u hu => by rw [h' u hu]; exact sub_refl s⟩
  · rw [common_eq, parents_nodup s (mem_all s) _ (mem_all _)
      ((joins_iff ss s (joins s ss)).1 (sub_refl _)).1]

theorem gt_total : ∀ a b : Sobolev, a.sub b = true ∨ b.sub a = true →
    (if a.gt b then a else b) = a.join b := by
  have : ∀ a ∈ all, ∀ b ∈ all, a.sub b = true ∨ b.sub a = true →
    (if a.gt b then a else b) = a.join b := by decide +kernel
  exact fun a b => this a (mem_all a) b (mem_all b)

theorem spaceMax_chain : ∀ (ss : List Sobolev) (m : Sobolev),
    (∀ a ∈ m :: ss, ∀ b ∈ m :: ss, a.sub b = true ∨ b.sub a = true) →
    m.sub (spaceMaxFrom m ss) = true ∧ (∀ s ∈ ss, s.sub (spaceMaxFrom m ss) = true) ∧
      spaceMaxFrom m ss ∈ m :: ss
  | [], m, _ => ⟨sub_refl m, by simp, by simp [spaceMaxFrom]⟩
  | s :: ss, m, h => by
    rw [spaceMaxFrom]
    have hsm : s.sub m = true ∨ m.sub s = true := h s (by simp) m (by simp)
    have hmem : (if s.gt m then s else m) = s ∨ (if s.gt m then s else m) = m := by
      split <;> simp
    have hin : ∀ a ∈ (if s.gt m then s else m) :: ss, a ∈ m :: s :: ss := by
      intro a ha
      rcases List.mem_cons.1 ha with rfl | ha
      · rcases hmem with h | h <;> rw [h] <;> simp
      · simp [ha]
    obtain ⟨h1, h2, h3⟩ := spaceMax_chain ss (if s.gt m then s else m)
      (fun a ha b hb => h a (hin a ha) b (hin b hb))
    have hj := (join_iff s m (s.join m)).1 (sub_refl _)
    rw [← gt_total s m hsm] at hj
    refine ⟨sub_trans _ _ _ hj.2 h1, fun t ht => ?_, hin _ h3⟩
    rcases List.mem_cons.1 ht with rfl | ht
    · exact sub_trans _ _ _ hj.1 h1
    · exact h2 t ht

theorem sobolevs_ok : ∀ {subs : List UElem} {ss : List Sobolev}, sobolevs subs = some ss →
    List.Forall₂ (fun e s => sobolev e = some s) subs ss
  | [], ss, h => by
    rw [sobolevs] at h; cases h; exact .nil
  | e :: es, ss, h => by
    rw [sobolevs] at h
    cases hs : sobolev e with
    | none => rw [hs] at h; cases h
    | some s =>
      cases hss : sobolevs es with
      | none => rw [hs, hss] at h; cases h
      | some ss' =>
        rw [hs, hss] at h
        cases h
        exact .cons hs (sobolevs_ok hss)

theorem sobolevs_of : ∀ {subs : List UElem}, (∀ e ∈ subs, ∃ s, sobolev e = some s) →
    ∃ ss, sobolevs subs = some ss
  | [], _ => ⟨[], by rw [sobolevs]⟩
  | e :: es, h => by
    obtain ⟨s, hs⟩ := h e (by simp)
    obtain ⟨ss, hss⟩ := sobolevs_of (subs := es) (fun x hx => h x (by simp [hx]))
    exact ⟨s :: ss, by rw [sobolevs, hs, hss]; rfl⟩

theorem sobolevs_mem {subs : List UElem} {ss : List Sobolev} (h : sobolevs subs = some ss) :
    (∀ e ∈ subs, ∃ s ∈ ss, sobolev e = some s) ∧ (∀ s ∈ ss, ∃ e ∈ subs, sobolev e = some s) := by
  have := sobolevs_ok h
  clear h
  induction this with
  | nil => simp
  | @cons e s es ss h1 h2 ih =>
    refine ⟨fun x hx => ?_, fun x hx => ?_⟩
    · rcases List.mem_cons.1 hx with rfl | hx
      · exact ⟨s, by simp, h1⟩
      · obtain ⟨t, ht, h⟩ := ih.1 x hx
        exact ⟨t, by simp [ht], h⟩
    · rcases List.mem_cons.1 hx with rfl | hx
      · exact ⟨e, by simp, h1⟩
      · obtain ⟨t, ht, h⟩ := ih.2 x hx
        exact ⟨t, by simp [ht], h⟩

theorem pyMax_int_all : ∀ {xs : List Deg} {m : Deg} {r : Deg}, pyMaxFrom m xs = .ok r →
    (∃ a, m = .int a) → (∃ a, r = .int a) ∧ ∀ x ∈ xs, ∃ a, x = .int a
  | [], m, r, h, hm => by rw [pyMaxFrom] at h; cases h; exact ⟨hm, by simp⟩
  | x :: xs, m, r, h, hm => by
    rw [pyMaxFrom] at h
    obtain ⟨b, hb, h⟩ := bind_ok h
    obtain ⟨a, rfl⟩ := hm
    have hx : ∃ c, x = .int c := by
      cases x with
      | int c => exact ⟨c, rfl⟩
      | none => simp [Deg.lt] at hb
      | tuple => simp [Deg.lt] at hb
    obtain ⟨h1, h2⟩ := pyMax_int_all h (by split <;> first | exact hx | exact ⟨a, rfl⟩)
    refine ⟨h1, fun y hy => ?_⟩
    rcases List.mem_cons.1 hy with rfl | hy
    · exact hx
    · exact h2 y hy

theorem asTuples_ok : ∀ {ds : List Deg} {rs : List (List Deg)}, asTuples ds = .ok rs →
    ds = rs.map .tuple
  | [], rs, h => by rw [asTuples] at h; cases h; rfl
  | .tuple d :: ds, rs, h => by
    rw [asTuples] at h
    obtain ⟨x, hx, h⟩ := bind_ok h
    cases h
    rw [List.map_cons, asTuples_ok hx]
  | .int _ :: _, rs, h => by simp [asTuples] at h
  | .none :: _, rs, h => by simp [asTuples] at h

/-- The columns hold the entries of the rows; there are as many as the shortest row has. -/
theorem pyZip_spec : ∀ (r : List Deg) (rs : List (List Deg)),
    (∀ row ∈ r :: rs, (pyZip (r :: rs)).length ≤ row.length) ∧
    (∃ row ∈ r :: rs, (pyZip (r :: rs)).length = row.length) ∧
    ∀ (i : Nat) col, (pyZip (r :: rs))[i]? = some col →
      List.Forall₂ (fun row x => row[i]? = some x) (r :: rs) col
  | r, [] => by
    refine ⟨by simp [pyZip], by simp [pyZip], fun i col h => ?_⟩
    rw [pyZip, List.getElem?_map, Option.map_eq_some_iff] at h
    obtain ⟨x, hx, rfl⟩ := h
    exact .cons hx .nil
  | r, r' :: rs => by
    obtain ⟨h1, h2, h3⟩ := pyZip_spec r' rs
    have hz : pyZip (r :: r' :: rs) = List.zipWith (fun x c => x :: c) r (pyZip (r' :: rs)) := by
      rw [pyZip]; simp
    rw [hz]
    refine ⟨fun row hrow => ?_, ?_, fun i col h => ?_⟩
    · rw [List.length_zipWith]
      rcases List.mem_cons.1 hrow with rfl | hrow
      · exact Nat.min_le_left _ _
      · exact Nat.le_trans (Nat.min_le_right _ _) (h1 row hrow)
    · rw [List.length_zipWith]
      rcases Nat.le_total r.length (pyZip (r' :: rs)).length with hl | hl
      · exact ⟨r, by simp, by rw [Nat.min_eq_left hl]⟩
      · obtain ⟨row, hrow, hr⟩ := h2
        exact ⟨row, List.mem_cons_of_mem _ hrow, by rw [Nat.min_eq_right hl]; exact hr⟩
    · rw [List.getElem?_zipWith] at h
      split at h
      · next x c hx hc =>
        cases h
        exact .cons hx (h3 i c hc)
      · cases h

theorem maxColumns_ok : ∀ {cols : List (List Deg)} {ms : List Deg}, maxColumns cols = .ok ms →
    ms.length = cols.length ∧ ∀ (i : Nat) m, ms[i]? = some m → ∃ col, cols[i]? = some col ∧
      pyMax col = .ok m
  | [], ms, h => by rw [maxColumns] at h; cases h; simp
  | c :: cs, ms, h => by
    rw [maxColumns] at h
    obtain ⟨m, hm, h⟩ := bind_ok h
    obtain ⟨ms', hms, h⟩ := bind_ok h
    cases h
    obtain ⟨h1, h2⟩ := maxColumns_ok hms
    refine ⟨by simp [h1], fun i x hx => ?_⟩
    cases i with
    | zero => exact ⟨c, rfl, by simp at hx; rw [← hx]; exact hm⟩
    | succ i => exact h2 i x (by simpa using hx)

end FInAT.Ufl
