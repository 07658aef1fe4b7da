import Verif.Lemmas.Monad
import Verif.Model.Cell

/-! # `Dim.le` is a total order; sorting dictionaries by key -/

namespace FInAT

namespace Dim

mutual
theorem le_refl : ∀ a : Dim, le a a = true
  | .int n => by simp [le]
  | .tup as => by simp only [le]; exact leL_refl as
theorem leL_refl : ∀ as : List Dim, leL as as = true
  | [] => rfl
  | a :: as => by simp [leL, leL_refl as]
end

mutual
theorem le_antisymm : ∀ a b : Dim, le a b = true → le b a = true → a = b
  | .int m, .int n, h1, h2 => by
    simp [le] at h1 h2; rw [Nat.le_antisymm h1 h2]
  | .int _, .tup _, _, h2 => by simp [le] at h2
  | .tup _, .int _, h1, _ => by simp [le] at h1
  | .tup as, .tup bs, h1, h2 => by
    simp only [le] at h1 h2; rw [leL_antisymm as bs h1 h2]
theorem leL_antisymm : ∀ as bs : List Dim, leL as bs = true → leL bs as = true → as = bs
  | [], [], _, _ => rfl
  | [], _ :: _, _, h2 => by simp [leL] at h2
  | _ :: _, [], h1, _ => by simp [leL] at h1
  | a :: as, b :: bs, h1, h2 => by
    by_cases h : a = b
    · subst h
      simp [leL] at h1 h2
      rw [leL_antisymm as bs h1 h2]
    · simp [leL, h, Ne.symm h] at h1 h2
      exact absurd (le_antisymm a b h1 h2) h
end

mutual
theorem le_total : ∀ a b : Dim, le a b = true ∨ le b a = true
  | .int m, .int n => by simp [le]; omega
  | .int _, .tup _ => by simp [le]
  | .tup _, .int _ => by simp [le]
  | .tup as, .tup bs => by simp only [le]; exact leL_total as bs
theorem leL_total : ∀ as bs : List Dim, leL as bs = true ∨ leL bs as = true
  | [], _ => by simp [leL]
  | _ :: _, [] => by simp [leL]
  | a :: as, b :: bs => by
    by_cases h : a = b
    · subst h; simp [leL]; exact leL_total as bs
    · simp [leL, h, Ne.symm h]; exact le_total a b
end

mutual
theorem le_trans : ∀ a b c : Dim, le a b = true → le b c = true → le a c = true
  | .int l, .int m, .int n, h1, h2 => by simp [le] at h1 h2 ⊢; omega
  | .int _, .int _, .tup _, _, _ => by simp [le]
  | .int _, .tup _, .int _, _, h2 => by simp [le] at h2
  | .int _, .tup _, .tup _, _, _ => by simp [le]
  | .tup _, .int _, _, h1, _ => by simp [le] at h1
  | .tup _, .tup _, .int _, _, h2 => by simp [le] at h2
  | .tup as, .tup bs, .tup cs, h1, h2 => by
    simp only [le] at h1 h2 ⊢; exact leL_trans as bs cs h1 h2
theorem leL_trans : ∀ as bs cs : List Dim, leL as bs = true → leL bs cs = true → leL as cs = true
  | [], _, _, _, _ => by simp [leL]
  | _ :: _, [], _, h1, _ => by simp [leL] at h1
  | _ :: _, _ :: _, [], _, h2 => by simp [leL] at h2
  | a :: as, b :: bs, c :: cs, h1, h2 => by
    by_cases hab : a = b
    · subst hab
      by_cases hac : a = c
      · subst hac
        simp [leL] at h1 h2 ⊢
        exact leL_trans as bs cs h1 h2
      · simp [leL, hac] at h1 h2 ⊢
        exact h2
    · by_cases hbc : b = c
      · subst hbc
        simp [leL, hab] at h1 h2 ⊢
        exact h1
      · by_cases hac : a = c
        · subst hac
          simp [leL, hab, hbc] at h1 h2
          exact absurd (le_antisymm a b h1 h2) hab
        · simp [leL, hab, hbc, hac] at h1 h2 ⊢
          exact le_trans a b c h1 h2
end

end Dim

/-! ## sorting dictionaries by key -/

variable {κ ν μ : Type}

theorem insertBy_map {α β : Type _} (f : α → β) (le : α → α → Bool) (le' : β → β → Bool)
    (h : ∀ a b, le' (f a) (f b) = le a b) (a : α) (l : List α) :
    insertBy le' (f a) (l.map f) = (insertBy le a l).map f := by
  induction l with
  | nil => rfl
  | cons b l ih => simp only [List.map_cons, insertBy, h, ih]; split <;> rfl

theorem sortBy_map {α β : Type _} (f : α → β) (le : α → α → Bool) (le' : β → β → Bool)
    (h : ∀ a b, le' (f a) (f b) = le a b) (l : List α) :
    sortBy le' (l.map f) = (sortBy le l).map f := by
  induction l with
  | nil => rfl
  | cons a l ih => simp only [List.map_cons, sortBy, ih, insertBy_map f le le' h]

/-- Sorting by a key with a total order on distinct keys only depends on the set of items. -/
theorem sortBy_key_congr {α : Type _} {key : α → κ} {le : κ → κ → Bool}
    (tot : ∀ a b, le a b = true ∨ le b a = true)
    (trans : ∀ a b c, le a b = true → le b c = true → le a c = true)
    (anti : ∀ a b, le a b = true → le b a = true → a = b)
    {l l' : List α} (hp : l.Perm l') (hn : (l.map key).Nodup) :
    sortBy (fun a b => le (key a) (key b)) l = sortBy (fun a b => le (key a) (key b)) l' := by
  have h1 := sortBy_pairwise (le := fun a b => le (key a) (key b)) (fun a b => tot _ _)
    (fun a b c => trans _ _ _) l
  have h2 := sortBy_pairwise (le := fun a b => le (key a) (key b)) (fun a b => tot _ _)
    (fun a b c => trans _ _ _) l'
  refine List.Perm.eq_of_pairwise ?_ h1 h2
    ((sortBy_perm _ l).trans (hp.trans (sortBy_perm _ l').symm))
  intro a b ha hb hab hba
  have hka := anti _ _ hab hba
  have ha' : a ∈ l := (sortBy_perm _ l).mem_iff.1 ha
  have hb' : b ∈ l := hp.mem_iff.2 ((sortBy_perm _ l').mem_iff.1 hb)
  exact List.inj_on_of_nodup_map hn ha' hb' hka

theorem sortBy_dim_congr {ν : Type} {l l' : EntityMap ν} (hp : l.Perm l') (hn : (l.map Prod.fst).Nodup) :
    sortBy (fun a b => Dim.le a.1 b.1) l = sortBy (fun a b => Dim.le a.1 b.1) l' :=
  sortBy_key_congr (key := Prod.fst) (le := Dim.le) Dim.le_total Dim.le_trans Dim.le_antisymm hp hn

theorem sortBy_nat_congr {ν : Type} {l l' : Dict Nat ν} (hp : l.Perm l') (hn : (l.map Prod.fst).Nodup) :
    sortBy (fun a b => decide (a.1 ≤ b.1)) l = sortBy (fun a b => decide (a.1 ≤ b.1)) l' :=
  sortBy_key_congr (key := Prod.fst) (le := fun a b => decide (a ≤ b))
    (by simp; omega) (by simp; omega) (by simp; omega) hp hn

/-- Sorting the items of a dictionary whose keys are `0..n-1`. -/
theorem sortBy_range_items {ν : Type} {ents : Dict Nat ν} {n : Nat} {g : Nat → ν}
    (hp : (ents.map Prod.fst).Perm (List.range n))
    (hg : ∀ e < n, ents.get? e = some (g e)) :
    sortBy (fun a b => decide (a.1 ≤ b.1)) ents = (List.range n).map fun e => (e, g e) := by
  have hen : ents.keys.Nodup := hp.nodup_iff.2 List.nodup_range
  have h2 : ents.Perm ((List.range n).map fun e => (e, g e)) := by
    rw [List.perm_ext_iff_of_nodup (List.Nodup.of_map _ hen)]
    · rintro ⟨k, v⟩
      constructor
      · intro hm
        have hk : k ∈ List.range n := hp.mem_iff.1 (List.mem_map_of_mem (f := Prod.fst) hm)
        have h1 := Dict.get?_eq_some_of_mem hen hm
        rw [hg k (List.mem_range.1 hk)] at h1
        cases h1
        exact List.mem_map.2 ⟨k, hk, rfl⟩
      · intro hm
        obtain ⟨e, he, heq⟩ := List.mem_map.1 hm
        cases heq
        exact Dict.mem_of_get?_eq_some (hg _ (List.mem_range.1 he))
    · apply List.Nodup.of_map Prod.fst
      simpa [List.map_map, Function.comp_def] using List.nodup_range
  rw [sortBy_nat_congr h2 hen]
  apply sortBy_eq_self
  rw [List.pairwise_map]
  exact (List.pairwise_lt_range (n := n)).imp (by intro a b h; simp; omega)

end FInAT
