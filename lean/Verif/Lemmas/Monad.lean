import Verif.Py.Lemmas

/-! # Successful monadic loops -/

namespace FInAT

variable {α β ε : Type _}

theorem mapM_ok {f : α → Except ε β} {g : α → β} {l : List α}
    (h : ∀ x ∈ l, f x = .ok (g x)) : l.mapM f = .ok (l.map g) := by
  induction l with
  | nil => rfl
  | cons a l ih =>
    rw [List.mapM_cons, h a (by simp), ih fun x hx => h x (by simp [hx])]
    rfl

theorem mapM_ok_inv {f : α → Except ε β} {l : List α} {r : List β}
    (h : l.mapM f = .ok r) : List.Forall₂ (fun x y => f x = .ok y) l r := by
  induction l generalizing r with
  | nil => cases h; exact .nil
  | cons a l ih =>
    rw [List.mapM_cons] at h
    cases ha : f a with
    | error e => rw [ha] at h; cases h
    | ok b =>
      cases hl : l.mapM f with
      | error e => rw [ha, hl] at h; cases h
      | ok bs =>
        rw [ha, hl] at h
        cases h
        exact .cons ha (ih hl)

theorem foldlM_ok {f : β → α → Except ε β} {g : β → α → β} {l : List α} {b : β}
    (h : ∀ b, ∀ x ∈ l, f b x = .ok (g b x)) : l.foldlM f b = .ok (l.foldl g b) := by
  induction l generalizing b with
  | nil => rfl
  | cons a l ih =>
    rw [List.foldlM_cons, h b a (by simp)]
    exact ih fun b x hx => h b x (by simp [hx])

/-- Folding with an invariant. -/
theorem foldlM_inv {f : β → α → Except ε β} (P : List α → β → Prop) {l : List α} {b : β}
    (h0 : P [] b)
    (hs : ∀ pre x b, (∃ post, l = pre ++ x :: post) → P pre b → ∃ b', f b x = .ok b' ∧ P (pre ++ [x]) b') :
    ∃ b', l.foldlM f b = .ok b' ∧ P l b' := by
  suffices H : ∀ (pre suf : List α) (b : β), l = pre ++ suf → P pre b →
      ∃ b', suf.foldlM f b = .ok b' ∧ P l b' by
    exact H [] l b rfl h0
  intro pre suf
  induction suf generalizing pre with
  | nil => intro b hl hp; refine ⟨b, rfl, ?_⟩; rw [hl]; simpa using hp
  | cons x suf ih =>
    intro b hl hp
    obtain ⟨b', hb, hp'⟩ := hs pre x b ⟨suf, hl⟩ hp
    obtain ⟨b'', h1, h2⟩ := ih (pre ++ [x]) b' (by simp [hl]) hp'
    refine ⟨b'', ?_, h2⟩
    rw [List.foldlM_cons, hb]
    exact h1

section
variable {κ ν : Type} [DecidableEq κ]

theorem Dict.set_of_not_mem {d : Dict κ ν} {k : κ} {v : ν} (h : k ∉ d.keys) :
    d.set k v = d ++ [(k, v)] := by
  induction d with
  | nil => rfl
  | cons p t ih =>
    obtain ⟨k', v'⟩ := p
    simp only [Dict.keys, List.map_cons, List.mem_cons, not_or] at h
    have hne : k' ≠ k := fun e => h.1 e.symm
    simp [Dict.set, hne, ih h.2]

/-- Filling a fresh dictionary with distinct keys. -/
theorem foldlM_set_ok {α : Type _} {f : α → Except ε ν} {g : α → ν} {key : α → κ} {l : List α}
    (h : ∀ x ∈ l, f x = .ok (g x)) (hn : (l.map key).Nodup) :
    l.foldlM (fun (acc : Dict κ ν) x => do
      let v ← f x
      pure (acc.set (key x) v)) [] = .ok (l.map fun x => (key x, g x)) := by
  suffices H : ∀ (acc : Dict κ ν), (acc.keys ++ l.map key).Nodup →
      l.foldlM (fun (acc : Dict κ ν) x => do
        let v ← f x
        pure (acc.set (key x) v)) acc = .ok (acc ++ l.map fun x => (key x, g x)) by
    simpa [Dict.keys] using H [] (by simpa [Dict.keys] using hn)
  induction l with
  | nil => intro acc _; simp; rfl
  | cons a l ih =>
    intro acc hacc
    rw [List.foldlM_cons, h a (by simp)]
    have hnot : key a ∉ acc.keys := by
      rw [List.nodup_append] at hacc
      intro hm
      exact hacc.2.2 _ hm _ (by simp) rfl
    show List.foldlM _ (acc.set (key a) (g a)) l = _
    rw [Dict.set_of_not_mem hnot, ih (fun x hx => h x (by simp [hx]))]
    · simp
    · simp only [List.map_cons, List.nodup_cons] at hn; exact hn.2
    · simpa [Dict.keys] using hacc

theorem Dict.get?_set (d : Dict κ ν) (k k' : κ) (v : ν) :
    (d.set k v).get? k' = if k = k' then some v else d.get? k' := by
  induction d with
  | nil => simp [Dict.set, Dict.get?]
  | cons p t ih =>
    obtain ⟨a, b⟩ := p
    by_cases h : a = k
    · subst h
      by_cases h' : a = k' <;> simp [Dict.set, Dict.get?, h']
    · by_cases h' : a = k'
      · subst h'
        simp [Dict.set, Dict.get?, h, Ne.symm h]
      · simp [Dict.set, Dict.get?, h, h', ih]

theorem Dict.keys_set (d : Dict κ ν) (k : κ) (v : ν) (h : k ∈ d.keys) :
    (d.set k v).keys = d.keys := by
  induction d with
  | nil => simp [Dict.keys] at h
  | cons p t ih =>
    obtain ⟨a, b⟩ := p
    by_cases ha : a = k
    · simp [Dict.set, Dict.keys, ha]
    · have : k ∈ Dict.keys t := by
        simp only [Dict.keys, List.map_cons, List.mem_cons] at h
        rcases h with rfl | h
        · exact absurd rfl ha
        · exact h
      have ih := ih this
      simp only [Dict.keys] at ih ⊢
      simp [Dict.set, ha, ih]

end

end FInAT
