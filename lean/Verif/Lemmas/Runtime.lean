import Verif.Model.Runtime
import Verif.Lemmas.TabNode2

set_option linter.unusedSectionVars false

namespace FInAT.Runtime

theorem digit_inj : ∀ a < 10, ∀ b < 10, Char.ofNat (48 + a) = Char.ofNat (48 + b) → a = b := by
  decide +kernel

theorem digit_ne : ∀ a < 10, Char.ofNat (48 + a) ≠ '_' ∧ Char.ofNat (48 + a) ≠ '-' := by
  decide +kernel

theorem decimal_ne_nil (n : Nat) : decimal n ≠ [] := by
  rw [decimal]; split <;> simp

theorem decimal_inj : ∀ m n : Nat, decimal m = decimal n → m = n := by
  intro m
  induction m using Nat.strong_induction_on with
  | _ m ih =>
    intro n h
    rw [decimal, decimal.eq_def n] at h
    split at h <;> split at h
    · rename_i hm hn
      exact digit_inj m hm n hn (by simpa using h)
    · have := congrArg List.length h
      have h2 := List.length_pos_of_ne_nil (decimal_ne_nil (n / 10))
      simp only [List.length_append, List.length_cons, List.length_nil] at this
      omega
    · have := congrArg List.length h
      have h2 := List.length_pos_of_ne_nil (decimal_ne_nil (m / 10))
      simp only [List.length_append, List.length_cons, List.length_nil] at this
      omega
    · obtain ⟨h1, h2⟩ := List.append_inj' h rfl
      have e1 := ih (m / 10) (by omega) _ h1
      have e2 := digit_inj (m % 10) (by omega) (n % 10) (by omega) (by simpa using h2)
      omega

theorem decimal_chars (n : Nat) : ∀ c ∈ decimal n, c ≠ '_' ∧ c ≠ '-' := by
  induction n using Nat.strong_induction_on with
  | _ n ih =>
    intro c hc
    rw [decimal] at hc
    split at hc
    · rename_i h
      rw [List.mem_singleton] at hc
      subst hc; exact digit_ne n h
    · rcases List.mem_append.1 hc with hc | hc
      · exact ih (n / 10) (by omega) c hc
      · rw [List.mem_singleton] at hc
        subst hc; exact digit_ne (n % 10) (by omega)

theorem decimalInt_inj (a b : Int) (h : decimalInt a = decimalInt b) : a = b := by
  cases a <;> cases b <;> simp only [decimalInt] at h
  · rw [decimal_inj _ _ h]
  · rename_i m n
    exact absurd rfl (decimal_chars m '-' (by rw [h]; simp)).2
  · rename_i m n
    exact absurd rfl (decimal_chars n '-' (by rw [← h]; simp)).2
  · have := decimal_inj _ _ (List.cons.inj h).2
    congr 1; omega

theorem decimalInt_chars (a : Int) : '_' ∉ decimalInt a := by
  cases a with
  | ofNat n => exact fun h => (decimal_chars n _ h).1 rfl
  | negSucc n =>
    simp only [decimalInt, List.mem_cons, not_or]
    exact ⟨by decide, fun h => (decimal_chars _ _ h).1 rfl⟩

/-- The last field after an underscore is determined. -/
theorem split_last {a b s t : List Char} (hs : '_' ∉ s) (ht : '_' ∉ t)
    (h : a ++ '_' :: s = b ++ '_' :: t) : a = b ∧ s = t := by
  rcases List.append_eq_append_iff.1 h with ⟨c, h1, h2⟩ | ⟨c, h1, h2⟩
  · cases c with
    | nil => simp at h1 h2; exact ⟨h1.symm, h2⟩
    | cons x c =>
      simp at h2
      exact absurd (by rw [h2.2]; simp) hs
  · cases c with
    | nil => simp at h1 h2; exact ⟨h1, h2.symm⟩
    | cons x c =>
      simp at h2
      exact absurd (by rw [h2.2]; simp) ht

theorem suffix_inj {r r' : Option (List Char)} {s : List Char} (h : suffix r = .ok s)
    (h' : suffix r' = .ok s) : r = r' := by
  unfold suffix at h h'
  split at h <;> split at h' <;> simp_all <;> (subst h; simp at h')

theorem suffix_chars {r : Option (List Char)} {s : List Char} (h : suffix r = .ok s) :
    '_' ∉ s := by
  unfold suffix at h
  split at h <;> simp at h <;> subst h <;> decide

theorem name_ok {e : Element} {α n : List _} (h : e.name α = .ok n) :
    ∃ s, suffix e.restriction = .ok s ∧
      n = ((((['r', 't', '_'] ++ e.variant) ++ '_' :: decimalInt e.degree) ++
        '_' :: α.flatMap decimal) ++ '_' :: decimal e.shiftAxes ++
        '_' :: (if e.continuous then ['c'] else ['d'])) ++ '_' :: s := by
  unfold Element.name at h
  cases hs : suffix e.restriction with
  | error x => rw [hs] at h; cases h
  | ok s =>
    rw [hs] at h
    refine ⟨s, rfl, ?_⟩
    have := Except.ok.inj h
    rw [← this]

theorem name_inj {e e' : Element} {k k' : Nat} {n : List Char} (h : e.name [k] = .ok n)
    (h' : e'.name [k'] = .ok n) : e = e' ∧ k = k' := by
  obtain ⟨s, hs, h⟩ := name_ok h
  obtain ⟨s', hs', h'⟩ := name_ok h'
  rw [h] at h'
  have hf (b : Bool) : '_' ∉ (if b then ['c'] else ['d'] : List Char) := by cases b <;> decide
  have hd (n : Nat) : '_' ∉ decimal n := fun h => (decimal_chars n _ h).1 rfl
  have hd' (n : Nat) : '_' ∉ [n].flatMap decimal := by simpa using hd n
  obtain ⟨h', e6⟩ := split_last (suffix_chars hs) (suffix_chars hs') h'
  obtain ⟨h', e5⟩ := split_last (hf _) (hf _) h'
  obtain ⟨h', e4⟩ := split_last (hd _) (hd _) h'
  obtain ⟨h', e3⟩ := split_last (hd' _) (hd' _) h'
  obtain ⟨h', e2⟩ := split_last (decimalInt_chars _) (decimalInt_chars _) h'
  have e1 := List.append_cancel_left h'
  subst e6
  have r := suffix_inj hs hs'
  have c : e.continuous = e'.continuous := by
    revert e5; cases e.continuous <;> cases e'.continuous <;> simp
  cases e; cases e'
  simp only at *
  refine ⟨?_, decimal_inj _ _ (by simpa using e3)⟩
  rw [e1, decimalInt_inj _ _ e2, decimal_inj _ _ e4, r, c]

theorem init_ok {line : Bool} {degree shift : Int} {variant r : Option (List Char)} {c : Bool}
    {e : Element} (h : init line degree variant shift r c = .ok e) :
    line = true ∧ 0 ≤ shift ∧ r ∈ [none, some ['+'], some ['-']] ∧ e.degree = degree ∧
      variant = some e.variant ∧ (e.shiftAxes : Int) = shift ∧ e.restriction = r ∧
      e.continuous = c := by
  unfold init at h
  split at h
  · cases h
  · rename_i hl
    split at h
    · cases h
    · split at h
      · cases h
      · rename_i hs
        split at h
        · rename_i hr
          obtain rfl := Except.ok.inj h
          exact ⟨by simpa using hl, by omega, hr, rfl, rfl, by simp; omega, rfl, rfl⟩
        · cases h

theorem name_total {e : Element} (h : e.restriction ∈ [none, some ['+'], some ['-']])
    (α : List Nat) : ∃ n, e.name α = .ok n := by
  simp only [List.mem_cons, List.not_mem_nil, or_false] at h
  unfold Element.name
  rcases h with h | h | h <;> rw [h] <;> exact ⟨_, rfl⟩

/-- The loop over a list of multiindices. -/
theorem fold_table {e : Element} (h : e.restriction ∈ [none, some ['+'], some ['-']])
    (shape : List Int) (ix : List Nat) : ∀ (l : List (List Nat)) (acc : Dict (List Nat) Entry),
    ∃ d, l.foldlM (fun (result : Dict (List Nat) Entry) alpha => do
        let name ← e.name alpha
        return result.set alpha ⟨name, shape, ix⟩) acc = Except.ok (ε := Err) d ∧
      ∀ α, (α ∈ l → ∃ n, e.name α = .ok n ∧ d.get? α = some ⟨n, shape, ix⟩) ∧
        (α ∉ l → d.get? α = acc.get? α)
  | [], acc => ⟨acc, rfl, fun α => ⟨fun h => by simp at h, fun _ => rfl⟩⟩
  | a :: l, acc => by
    obtain ⟨n, hn⟩ := name_total h a
    obtain ⟨d, hd, hα⟩ := fold_table h shape ix l (acc.set a ⟨n, shape, ix⟩)
    refine ⟨d, ?_, fun α => ⟨fun hm => ?_, fun hm => ?_⟩⟩
    · rw [List.foldlM_cons, hn]; exact hd
    · by_cases hl : α ∈ l
      · exact (hα α).1 hl
      · have : α = a := by simpa [hl] using hm
        subst this
        refine ⟨n, hn, ?_⟩
        rw [(hα α).2 hl, Dict.get?_set, if_pos rfl]
    · have h1 : α ≠ a ∧ α ∉ l := by simpa using hm
      rw [(hα α).2 h1.2, Dict.get?_set, if_neg]
      exact fun h => h1.1 (by simp_all)

theorem mem_orders {order : Nat} {α : List Nat} :
    α ∈ (List.range (order + 1)).flatMap (mis 1) ↔ ∃ k ≤ order, α = [k] := by
  simp only [List.mem_flatMap, List.mem_range, mis, List.mem_singleton]
  exact ⟨fun ⟨k, h, e⟩ => ⟨k, by omega, e⟩, fun ⟨k, h, e⟩ => ⟨k, by omega, e⟩⟩

theorem table {e : Element} (h : e.restriction ∈ [none, some ['+'], some ['-']])
    (order : Nat) (extents ix : List Nat) :
    ∃ d, e.basisEvaluation order extents ix = .ok d ∧
      (∀ k ≤ order, ∃ n, e.name [k] = .ok n ∧
        d.get? [k] = some ⟨n, extents.map Int.ofNat ++ [e.degree + 1], ix⟩) ∧
      ∀ α, (∀ k ≤ order, α ≠ [k]) → d.get? α = none := by
  obtain ⟨d, hd, hα⟩ := fold_table h (extents.map Int.ofNat ++ [e.degree + 1]) ix
    ((List.range (order + 1)).flatMap (mis 1)) []
  refine ⟨d, hd, fun k hk => (hα [k]).1 (mem_orders.2 ⟨k, hk, rfl⟩), fun α hk => ?_⟩
  rw [(hα α).2 (fun hm => by obtain ⟨k, h1, h2⟩ := mem_orders.1 hm; exact hk k h1 h2)]
  rfl

end FInAT.Runtime
