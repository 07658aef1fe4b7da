import Verif.Model.Tabulate
import Verif.Lemmas.Monad
import Mathlib.Data.List.Forall2

/-!
# Construction steps: success with a postcondition, fresh indices, binding of indices
-/

namespace FInAT

variable {α β : Type}

/-- The step `x`, started when `n` indices exist, succeeds and its result satisfies `P`. -/
def Runs (x : M α) (n : Nat) (P : α → Nat → Prop) : Prop := ∃ a n', x n = .ok (a, n') ∧ P a n'

theorem Runs.mono {x : M α} {n : Nat} {P Q : α → Nat → Prop} (h : Runs x n P)
    (hq : ∀ a n', P a n' → Q a n') : Runs x n Q := by
  obtain ⟨a, n', h1, h2⟩ := h
  exact ⟨a, n', h1, hq _ _ h2⟩

theorem Runs.pure {a : α} {n : Nat} {P : α → Nat → Prop} (h : P a n) : Runs (pure a) n P :=
  ⟨a, n, rfl, h⟩

theorem Runs.bind {x : M α} {f : α → M β} {n : Nat} {P : β → Nat → Prop}
    (h : Runs x n fun a n' => Runs (f a) n' P) : Runs (x >>= f) n P := by
  obtain ⟨a, n', h1, b, n'', h2, h3⟩ := h
  refine ⟨b, n'', ?_, h3⟩
  show (x n >>= fun p => f p.1 p.2) = _
  rw [h1]
  exact h2

theorem Runs.liftE {x : Except Err α} {a : α} {n : Nat} {P : α → Nat → Prop} (hx : x = .ok a)
    (h : P a n) : Runs (liftE x) n P := by
  refine ⟨a, n, ?_, h⟩
  subst hx
  rfl

theorem Runs.assertM {b : Bool} {n : Nat} {P : Unit → Nat → Prop} (hb : b = true)
    (h : P () n) : Runs (assertM b) n P := by
  subst hb
  exact ⟨(), n, rfl, h⟩

/-- A loop building a list: every step satisfies a postcondition that survives later steps. -/
theorem Runs.mapM {f : α → M β} {l : List α} {n : Nat} {Q : α → β → Prop}
    (h : ∀ a ∈ l, ∀ n', n ≤ n' → Runs (f a) n' fun b n'' => n' ≤ n'' ∧ Q a b) :
    Runs (l.mapM f) n fun bs n' => n ≤ n' ∧ List.Forall₂ Q l bs := by
  induction l generalizing n with
  | nil => exact ⟨[], n, rfl, Nat.le_refl _, .nil⟩
  | cons a l ih =>
    rw [List.mapM_cons]
    apply Runs.bind
    refine (h a List.mem_cons_self n (Nat.le_refl _)).mono ?_
    rintro b n1 ⟨hn1, hq⟩
    apply Runs.bind
    refine (ih fun x hx n' hn' => h x (List.mem_cons_of_mem _ hx) n' (Nat.le_trans hn1 hn')).mono ?_
    rintro bs n2 ⟨hn2, hqs⟩
    exact Runs.pure ⟨Nat.le_trans hn1 hn2, .cons hq hqs⟩

/-! ### Fresh indices -/

/-- The identities of `ixs` are distinct and lie in `[n, n')`. -/
def Fresh (n n' : Nat) (ixs : List Index) : Prop :=
  (ixs.map Index.id).Nodup ∧ (∀ i ∈ ixs, n ≤ i.id ∧ i.id < n') ∧ n ≤ n'

theorem Fresh.append {n m k : Nat} {a b : List Index} (ha : Fresh n m a) (hb : Fresh m k b) :
    Fresh n k (a ++ b) := by
  refine ⟨?_, ?_, Nat.le_trans ha.2.2 hb.2.2⟩
  · rw [List.map_append, List.nodup_append]
    refine ⟨ha.1, hb.1, ?_⟩
    intro x hx y hy e
    obtain ⟨i, hi, rfl⟩ := List.mem_map.1 hx
    obtain ⟨j, hj, rfl⟩ := List.mem_map.1 hy
    have h1 := (ha.2.1 i hi).2
    have h2 := (hb.2.1 j hj).1
    omega
  · intro i hi
    rcases List.mem_append.1 hi with h | h
    · have := ha.2.1 i h; have := hb.2.2; omega
    · have := hb.2.1 i h; have := ha.2.2; omega

theorem Fresh.nil (n : Nat) : Fresh n n [] := ⟨by simp, by simp, Nat.le_refl _⟩

theorem Fresh.mono {n m k : Nat} {a : List Index} (ha : Fresh n m a) (h : m ≤ k) : Fresh n k a :=
  ⟨ha.1, fun i hi => ⟨(ha.2.1 i hi).1, Nat.lt_of_lt_of_le (ha.2.1 i hi).2 h⟩, Nat.le_trans ha.2.2 h⟩

theorem Fresh.weaken {n n0 m : Nat} {a : List Index} (ha : Fresh n m a) (h : n0 ≤ n) : Fresh n0 m a :=
  ⟨ha.1, fun i hi => ⟨Nat.le_trans h (ha.2.1 i hi).1, (ha.2.1 i hi).2⟩, Nat.le_trans h ha.2.2⟩

theorem Fresh.perm {n n' : Nat} {a b : List Index} (ha : Fresh n n' a) (h : a.Perm b) :
    Fresh n n' b :=
  ⟨(h.map _).nodup_iff.1 ha.1, fun i hi => ha.2.1 i (h.mem_iff.2 hi), ha.2.2⟩

theorem freshIndices_mk (n : Nat) (ds : List Nat) :
    Fresh n (n + ds.length) (freshIndices.mk n ds) ∧ (freshIndices.mk n ds).map Index.extent = ds := by
  induction ds generalizing n with
  | nil => exact ⟨Fresh.nil n, rfl⟩
  | cons d ds ih =>
    obtain ⟨h1, h2⟩ := ih (n + 1)
    refine ⟨?_, by simp [freshIndices.mk, h2]⟩
    have h0 : Fresh n (n + 1) [(⟨n, d⟩ : Index)] := ⟨by simp, by simp, by omega⟩
    have := h0.append h1
    simp only [List.length_cons]
    rw [show n + (ds.length + 1) = n + 1 + ds.length by omega]
    exact this

theorem Runs.freshIndices (ds : List Nat) (n : Nat) {P : List Index → Nat → Prop}
    (h : ∀ ixs n', Fresh n n' ixs → ixs.map Index.extent = ds → P ixs n') :
    Runs (freshIndices ds) n P :=
  ⟨_, _, rfl, h _ _ (freshIndices_mk n ds).1 (freshIndices_mk n ds).2⟩

/-- One fresh multi-index per shape. -/
theorem Runs.freshIndicesL (dss : List (List Nat)) (n : Nat) {P : List (List Index) → Nat → Prop}
    (h : ∀ ixss n', Fresh n n' ixss.flatten → ixss.map (List.map Index.extent) = dss → P ixss n') :
    Runs (dss.mapM FInAT.freshIndices) n P := by
  have H : Runs (dss.mapM FInAT.freshIndices) n fun ixss n' =>
      Fresh n n' ixss.flatten ∧ ixss.map (List.map Index.extent) = dss := by
    clear h
    induction dss generalizing n with
    | nil => exact ⟨[], n, rfl, Fresh.nil n, rfl⟩
    | cons ds dss ih =>
      rw [List.mapM_cons]
      apply Runs.bind
      apply Runs.freshIndices
      intro ixs n1 hf he
      apply Runs.bind
      refine (ih n1).mono ?_
      rintro ixss n2 ⟨hf2, he2⟩
      refine Runs.pure ⟨?_, by simp [he, he2]⟩
      simpa using hf.append hf2
  exact H.mono fun a n' h' => h a n' h'.1 h'.2

/-! ### Binding -/

theorem bindIx_of_not_mem {ixs : List Index} {v : List Nat} {ρ : Nat → Nat} {k : Nat}
    (h : k ∉ ixs.map Index.id) : bindIx ρ ixs v k = ρ k := by
  induction ixs generalizing v ρ with
  | nil => rfl
  | cons i ixs ih =>
    cases v with
    | nil => rfl
    | cons a v =>
      simp only [List.map_cons, List.mem_cons, not_or] at h
      rw [bindIx, ih h.2, Function.update_of_ne h.1]

/-- Bound indices have the bound values. -/
theorem map_bindIx {ixs : List Index} {v : List Nat} (ρ : Nat → Nat)
    (hn : (ixs.map Index.id).Nodup) (hl : v.length = ixs.length) :
    ixs.map (fun i => bindIx ρ ixs v i.id) = v := by
  induction ixs generalizing v ρ with
  | nil => cases v with
    | nil => rfl
    | cons => simp at hl
  | cons i ixs ih =>
    cases v with
    | nil => simp at hl
    | cons a v =>
      simp only [List.map_cons, List.nodup_cons] at hn
      simp only [List.map_cons, bindIx]
      rw [bindIx_of_not_mem hn.1, Function.update_self, ih _ hn.2 (by simpa using hl)]

/-- Two environments agree on the indices created before `n`. -/
def Agree (n : Nat) (ρ ρ' : Nat → Nat) : Prop := ∀ k < n, ρ k = ρ' k

theorem Agree.symm {n : Nat} {ρ ρ' : Nat → Nat} (h : Agree n ρ ρ') : Agree n ρ' ρ :=
  fun k hk => (h k hk).symm

theorem Agree.trans {n : Nat} {ρ ρ' ρ'' : Nat → Nat} (h : Agree n ρ ρ') (h' : Agree n ρ' ρ'') :
    Agree n ρ ρ'' := fun k hk => (h k hk).trans (h' k hk)

theorem Agree.mono {n m : Nat} {ρ ρ' : Nat → Nat} (h : Agree n ρ ρ') (hm : m ≤ n) : Agree m ρ ρ' :=
  fun k hk => h k (Nat.lt_of_lt_of_le hk hm)

theorem bindIx_agree {n n' : Nat} {ixs : List Index} (hf : Fresh n n' ixs) (v : List Nat)
    (ρ : Nat → Nat) : Agree n (bindIx ρ ixs v) ρ := by
  intro k hk
  apply bindIx_of_not_mem
  intro hm
  obtain ⟨i, hi, rfl⟩ := List.mem_map.1 hm
  have := (hf.2.1 i hi).1
  omega

/-- Cutting a mapped concatenation into its blocks. -/
theorem map_blocks {f : α → β} {L : List (List α)} {V : List (List β)}
    (h : L.flatten.map f = V.flatten) (hl : V.map List.length = L.map List.length) :
    L.map (List.map f) = V := by
  induction L generalizing V with
  | nil => cases V with
    | nil => rfl
    | cons => simp at hl
  | cons a L ih =>
    cases V with
    | nil => simp at hl
    | cons b V =>
      simp only [List.map_cons, List.cons.injEq] at hl
      simp only [List.flatten_cons, List.map_append] at h
      have hab : (a.map f).length = b.length := by simp [hl.1]
      obtain ⟨h1, h2⟩ := List.append_inj h hab
      simp [h1, ih h2 hl.2]

/-! ### Building blocks of expressions -/

variable {K : Type}

theorem fitsShape_free {ixs : List Index} {s : List Nat} (h : ixs.map Index.extent = s) :
    fitsShape (ixs.map .free) s = true := by
  induction ixs generalizing s with
  | nil => subst h; rfl
  | cons i ixs ih =>
    subst h
    simp [fitsShape, Ix.fits, ih]

theorem fitsShape_fixed {v s : List Nat} (h : List.Forall₂ (· < ·) v s) :
    fitsShape (v.map .fixed) s = true := by
  induction h with
  | nil => rfl
  | cons h _ ih => simp [fitsShape, Ix.fits, h, ih]

theorem fitsShape_append {a b : List Ix} {s t : List Nat} (h1 : fitsShape a s = true)
    (h2 : fitsShape b t = true) : fitsShape (a ++ b) (s ++ t) = true := by
  induction a generalizing s with
  | nil => cases s with
    | nil => exact h2
    | cons => simp [fitsShape] at h1
  | cons i a ih =>
    cases s with
    | nil => simp [fitsShape] at h1
    | cons n s =>
      simp only [fitsShape, Bool.and_eq_true] at h1
      simp [fitsShape, h1.1, ih h1.2]

section
variable [CommRing K]

theorem Runs.mkIndexed {e : Gem K} {ixs : List Ix} {n : Nat} {P : Gem K → Nat → Prop}
    (hf : fitsShape ixs e.shape = true)
    (h : ∀ r : Gem K, r.shape = [] → (∀ ρ, r.eval ρ [] = e.eval ρ (ixs.map (Ix.val ρ))) → P r n) :
    Runs (mkIndexed e ixs) n P := by
  unfold FInAT.mkIndexed
  apply Runs.bind
  apply Runs.assertM hf
  apply Runs.pure
  by_cases hi : ixs = []
  · subst hi
    rw [if_pos rfl]
    refine h e ?_ fun ρ => rfl
    cases hs : e.shape with
    | nil => rfl
    | cons a s => rw [hs] at hf; simp [fitsShape] at hf
  · rw [if_neg hi]
    exact h _ rfl fun ρ => by simp [Gem.eval]

theorem map_val_free (ρ : Nat → Nat) (ixs : List Index) :
    (ixs.map Ix.free).map (Ix.val ρ) = ixs.map fun i => ρ i.id := by simp [Ix.val]

theorem map_val_fixed (ρ : Nat → Nat) (v : List Nat) :
    (v.map Ix.fixed).map (Ix.val ρ) = v := by
  rw [List.map_map]
  exact (List.map_congr_left fun x _ => rfl).trans (List.map_id v)

theorem Runs.mkComponentTensor {e : Gem K} {ixs : List Index} {n : Nat} {P : Gem K → Nat → Prop}
    (hs : e.shape = [])
    (h : ∀ r : Gem K, r.shape = ixs.map Index.extent →
      (∀ ρ v, v.length = ixs.length → r.eval ρ v = e.eval (bindIx ρ ixs v) []) → P r n) :
    Runs (mkComponentTensor e ixs) n P := by
  unfold FInAT.mkComponentTensor
  apply Runs.bind
  apply Runs.assertM (by simp [hs])
  apply Runs.pure
  by_cases hi : ixs = []
  · subst hi
    rw [if_pos rfl]
    refine h e (by simp [hs]) fun ρ v hv => ?_
    have : v = [] := by simpa using hv
    subst this
    rfl
  · rw [if_neg hi]
    exact h _ (by simp [Gem.shape]) fun ρ v _ => by simp [Gem.eval]

theorem Runs.mkProduct {a b : Gem K} {n : Nat} {P : Gem K → Nat → Prop}
    (ha : a.shape = []) (hb : b.shape = [])
    (h : ∀ r : Gem K, r.shape = [] → (∀ ρ, r.eval ρ [] = a.eval ρ [] * b.eval ρ []) → P r n) :
    Runs (mkProduct a b) n P := by
  unfold FInAT.mkProduct
  apply Runs.bind
  apply Runs.assertM (by simp [ha, hb])
  apply Runs.pure
  exact h _ rfl fun ρ => by simp [Gem.eval]

theorem Runs.reduceProduct {es : List (Gem K)} {n : Nat} {P : Gem K → Nat → Prop}
    (hne : es ≠ []) (hs : ∀ e ∈ es, e.shape = [])
    (h : ∀ r : Gem K, r.shape = [] → (∀ ρ, r.eval ρ [] = (es.map fun e => e.eval ρ []).prod) → P r n) :
    Runs (reduceProduct es) n P := by
  cases es with
  | nil => exact absurd rfl hne
  | cons e es =>
    have H : ∀ (es : List (Gem K)) (e : Gem K), e.shape = [] → (∀ x ∈ es, x.shape = []) →
        Runs (es.foldlM FInAT.mkProduct e) n fun r n' => n' = n ∧ r.shape = [] ∧
          ∀ ρ, r.eval ρ [] = e.eval ρ [] * (es.map fun x => x.eval ρ []).prod := by
      intro es
      induction es with
      | nil => intro e he _; exact ⟨e, n, rfl, rfl, he, by simp⟩
      | cons x es ih =>
        intro e he hx
        rw [List.foldlM_cons]
        apply Runs.bind
        apply Runs.mkProduct he (hx x List.mem_cons_self)
        intro r hr1 hr2
        refine (ih r hr1 fun y hy => hx y (List.mem_cons_of_mem _ hy)).mono ?_
        rintro r' n' ⟨rfl, h1, h2⟩
        exact ⟨rfl, h1, fun ρ => by rw [h2, hr2]; simp [mul_assoc]⟩
    refine (H es e (hs e List.mem_cons_self) fun x hx => hs x (List.mem_cons_of_mem _ hx)).mono ?_
    rintro r n' ⟨rfl, h1, h2⟩
    exact h r h1 fun ρ => by rw [h2]; simp

theorem evalNth_eq (ρ : Nat → Nat) (es : List (Gem K)) (k : Nat) :
    Gem.evalNth ρ es k = ((es[k]?).map fun e => e.eval ρ []).getD 0 := by
  induction es generalizing k with
  | nil => simp [Gem.evalNth]
  | cons e es ih => cases k with
    | zero => simp [Gem.evalNth]
    | succ k => simp [Gem.evalNth, ih]

theorem Runs.mkListTensor {s : List Nat} {es : List (Gem K)} {n : Nat} {P : Gem K → Nat → Prop}
    (hne : es ≠ []) (hl : es.length = s.prod) (hs : ∀ e ∈ es, e.shape = [])
    (h : ∀ r : Gem K, r.shape = s →
      (∀ ρ v, r.eval ρ v = ((es[ravel s v]?).map fun e => e.eval ρ []).getD 0) → P r n) :
    Runs (mkListTensor s es) n P := by
  unfold FInAT.mkListTensor
  apply Runs.bind
  apply Runs.assertM
  · simp only [Bool.and_eq_true, decide_eq_true_eq, List.all_eq_true]
    exact ⟨⟨hne, hl⟩, fun e he => hs e he⟩
  apply Runs.pure
  exact h _ rfl fun ρ v => by rw [Gem.eval, evalNth_eq]

/-- `partial_indexed` keeps the remaining axes as shape. -/
theorem Runs.partialIndexed {e : Gem K} {ixs : List Ix} {s t : List Nat} {n : Nat}
    {P : Gem K → Nat → Prop} (he : e.shape = s ++ t) (hf : fitsShape ixs s = true)
    (hb : ∀ i ∈ ixs, ∀ j, i = .free j → j.id < n)
    (h : ∀ r n', n ≤ n' → r.shape = t →
      (∀ ρ v, v.length = t.length → ∃ ρ', Agree n ρ ρ' ∧
        r.eval ρ v = e.eval ρ' (ixs.map (Ix.val ρ') ++ v) ∧ ixs.map (Ix.val ρ') = ixs.map (Ix.val ρ)) →
      P r n') :
    Runs (partialIndexed e ixs) n P := by
  have hlen : ixs.length = s.length := by
    clear h hb he
    induction ixs generalizing s with
    | nil => cases s with
      | nil => rfl
      | cons => simp [fitsShape] at hf
    | cons i ixs ih => cases s with
      | nil => simp [fitsShape] at hf
      | cons a s =>
        simp only [fitsShape, Bool.and_eq_true] at hf
        simp [ih hf.2]
  unfold FInAT.partialIndexed
  rw [if_neg (by simp [he, hlen])]
  by_cases ht : t = []
  · subst ht
    rw [if_pos (by simp [he, hlen])]
    apply Runs.mkIndexed (by simpa [he] using hf)
    intro r hr1 hr2
    refine h r n (Nat.le_refl _) hr1 fun ρ v hv => ?_
    have : v = [] := by simpa using hv
    subst this
    exact ⟨ρ, fun _ _ => rfl, by simpa using hr2 ρ, rfl⟩
  · rw [if_neg (by
      have : t.length ≠ 0 := by simpa using ht
      simp [he, hlen]; omega)]
    apply Runs.bind
    apply Runs.freshIndices
    intro rest n1 hfr hext
    have hdrop : e.shape.drop ixs.length = t := by rw [he, hlen]; simp
    rw [hdrop] at hext
    apply Runs.bind
    apply Runs.mkIndexed (by
      rw [he]
      exact fitsShape_append hf (fitsShape_free hext))
    intro x hx1 hx2
    apply Runs.mkComponentTensor hx1
    intro r hr1 hr2
    refine h r n1 hfr.2.2 (by rw [hr1, hext]) fun ρ v hv => ?_
    have hvl : v.length = rest.length := by rw [hv, ← hext]; simp
    refine ⟨bindIx ρ rest v, (bindIx_agree hfr v ρ).symm, ?_, ?_⟩
    · rw [hr2 ρ v hvl, hx2, List.map_append, map_val_free, map_bindIx ρ hfr.1 hvl]
    · apply List.map_congr_left
      intro i hi
      cases i with
      | fixed k => rfl
      | free j => exact bindIx_agree hfr v ρ j.id (hb _ hi j rfl)

end

end FInAT
