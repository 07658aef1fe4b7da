import Verif.Lemmas.Productise

/-! # Closed form of `concatenate_entity_dofs` -/

namespace FInAT

open Spec

/-- The dictionary over topology `top` with value `g dim e` on entity `(dim, e)`. -/
def build (top : List (Dim × Nat)) (g : Dim → Nat → List Nat) : EntityDofs :=
  top.map fun p => (p.1, (List.range p.2).map fun e => (e, g p.1 e))

theorem enumFrom_replicate {β : Type} (s n : Nat) (b : β) :
    enumFrom s (List.replicate n b) = (List.range n).map fun e => (s + e, b) := by
  induction n generalizing s with
  | zero => rfl
  | succ n ih =>
    simp only [List.replicate_succ, enumFrom, ih, List.range_succ_eq_map, List.map_cons,
      List.map_map, Function.comp_def]
    simp [add_assoc, add_comm 1]

theorem emptyDofs_eq_build (top : List (Dim × Nat)) : emptyDofs top = build top fun _ _ => [] := by
  simp [emptyDofs, build, enumFrom_replicate]

theorem get?_map_self {κ ν : Type} [DecidableEq κ] {l : List κ} {f : κ → ν} {k : κ} (h : k ∈ l) :
    Dict.get? (l.map fun a => (a, f a)) k = some (f k) := by
  induction l with
  | nil => simp at h
  | cons a l ih =>
    by_cases hak : a = k
    · subst hak; simp [Dict.get?]
    · simp only [List.map_cons, Dict.get?, hak, if_false]
      exact ih (by simpa [Ne.symm hak] using h)

theorem build_get? {top : List (Dim × Nat)} (hn : (top.map Prod.fst).Nodup)
    (g : Dim → Nat → List Nat) {p : Dim × Nat} (hp : p ∈ top) :
    (build top g).get? p.1 = some ((List.range p.2).map fun e => (e, g p.1 e)) := by
  apply Dict.get?_eq_some_of_mem
  · simpa [build, Dict.keys, List.map_map, Function.comp_def] using hn
  · exact List.mem_map.2 ⟨p, hp, rfl⟩

theorem build_dofsOn {top : List (Dim × Nat)} (hn : (top.map Prod.fst).Nodup)
    (g : Dim → Nat → List Nat) {p : Dim × Nat} (hp : p ∈ top) {e : Nat} (he : e < p.2) :
    dofsOn (build top g) p.1 e = g p.1 e := by
  simp [dofsOn, build_get? hn g hp, get?_map_self (List.mem_range.2 he)]

theorem build_covers (top : List (Dim × Nat)) (g : Dim → Nat → List Nat) :
    Covers (build top g) top := by
  refine ⟨by simp [build, List.map_map, Function.comp_def], fun p hp => ?_⟩
  exact ⟨_, List.mem_map.2 ⟨p, hp, rfl⟩, by simp [List.map_map, Function.comp_def]⟩

theorem set_map_self {κ ν : Type} [DecidableEq κ] {l : List κ} (hl : l.Nodup) {f : κ → ν} {k : κ}
    (h : k ∈ l) (v : ν) :
    Dict.set (l.map fun a => (a, f a)) k v = l.map fun a => (a, if a = k then v else f a) := by
  induction l with
  | nil => simp at h
  | cons a l ih =>
    rw [List.nodup_cons] at hl
    by_cases hak : a = k
    · subst hak
      simp only [List.map_cons, Dict.set, if_true]
      congr 1
      apply List.map_congr_left
      intro b hb
      have : b ≠ a := by rintro rfl; exact hl.1 hb
      simp [this]
    · simp only [List.map_cons, Dict.set, hak, if_false]
      rw [ih hl.2 (by simpa [Ne.symm hak] using h)]

theorem set_map_key {γ κ ν : Type} [DecidableEq κ] {l : List γ} {key : γ → κ}
    (hl : (l.map key).Nodup) {f : γ → ν} {x : γ} (h : x ∈ l) (v : ν) :
    Dict.set (l.map fun a => (key a, f a)) (key x) v =
      l.map fun a => (key a, if key a = key x then v else f a) := by
  induction l with
  | nil => simp at h
  | cons a l ih =>
    rw [List.map_cons, List.nodup_cons] at hl
    by_cases hak : key a = key x
    · simp only [List.map_cons, Dict.set, hak, if_true]
      congr 1
      apply List.map_congr_left
      intro b hb
      have : key b ≠ key x := by
        intro e; rw [← hak] at e; exact hl.1 (e ▸ List.mem_map_of_mem (f := key) hb)
      simp [this]
    · simp only [List.map_cons, Dict.set, hak, if_false]
      rw [ih hl.2]
      rcases List.mem_cons.1 h with rfl | h
      · exact absurd rfl hak
      · exact h

theorem addDofs_build {top : List (Dim × Nat)} (hn : (top.map Prod.fst).Nodup)
    (g : Dim → Nat → List Nat) {p : Dim × Nat} (hp : p ∈ top) {e : Nat} (he : e < p.2)
    (l : List Nat) :
    addDofs (build top g) p.1 e l =
      .ok (build top fun dim e' => if dim = p.1 ∧ e' = e then g dim e' ++ l else g dim e') := by
  unfold addDofs
  have h1 := build_get? hn g hp
  rw [Dict.get_eq_ok_iff.2 h1]
  simp only [bind, Except.bind]
  rw [Dict.get_eq_ok_iff.2 (get?_map_self (List.mem_range.2 he))]
  simp only [pure, Except.pure]
  rw [set_map_self List.nodup_range (List.mem_range.2 he)]
  unfold build
  rw [set_map_key hn hp]
  congr 1
  apply List.map_congr_left
  intro q hq
  by_cases hq1 : q.1 = p.1
  · have : q = p := List.inj_on_of_nodup_map hn hq hp hq1
    subst this
    simp only [if_true, true_and]
    congr 1
    apply List.map_congr_left
    intro e' _
    by_cases he' : e' = e
    · subst he'; simp
    · simp [he']
  · simp [hq1]

/-- Everything a dictionary lists under entity `(dim, e)`, in order. -/
def collect (d : EntityDofs) (dim : Dim) (e : Nat) : List Nat :=
  d.flatMap fun p => if p.1 = dim then p.2.flatMap fun q => if q.1 = e then q.2 else [] else []

theorem collectEnts_eq {ents : Dict Nat (List Nat)} (h : ents.keys.Nodup) (e : Nat) :
    (ents.flatMap fun q => if q.1 = e then q.2 else []) = (ents.get? e).getD [] := by
  induction ents with
  | nil => rfl
  | cons q t ih =>
    obtain ⟨k, v⟩ := q
    simp only [Dict.keys, List.map_cons, List.nodup_cons] at h
    simp only [List.flatMap_cons, ih h.2, Dict.get?]
    by_cases hk : k = e
    · subst hk
      have : Dict.get? t k = none := by
        rcases hg : Dict.get? t k with _ | v'
        · rfl
        · exact absurd (List.mem_map_of_mem (f := Prod.fst) (Dict.mem_of_get?_eq_some hg)) h.1
      simp [this]
    · simp [hk]

theorem collect_eq {d : EntityDofs} (h : d.keys.Nodup) {dim : Dim}
    (he : ∀ ents, (dim, ents) ∈ d → ents.keys.Nodup) (e : Nat) :
    collect d dim e = dofsOn d dim e := by
  induction d with
  | nil => rfl
  | cons q t ih =>
    obtain ⟨k, v⟩ := q
    simp only [Dict.keys, List.map_cons, List.nodup_cons] at h
    have ih := ih h.2 fun ents hm => he ents (by simp [hm])
    unfold collect at ih ⊢
    simp only [List.flatMap_cons, ih, dofsOn, Dict.get?]
    by_cases hk : k = dim
    · subst hk
      have : Dict.get? t k = none := by
        rcases hg : Dict.get? t k with _ | v'
        · rfl
        · exact absurd (List.mem_map_of_mem (f := Prod.fst) (Dict.mem_of_get?_eq_some hg)) h.1
      simp [this, collectEnts_eq (he v (by simp))]
    · simp [hk]

theorem Covers.entity_keys_nodup {d : EntityDofs} {top : List (Dim × Nat)} (h : Covers d top)
    (hn : (top.map Prod.fst).Nodup) {dim : Dim} {ents : Dict Nat (List Nat)}
    (hm : (dim, ents) ∈ d) : ∃ n, (dim, n) ∈ top ∧ (ents.map Prod.fst).Perm (List.range n) := by
  have hk : dim ∈ top.map Prod.fst := h.1.mem_iff.1 (List.mem_map_of_mem (f := Prod.fst) hm)
  obtain ⟨p, hp, rfl⟩ := List.mem_map.1 hk
  obtain ⟨ents', e1, e2, e3⟩ := Covers.get h hn hp
  have : some ents = some ents' := by
    rw [← e1, Dict.get?_eq_some_of_mem (h.1.nodup_iff.2 hn) hm]
  cases this
  exact ⟨p.2, hp, e3⟩

theorem collect_eq_of_covers {d : EntityDofs} {top : List (Dim × Nat)} (h : Covers d top)
    (hn : (top.map Prod.fst).Nodup) (dim : Dim) (e : Nat) : collect d dim e = dofsOn d dim e := by
  apply collect_eq (h.1.nodup_iff.2 hn)
  intro ents hm
  obtain ⟨n, _, hp⟩ := Covers.entity_keys_nodup h hn hm
  exact hp.nodup_iff.2 List.nodup_range

theorem concatenateOne_build {top : List (Dim × Nat)} (hn : (top.map Prod.fst).Nodup)
    (g : Dim → Nat → List Nat) (off : Nat) {d : EntityDofs}
    (hk : ∀ q ∈ d, ∃ n, (q.1, n) ∈ top ∧ ∀ r ∈ q.2, r.1 < n) :
    concatenateOne (build top g) off d =
      .ok (build top fun dim e => g dim e ++ (collect d dim e).map (off + ·)) := by
  unfold concatenateOne
  induction d generalizing g with
  | nil => simp [collect]; rfl
  | cons q t ih =>
    obtain ⟨dim, ents⟩ := q
    obtain ⟨n, hq, hr⟩ := hk (dim, ents) (by simp)
    rw [List.foldlM_cons]
    -- inner loop
    have inner : ∀ (es : Dict Nat (List Nat)) (g : Dim → Nat → List Nat),
        (∀ r ∈ es, r.1 < n) →
        es.foldlM (fun acc r => addDofs acc dim r.1 (r.2.map (off + ·))) (build top g) =
        .ok (build top fun dim' e => if dim' = dim then
          g dim' e ++ (es.flatMap fun r => if r.1 = e then r.2 else []).map (off + ·) else g dim' e) := by
      intro es
      induction es with
      | nil => intro g _; simp; rfl
      | cons r es ih2 =>
        intro g hes
        rw [List.foldlM_cons, addDofs_build hn g (p := (dim, n)) hq (hes r (by simp))]
        show List.foldlM _ (build top _) es = _
        rw [ih2 _ fun r' hr' => hes r' (by simp [hr'])]
        congr 2
        funext dim' e
        by_cases h1 : dim' = dim
        · by_cases h2 : e = r.1
          · subst h2; simp [h1]
          · simp [h1, h2, Ne.symm h2]
        · simp [h1]
    rw [inner ents g hr]
    show List.foldlM _ (build top _) t = _
    rw [ih _ fun q hq => hk q (by simp [hq])]
    congr 2
    funext dim' e
    by_cases h1 : dim' = dim
    · subst h1; simp [collect]
    · simp [collect, h1, Ne.symm h1]

/-- Closed form of `concatenate_entity_dofs`: entity by entity, the shifted lists of the
sub-elements in order. -/
theorem concatenateEntityDofs_eq {top : List (Dim × Nat)} (hn : (top.map Prod.fst).Nodup)
    (els : List (Nat × EntityDofs)) (h : ∀ x ∈ els, Covers x.2 top) :
    concatenateEntityDofs top (els.map Prod.fst) (els.map Prod.snd) =
      .ok (build top fun dim e => ((cumsum0 (els.map Prod.fst)).zip (els.map Prod.snd)).flatMap
        fun x => (dofsOn x.2 dim e).map (x.1 + ·)) := by
  unfold concatenateEntityDofs
  simp only []
  rw [emptyDofs_eq_build]
  have H : ∀ (xs : List (Nat × EntityDofs)) (g : Dim → Nat → List Nat),
      (∀ x ∈ xs, Covers x.2 top) →
      xs.foldlM (fun acc p => concatenateOne acc p.1 p.2) (build top g) =
      .ok (build top fun dim e => g dim e ++ xs.flatMap fun x => (dofsOn x.2 dim e).map (x.1 + ·)) := by
    intro xs
    induction xs with
    | nil => intro g _; simp; rfl
    | cons x xs ih =>
      intro g hx
      have hc := hx x (by simp)
      rw [List.foldlM_cons, concatenateOne_build hn]
      · show List.foldlM _ (build top _) xs = _
        rw [ih _ fun y hy => hx y (by simp [hy])]
        congr 2
        funext dim e
        simp [collect_eq_of_covers hc hn]
      · rintro ⟨dim, ents⟩ hq
        obtain ⟨n, h1, h2⟩ := Covers.entity_keys_nodup hc hn hq
        refine ⟨n, h1, fun r hr => ?_⟩
        exact List.mem_range.1 (h2.mem_iff.1 (List.mem_map_of_mem (f := Prod.fst) hr))
  rw [H]
  · simp
  · intro x hx
    obtain ⟨y, hy, he⟩ := List.mem_map.1 (List.of_mem_zip hx).2
    exact he ▸ h y hy

theorem build_allDofs (top : List (Dim × Nat)) (g : Dim → Nat → List Nat) :
    allDofs (build top g) = top.flatMap fun p => (List.range p.2).flatMap fun e => g p.1 e := by
  simp [allDofs, build, List.flatMap_map]

theorem flatMap_swap_perm {α β γ : Type _} (l : List α) (m : List β) (f : α → β → List γ) :
    (l.flatMap fun a => m.flatMap fun b => f a b).Perm (m.flatMap fun b => l.flatMap fun a => f a b) := by
  induction l with
  | nil => simp
  | cons a l ih =>
    simp only [List.flatMap_cons]
    refine (List.Perm.append_left _ ih).trans ?_
    clear ih
    induction m with
    | nil => simp
    | cons b m ih =>
      simp only [List.flatMap_cons]
      refine List.Perm.trans ?_ ((List.Perm.refl _).append ih)
      simp only [List.append_assoc]
      refine List.Perm.append_left _ ?_
      rw [← List.append_assoc, ← List.append_assoc]
      exact List.Perm.append_right _ List.perm_append_comm

theorem range_blocks (acc : Nat) (ns : List Nat) :
    ((cumsum0.go acc ns).zip (ns.map List.range)).flatMap (fun x => x.2.map (x.1 + ·)) =
      (List.range ns.sum).map (acc + ·) := by
  induction ns generalizing acc with
  | nil => simp
  | cons n ns ih =>
    simp only [cumsum0.go, List.map_cons, List.zip_cons_cons, List.flatMap_cons, ih, List.sum_cons,
      List.range_add, List.map_append, List.map_map, Function.comp_def, add_assoc]

theorem partition_concat {top : List (Dim × Nat)} (hn : (top.map Prod.fst).Nodup)
    (els : List (Nat × EntityDofs)) (h : ∀ x ∈ els, Covers x.2 top ∧ Partition x.2 x.1) :
    Partition (build top fun dim e => ((cumsum0 (els.map Prod.fst)).zip (els.map Prod.snd)).flatMap
        fun x => (dofsOn x.2 dim e).map (x.1 + ·)) (els.map Prod.fst).sum := by
  unfold Partition
  rw [build_allDofs]
  have h1 : (top.flatMap fun p => (List.range p.2).flatMap fun e =>
      ((cumsum0 (els.map Prod.fst)).zip (els.map Prod.snd)).flatMap
        fun x => (dofsOn x.2 p.1 e).map (x.1 + ·)).Perm
      (((cumsum0 (els.map Prod.fst)).zip (els.map Prod.snd)).flatMap fun x =>
        top.flatMap fun p => (List.range p.2).flatMap fun e => (dofsOn x.2 p.1 e).map (x.1 + ·)) := by
    refine List.Perm.trans ?_ (flatMap_swap_perm _ _ _)
    exact List.Perm.flatMap_left _ fun p _ => flatMap_swap_perm _ _ _
  refine h1.trans ?_
  have h2 : ∀ (acc : Nat), (((cumsum0.go acc (els.map Prod.fst)).zip (els.map Prod.snd)).flatMap fun x =>
        top.flatMap fun p => (List.range p.2).flatMap fun e => (dofsOn x.2 p.1 e).map (x.1 + ·)).Perm
      ((List.range (els.map Prod.fst).sum).map (acc + ·)) := by
    intro acc
    clear h1
    induction els generalizing acc with
    | nil => simp
    | cons x els ih =>
      simp only [List.map_cons, cumsum0.go, List.zip_cons_cons, List.flatMap_cons, List.sum_cons,
        List.range_add, List.map_append, List.map_map, Function.comp_def]
      refine List.Perm.append ?_ ?_
      · have := (allDofs_perm_top (h x (by simp)).1 hn).symm.trans (h x (by simp)).2
        have := this.map (acc + ·)
        simpa only [List.map_flatMap] using this
      · have := ih (fun y hy => h y (by simp [hy])) (acc + x.1)
        simpa [add_assoc] using this
  simpa [cumsum0] using h2 0

end FInAT
