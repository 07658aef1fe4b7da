import Verif.Spec.FreeIndices
import Verif.Model.Dual
import Verif.Model.Support
import Verif.Py.Lemmas
import Verif.Lemmas.ElemDofs
import Mathlib.Tactic.Tauto

/-!
# Free indices of the expressions that are built

`Post x P`: every result of the construction `x` has the property `P`.
-/

namespace FInAT

variable {K : Type} {α β : Type}

/-- Every result of `x` has the property `P`. -/
def Post (x : M α) (P : α → Prop) : Prop := ∀ n a m, x n = .ok (a, m) → P a

namespace Post

theorem any (x : M α) : Post x fun _ => True := fun _ _ _ _ => trivial

theorem pure {a : α} {P : α → Prop} (h : P a) : Post (Pure.pure a : M α) P := by
  intro n b m hb
  cases hb
  exact h

theorem bind {x : M α} {f : α → M β} {P : α → Prop} {Q : β → Prop} (hx : Post x P)
    (hf : ∀ a, P a → Post (f a) Q) : Post (x >>= f) Q := by
  intro n b m h
  change (x n >>= fun p => f p.1 p.2) = _ at h
  cases hn : x n with
  | error e => rw [hn] at h; cases h
  | ok r => rw [hn] at h; exact hf r.1 (hx n r.1 r.2 hn) r.2 b m h

theorem bind' {x : M α} {f : α → M β} {Q : β → Prop} (hf : ∀ a, Post (f a) Q) : Post (x >>= f) Q :=
  bind (any x) fun a _ => hf a

theorem lift {x : Except Err α} {P : α → Prop} (h : ∀ a, x = .ok a → P a) : Post (liftE x) P := by
  intro n a m ha
  unfold liftE at ha
  cases hx : x with
  | error e => rw [hx] at ha; cases ha
  | ok b => rw [hx] at ha; cases ha; exact h _ hx

theorem raise {e : Err} {P : α → Prop} : Post (liftE (.error e)) P := lift (by intro a h; cases h)

theorem mono {x : M α} {P Q : α → Prop} (h : Post x P) (hPQ : ∀ a, P a → Q a) : Post x Q :=
  fun n a m ha => hPQ a (h n a m ha)

theorem mapM {f : α → M β} {Q : β → Prop} : ∀ {l : List α}, (∀ a ∈ l, Post (f a) Q) →
    Post (l.mapM f) fun r => ∀ b ∈ r, Q b
  | [], _ => by rw [List.mapM_nil]; exact pure (by simp)
  | a :: l, h => by
    rw [List.mapM_cons]
    refine bind (h a (by simp)) fun b hb => bind (mapM fun a' ha' => h a' (by simp [ha'])) fun bs hbs => pure ?_
    simpa using ⟨hb, hbs⟩

theorem foldlM {f : β → α → M β} {P : β → Prop} : ∀ {l : List α} {b : β},
    (∀ b, P b → ∀ a ∈ l, Post (f b a) P) → P b → Post (l.foldlM f b) P
  | [], b, _, hb => by rw [List.foldlM_nil]; exact pure hb
  | a :: l, b, h, hb => by
    rw [List.foldlM_cons]
    exact bind (h b hb a (by simp)) fun b' hb' => foldlM (fun b h' a' ha' => h b h' a' (by simp [ha'])) hb'

end Post

namespace Gem

variable {S S' : Nat → Prop} {e a b : Gem K}

theorem freeL_iff {n : Nat} : ∀ {es : List (Gem K)}, FreeL n es ↔ ∃ e ∈ es, e.Free n
  | [] => by simp [FreeL]
  | e :: es => by simp [FreeL, freeL_iff (es := es)]

theorem wellShapedL_iff : ∀ {es : List (Gem K)}, WellShapedL es ↔ ∀ e ∈ es, e.WellShaped
  | [] => by simp [WellShapedL]
  | e :: es => by simp [WellShapedL, wellShapedL_iff (es := es)]

theorem FreeIn.mono (h : e.FreeIn S) (hS : ∀ n, S n → S' n) : e.FreeIn S' := ⟨h.1, fun n hn => hS n (h.2 n hn)⟩

theorem freeIn_literal {s : List Nat} {d : List Nat → K} : (Gem.literal s d).FreeIn S := by
  refine ⟨by simp [WellShaped], ?_⟩
  intro n h; simp [Free] at h

theorem freeIn_zero {s : List Nat} : (Gem.zero s : Gem K).FreeIn S := by
  refine ⟨by simp [WellShaped], ?_⟩
  intro n h; simp [Free] at h

theorem freeIn_delta {i j : Index} (hi : S i.id) (hj : S j.id) : (Gem.delta i j : Gem K).FreeIn S := by
  refine ⟨by simp [WellShaped], ?_⟩
  intro n h
  simp only [Free] at h
  rcases h with rfl | rfl
  · exact hi
  · exact hj

theorem freeIn_concatenate {es : List (Gem K)} (h : ∀ e ∈ es, e.FreeIn S) : (Gem.concatenate es).FreeIn S := by
  refine ⟨by simpa only [WellShaped, wellShapedL_iff] using fun e he => (h e he).1, ?_⟩
  intro n hn
  simp only [Free, freeL_iff] at hn
  obtain ⟨e, he, hf⟩ := hn
  exact (h e he).2 n hf

end Gem

open Gem

variable {S : Nat → Prop}

theorem post_assert {b : Bool} : Post (assertM b) fun _ => b = true := by
  refine Post.lift fun a h => ?_
  cases b with
  | true => rfl
  | false => cases h

theorem fits_length : ∀ {ixs : List Ix} {s : List Nat}, fitsShape ixs s = true → ixs.length = s.length
  | [], [], _ => rfl
  | [], _ :: _, h => by simp [fitsShape] at h
  | _ :: _, [], h => by simp [fitsShape] at h
  | i :: is, d :: ds, h => by
    simp only [fitsShape, Bool.and_eq_true] at h
    simp [fits_length h.2]

theorem post_indexed {e : Gem K} {ixs : List Ix} (he : e.FreeIn S) (hi : ∀ i, Ix.free i ∈ ixs → S i.id) :
    Post (mkIndexed e ixs) (FreeIn S) := by
  refine Post.bind post_assert fun _ hs => Post.pure ?_
  split
  · exact he
  · refine ⟨by rw [WellShaped]; exact ⟨he.1, fits_length hs⟩, ?_⟩
    intro n hn
    simp only [Free] at hn
    rcases hn with hn | ⟨i, hi', rfl⟩
    · exact he.2 n hn
    · exact hi i hi'

theorem post_indexed_free {e : Gem K} {l : List Index} (he : e.FreeIn S) (hi : ∀ i ∈ l, S i.id) :
    Post (mkIndexed e (l.map .free)) (FreeIn S) :=
  post_indexed he (by simpa using hi)

theorem post_indexed_fixed {e : Gem K} {l : List Nat} (he : e.FreeIn S) :
    Post (mkIndexed e (l.map .fixed)) (FreeIn S) :=
  post_indexed he (by simp)

theorem freeIn_bound {e : Gem K} {ixs : List Index} (he : e.FreeIn fun n => S n ∨ AmongIx ixs n) (hs : e.shape = []) :
    (Gem.componentTensor e ixs).FreeIn S ∧ (Gem.indexSum e ixs).FreeIn S := by
  constructor <;>
  · refine ⟨by rw [WellShaped]; exact ⟨he.1, hs⟩, ?_⟩
    intro n hn
    simp only [Free] at hn
    exact (he.2 n hn.1).resolve_right hn.2

theorem post_tensor {e : Gem K} {ixs : List Index} (he : e.FreeIn fun n => S n ∨ AmongIx ixs n) :
    Post (mkComponentTensor e ixs) (FreeIn S) := by
  refine Post.bind post_assert fun _ hs => Post.pure ?_
  split
  · rename_i h
    subst h
    exact he.mono fun n hn => hn.resolve_right (by simp [AmongIx])
  · exact (freeIn_bound he (by simpa using hs)).1

theorem post_sum {e : Gem K} {ixs : List Index} (he : e.FreeIn fun n => S n ∨ AmongIx ixs n) :
    Post (mkIndexSum e ixs) (FreeIn S) := by
  refine Post.bind post_assert fun _ hs => Post.pure ?_
  split
  · rename_i h
    subst h
    exact he.mono fun n hn => hn.resolve_right (by simp [AmongIx])
  · exact (freeIn_bound he (by simpa using hs)).2

theorem post_product {a b : Gem K} (ha : a.FreeIn S) (hb : b.FreeIn S) : Post (mkProduct a b) (FreeIn S) := by
  refine Post.bind post_assert fun _ hs => Post.pure ?_
  refine ⟨by rw [WellShaped]; exact ⟨ha.1, hb.1, by simpa using hs⟩, ?_⟩
  intro n hn
  simp only [Free] at hn
  exact hn.elim (ha.2 n) (hb.2 n)

theorem post_reduce {es : List (Gem K)} (h : ∀ e ∈ es, e.FreeIn S) : Post (reduceProduct es) (FreeIn S) := by
  cases es with
  | nil => exact Post.raise
  | cons e es =>
    exact Post.foldlM (fun b hb a ha => post_product hb (h a (by simp [ha]))) (h e (by simp))

theorem post_list {s : List Nat} {es : List (Gem K)} (h : ∀ e ∈ es, e.FreeIn S) :
    Post (mkListTensor s es) (FreeIn S) := by
  refine Post.bind post_assert fun _ hs => Post.pure ?_
  simp only [Bool.and_eq_true, List.all_eq_true, decide_eq_true_eq] at hs
  refine ⟨by rw [WellShaped, wellShapedL_iff]; exact ⟨fun e he => (h e he).1, hs.2⟩, ?_⟩
  intro n hn
  simp only [Free, freeL_iff] at hn
  obtain ⟨e, he, hf⟩ := hn
  exact (h e he).2 n hf

theorem post_partial {e : Gem K} {ixs : List Ix} (he : e.FreeIn S) (hi : ∀ i, Ix.free i ∈ ixs → S i.id) :
    Post (partialIndexed e ixs) (FreeIn S) := by
  unfold partialIndexed
  split
  · exact Post.raise
  · split
    · exact post_indexed he hi
    · refine Post.bind' fun rest => Post.bind (post_indexed (S := fun n => S n ∨ AmongIx rest n)
        (he.mono fun n hn => .inl hn) ?_) fun x hx => post_tensor hx
      intro i h
      rcases List.mem_append.1 h with h | h
      · exact .inl (hi i h)
      · obtain ⟨j, hj, hij⟩ := List.mem_map.1 h
        cases hij
        exact .inr (List.mem_map_of_mem hj)

theorem among_left {l l' : List Index} {i : Index} (h : i ∈ l) : AmongIx (l ++ l') i.id := by
  simp only [AmongIx, List.map_append, List.mem_append]
  exact .inl (List.mem_map_of_mem h)

theorem among_right {l l' : List Index} {i : Index} (h : i ∈ l') : AmongIx (l ++ l') i.id := by
  simp only [AmongIx, List.map_append, List.mem_append]
  exact .inr (List.mem_map_of_mem h)

theorem among_of {l : List Index} {i : Index} (h : i ∈ l) : AmongIx l i.id := List.mem_map_of_mem h

/-! ### Composite elements -/

theorem tab_get {T : Tab K} {k : List Nat} {t : Gem K} (h : T.get k = .ok t) (hT : TabFreeIn S T) : t.FreeIn S := by
  unfold Dict.get at h
  cases hg : T.get? k with
  | none => rw [hg] at h; cases h
  | some v =>
    rw [hg] at h
    cases h
    exact hT _ (Dict.mem_of_get?_eq_some hg)

theorem tab_set : ∀ {T : Tab K} {k : List Nat} {t : Gem K}, TabFreeIn S T → t.FreeIn S → TabFreeIn S (T.set k t)
  | [], k, t, _, ht => by
    intro p hp
    simp only [Dict.set, List.mem_singleton] at hp
    subst hp
    exact ht
  | (k', v) :: T, k, t, hT, ht => by
    intro p hp
    simp only [Dict.set] at hp
    split at hp
    · rcases List.mem_cons.1 hp with rfl | hp
      · exact ht
      · exact hT p (by simp [hp])
    · rcases List.mem_cons.1 hp with rfl | hp
      · exact hT _ (by simp)
      · exact tab_set (fun q hq => hT q (by simp [hq])) ht p hp

theorem post_mapTab {f : Gem K → M (Gem K)} {T : Tab K} (hT : TabFreeIn S T)
    (hf : ∀ e, e.FreeIn S → Post (f e) (FreeIn S)) : Post (mapTab f T) (TabFreeIn S) :=
  Post.mapM fun p hp => Post.bind (hf p.2 (hT p hp)) fun _ ht => Post.pure ht

section
variable [CommRing K]

theorem post_comp {v : Gem K} (hv : v.FreeIn S) (c : Comp) : Post (compExpr v c) (FreeIn S) := by
  cases c with
  | zero => exact Post.pure freeIn_zero
  | entry neg ix =>
    refine Post.bind (post_indexed_fixed hv) fun x hx => ?_
    split
    · exact post_product freeIn_literal hx
    · exact Post.pure hx

theorem post_wrapped {comps : List Comp} {beta zeta : List Index} {t : Gem K} (ht : t.FreeIn S) :
    Post (promoteWrapped comps beta zeta t) (FreeIn S) := by
  refine Post.bind (post_partial (S := fun n => S n ∨ AmongIx (beta ++ zeta) n) (ht.mono fun n hn => .inl hn)
    fun i hi => ?_) fun v hv => Post.bind (Post.mapM fun c _ => post_comp hv c) fun es hes =>
    Post.bind (post_list hes) fun u hu => Post.bind (post_indexed_free hu fun i hi => ?_) fun x hx => post_tensor hx
  · simp only [List.mem_map, Ix.free.injEq, exists_eq_right] at hi
    exact .inr (among_left hi)
  · exact .inr (among_right hi)

theorem mem_foldl_set {α : Type} {l : Dict Nat α} {off : Nat} : ∀ {u : List α} {x : α},
    x ∈ l.foldl (fun u p => u.set (off + p.1) p.2) u → x ∈ u ∨ ∃ p ∈ l, p.2 = x := by
  induction l with
  | nil => intro u x h; exact .inl h
  | cons p l ih =>
    intro u x h
    rcases ih h with h | ⟨q, hq, rfl⟩
    · rcases List.mem_or_eq_of_mem_set h with h | h
      · exact .inl h
      · exact .inr ⟨p, by simp, h.symm⟩
    · exact .inr ⟨q, by simp [hq], rfl⟩

theorem enumFrom_snd {α : Type} : ∀ {l : List α} {k : Nat} {p : Nat × α}, p ∈ enumFrom k l → p.2 ∈ l
  | [], _, p, h => by simp [enumFrom] at h
  | a :: l, k, p, h => by
    simp only [enumFrom, List.mem_cons] at h
    rcases h with rfl | h
    · simp
    · exact List.mem_cons_of_mem _ (enumFrom_snd h)

theorem post_mixed {vs : List Nat} {size offset : Nat} {beta zeta : List Index} {t : Gem K} (ht : t.FreeIn S) :
    Post (promoteMixed vs size offset beta zeta t) (FreeIn S) := by
  refine Post.bind (post_partial (S := fun n => S n ∨ AmongIx (beta ++ zeta) n) (ht.mono fun n hn => .inl hn)
    fun i hi => ?_) fun v hv => Post.bind (P := fun es => ∀ e ∈ es, e.FreeIn fun n => S n ∨ AmongIx (beta ++ zeta) n)
    ?_ fun es hes => Post.bind (post_list hes) fun u hu =>
      Post.bind (post_indexed_free hu fun i hi => ?_) fun x hx => post_tensor hx
  · simp only [List.mem_map, Ix.free.injEq, exists_eq_right] at hi
    exact .inr (among_left hi)
  · refine Post.bind (Post.mapM fun z _ => post_indexed_fixed hv) fun entries he => Post.pure ?_
    intro e hm
    rcases mem_foldl_set hm with h | ⟨p, hp, rfl⟩
    · rw [List.eq_of_mem_replicate h]
      exact freeIn_zero
    · exact he _ (enumFrom_snd hp)
  · exact .inr (among_right hi)

theorem post_deltas {l l' : List Index} (h : ∀ i ∈ l, S i.id) (h' : ∀ i ∈ l', S i.id) :
    Post (reduceProduct ((l.zip l').map fun p => (Gem.delta p.1 p.2 : Gem K))) (FreeIn S) := by
  refine post_reduce fun e he => ?_
  obtain ⟨p, hp, rfl⟩ := List.mem_map.1 he
  exact freeIn_delta (h _ (List.of_mem_zip hp).1) (h' _ (List.of_mem_zip hp).2)

theorem among_order {t : Bool} {a b c d : List Index} {i : Index} (h : i ∈ a ∨ i ∈ b ∨ i ∈ c ∨ i ∈ d) :
    AmongIx (if t then b ++ a ++ c ++ d else a ++ b ++ c ++ d) i.id := by
  refine List.mem_map_of_mem ?_
  split <;> simp only [List.mem_append] <;> tauto

theorem post_tensorise {bis bvs shape : List Nat} {tr : Bool} {T : Tab K} (hT : TabFreeIn S T) :
    Post (tensorise bis bvs shape tr T) (TabFreeIn S) := by
  refine Post.bind' fun si => Post.bind' fun sv => Post.bind' fun ti => Post.bind' fun tv => ?_
  refine Post.bind (P := FreeIn fun n => S n ∨ AmongIx (if tr then ti ++ si ++ tv ++ sv else si ++ ti ++ tv ++ sv) n)
    (post_deltas (fun i hi => .inr (among_order (by tauto))) fun i hi => .inr (among_order (by tauto)))
    fun deltas hd => post_mapTab hT fun e he => ?_
  refine Post.bind (post_indexed_free (S := fun n => S n ∨ AmongIx (if tr then ti ++ si ++ tv ++ sv else
    si ++ ti ++ tv ++ sv) n) (he.mono fun n hn => .inl hn) fun i hi => ?_) fun x hx =>
    Post.bind (post_product hd hx) fun y hy => post_tensor hy
  exact .inr (among_order (by rcases List.mem_append.1 hi with h | h <;> tauto))

theorem post_enriched {iss : List (List Nat)} {vs : List Nat} {total : Nat} {tables : List (Gem K)}
    (ht : ∀ t ∈ tables, t.FreeIn S) : Post (mergeEnriched iss vs total tables) (FreeIn S) := by
  refine Post.bind' fun zeta => Post.bind (P := fun ts => ∀ t ∈ ts, t.FreeIn fun n => S n ∨ AmongIx zeta n)
    (Post.mapM fun p hp => ?_) fun ts hts => Post.bind' fun beta => ?_
  · refine Post.bind' fun bi => Post.bind (post_indexed_free
      (S := fun n => (S n ∨ AmongIx zeta n) ∨ AmongIx bi n)
      ((ht _ (List.of_mem_zip hp).2).mono fun n hn => .inl (.inl hn)) fun i hi => ?_) fun x hx => post_tensor hx
    rcases List.mem_append.1 hi with h | h
    · exact .inr (among_of h)
    · exact .inl (.inr (among_of h))
  · refine Post.bind (post_indexed_free (S := fun n => S n ∨ AmongIx (beta ++ zeta) n)
      (freeIn_concatenate fun e he => (hts e he).mono fun n hn => hn.imp id fun h => ?_) fun i hi => ?_)
      fun x hx => post_tensor hx
    · simp only [AmongIx, List.map_append, List.mem_append]
      exact .inr h
    · exact .inr (among_left hi)

theorem mapM_get {tabs : List (Tab K)} {k : List Nat} (ht : ∀ T ∈ tabs, TabFreeIn S T) :
    ∀ {r}, tabs.mapM (fun t => t.get k) = .ok r → ∀ t ∈ r, t.FreeIn S := by
  induction tabs with
  | nil => intro r h; cases h; simp
  | cons T tabs ih =>
    intro r h
    rw [List.mapM_cons] at h
    cases hg : T.get k with
    | error e => rw [hg] at h; cases h
    | ok t =>
      cases hr : tabs.mapM (fun t => t.get k) with
      | error e => rw [hg, hr] at h; cases h
      | ok ts =>
        rw [hg, hr] at h
        cases h
        intro t' ht'
        rcases List.mem_cons.1 ht' with rfl | ht'
        · exact tab_get hg (ht T (by simp))
        · exact ih (fun T' hT' => ht T' (by simp [hT'])) hr t' ht'

theorem post_compose {iss : List (List Nat)} {vs : List Nat} {total : Nat} {tabs : List (Tab K)}
    (ht : ∀ T ∈ tabs, TabFreeIn S T) : Post (composeEnriched iss vs total tabs) (TabFreeIn S) := by
  unfold composeEnriched
  split
  · exact Post.raise
  · split
    · exact Post.mapM fun k _ => Post.bind (Post.lift fun r hr => mapM_get ht hr) fun tables h =>
        Post.bind (post_enriched h) fun e he => Post.pure he
    · exact Post.raise

theorem post_mergeProduct {dims : List Nat} {al ze : List (List Index)} {frs : List (Tab K)} {D : List Nat}
    (hf : ∀ T ∈ frs, TabFreeIn S T) : Post (mergeProduct dims al ze frs D) (FreeIn S) := by
  refine Post.bind (P := fun l => ∀ e ∈ l, e.FreeIn fun n => S n ∨ AmongIx (al ++ ze).flatten n)
    (Post.mapM fun p hp => ?_) fun l hl => Post.bind (post_reduce hl) fun e he => post_tensor he
  have h1 := List.of_mem_zip hp
  have h2 := List.of_mem_zip (List.of_mem_zip h1.2).2
  refine Post.bind (P := FreeIn S) (Post.lift fun t ht => tab_get ht (hf _ h1.1)) fun t ht =>
    post_indexed_free (ht.mono fun n hn => .inl hn) fun i hi => .inr (List.mem_map_of_mem ?_)
  rw [List.flatten_append, List.mem_append, List.mem_flatten, List.mem_flatten]
  rcases List.mem_append.1 hi with h | h
  · exact .inl ⟨_, h2.1, h⟩
  · exact .inr ⟨_, h2.2, h⟩

theorem post_merge {dims : List Nat} {iss vss : List (List Nat)} {frs : List (Tab K)}
    (hf : ∀ T ∈ frs, TabFreeIn S T) : Post (mergeEvaluations dims iss vss frs) (TabFreeIn S) := by
  refine Post.bind' fun order => Post.bind' fun al => Post.bind' fun ze => Post.foldlM (fun T hT D _ => ?_)
    (by intro p hp; simp at hp)
  exact Post.bind (post_mergeProduct hf) fun e he => Post.pure (tab_set hT he)

variable {P : Type}

/-- The leaves and the splitting of points respect the indices of the points. -/
structure FreeSem (I : Interp K P) (ok : P → Prop) (ids : P → Nat → Prop) : Prop where
  factor : ∀ cs ds p, ok p → Post (I.factor cs ds p) fun ps => ∀ q ∈ ps, ok q ∧ ∀ n, ids q n → ids p n
  forget : ∀ p, ok p → ok (I.forget p) ∧ ∀ n, ids (I.forget p) n → ids p n
  leaf : ∀ l o p ent, ok p → Post (I.leafTab l o p ent) (TabFreeIn (ids p))
  quad : ∀ r c ext o p ent, ok p → Post (I.quadTab r c ext o p ent) (TabFreeIn (ids p))

theorem TabFreeIn.mono {S S' : Nat → Prop} {T : Tab K} (h : TabFreeIn S T) (hS : ∀ n, S n → S' n) :
    TabFreeIn S' T := fun p hp => (h p hp).mono hS

mutual
theorem post_evaluate {I : Interp K P} {ok : P → Prop} {ids : P → Nat → Prop} (H : FreeSem I ok ids) : ∀ (e : Elem) (o : Nat) (p : P)
    (ent : Option (Dim × Nat)), ok p → Post (evaluate I e o p ent) (TabFreeIn (ids p))
  | .leaf l, o, p, ent, hp => by rw [evaluate]; exact H.leaf l o p ent hp
  | .tensorProduct fs, o, p, ent, hp => by
    rw [evaluate]
    exact Post.bind' fun cs => Post.bind' fun ents => Post.bind (H.factor _ _ _ hp) fun pss hpss =>
      Post.bind (post_evaluateZip H fs o pss ents (S := ids p) hpss) fun frs hf => Post.bind' fun vs => post_merge hf
  | .flattened e, o, p, ent, hp => by
    rw [evaluate]
    exact Post.bind' fun ent => (post_evaluate H e o (I.forget p) (some ent) (H.forget p hp).1).mono fun T hT => hT.mono (H.forget p hp).2
  | .enriched es, o, p, ent, hp => by
    rw [evaluate]
    exact Post.bind (post_evaluateL H es o p ent hp) fun tabs ht => Post.bind' fun vs => post_compose ht
  | .mixedSub e size offset, o, p, ent, hp => by
    rw [evaluate]
    exact Post.bind (post_evaluate H e o p ent hp) fun core hc => Post.bind' fun beta => Post.bind' fun zeta =>
      Post.bind' fun vs => post_mapTab hc fun t ht => post_mixed ht
  | .discontinuous e, o, p, ent, hp => by rw [evaluate]; exact post_evaluate H e o p ent hp
  | .tensorFE e shape tr, o, p, ent, hp => by
    rw [evaluate]
    exact Post.bind (post_evaluate H e o p ent hp) fun tab ht => Post.bind' fun vs => post_tensorise ht
  | .hdiv w, o, p, ent, hp => by
    rw [evaluate]
    exact Post.bind ((post_evaluate H w o (I.forget p) ent (H.forget p hp).1).mono fun T hT =>
      hT.mono (H.forget p hp).2) fun core hc =>
      Post.bind' fun comps => Post.bind' fun c => Post.bind' fun beta => Post.bind' fun zeta =>
        post_mapTab hc fun t ht => post_wrapped ht
  | .hcurl w, o, p, ent, hp => by
    rw [evaluate]
    exact Post.bind ((post_evaluate H w o (I.forget p) ent (H.forget p hp).1).mono fun T hT =>
      hT.mono (H.forget p hp).2) fun core hc =>
      Post.bind' fun comps => Post.bind' fun c => Post.bind' fun beta => Post.bind' fun zeta =>
        post_mapTab hc fun t ht => post_wrapped ht
  | .quadrature r c ext, o, p, ent, hp => by rw [evaluate]; exact H.quad r c ext o p ent hp
theorem post_evaluateZip {I : Interp K P} {ok : P → Prop} {ids : P → Nat → Prop} (H : FreeSem I ok ids) : ∀ (fs : List Elem) (o : Nat)
    (ps : List P) (ents : List (Dim × Nat)) {S : Nat → Prop}, (∀ q ∈ ps, ok q ∧ ∀ n, ids q n → S n) →
    Post (evaluateZip I fs o ps ents) fun Ts => ∀ T ∈ Ts, TabFreeIn S T
  | [], o, ps, ents, S, h => by rw [evaluateZip]; exact Post.pure (by simp); simp
  | f :: fs, o, [], ents, S, h => by rw [evaluateZip]; exact Post.pure (by simp); simp
  | f :: fs, o, p :: ps, [], S, h => by rw [evaluateZip]; exact Post.pure (by simp); simp
  | f :: fs, o, p :: ps, e :: es, S, h => by
    rw [evaluateZip]
    exact Post.bind ((post_evaluate H f o p (some e) (h p (by simp)).1).mono fun T hT => hT.mono (h p (by simp)).2) fun T hT =>
      Post.bind (post_evaluateZip H fs o ps es fun q hq => h q (by simp [hq])) fun Ts hTs =>
        Post.pure (by simpa using ⟨hT, hTs⟩)
theorem post_evaluateL {I : Interp K P} {ok : P → Prop} {ids : P → Nat → Prop} (H : FreeSem I ok ids) : ∀ (es : List Elem) (o : Nat)
    (p : P) (ent : Option (Dim × Nat)), ok p → Post (evaluateL I es o p ent) fun Ts => ∀ T ∈ Ts, TabFreeIn (ids p) T
  | [], o, p, ent, hp => by rw [evaluateL]; exact Post.pure (by simp)
  | e :: es, o, p, ent, hp => by
    rw [evaluateL]
    exact Post.bind (post_evaluate H e o p ent hp) fun T hT => Post.bind (post_evaluateL H es o p ent hp) fun Ts hTs =>
      Post.pure (by simpa using ⟨hT, hTs⟩)
end

/-! ### Leaves -/

theorem post_fiatExpr {F : Fiat K} {l : Leaf} {α : List Nat} {flat : Nat → K} {ps : PSet K} {c : Nat} :
    Post (fiatExpr F l α flat ps c) (FreeIn (AmongIx ps.indices)) := by
  unfold fiatExpr
  dsimp only
  split
  · split
    · exact Post.raise
    · exact Post.pure freeIn_literal
  · split
    · exact Post.bind' fun _ => Post.pure freeIn_literal
    · split
      · exact Post.raise
      · refine post_partial freeIn_literal fun i hi => ?_
        simp only [List.mem_map, Ix.free.injEq, exists_eq_right] at hi
        exact among_of hi

theorem post_components {exprs : List (Gem K)} {a vs : List Nat} (he : ∀ e ∈ exprs, e.FreeIn S) :
    Post (do
      let beta ← freshIndices a
      let zeta ← freshIndices vs
      let es ← exprs.mapM fun e => mkIndexed e (beta.map .free)
      let u ← mkListTensor vs es
      let x ← mkIndexed u (zeta.map .free)
      mkComponentTensor x (beta ++ zeta)) (FreeIn S) := by
  refine Post.bind' fun beta => Post.bind' fun zeta => Post.bind (P := fun es => ∀ e ∈ es, e.FreeIn fun n =>
    S n ∨ AmongIx (beta ++ zeta) n) (Post.mapM fun e h => post_indexed_free ((he e h).mono fun n hn => .inl hn)
      fun i hi => .inr (among_left hi)) fun es hes => Post.bind (post_list hes) fun u hu =>
    Post.bind (post_indexed_free hu fun i hi => .inr (among_right hi)) fun x hx => post_tensor hx

theorem post_fiatTable {F : Fiat K} {l : Leaf} {α : List Nat} {flat : Nat → K} {ps : PSet K} :
    Post (fiatTable F l ps α flat) (FreeIn (AmongIx ps.indices)) := by
  refine Post.bind (Post.mapM fun c _ => post_fiatExpr) fun exprs he => ?_
  split
  · split
    · exact Post.pure (he _ (by simp))
    · exact Post.raise
  · exact post_components he

theorem post_fiatBasis {F : Fiat K} {l : Leaf} {o : Nat} {ps : PSet K} {ent : Option (Dim × Nat)} :
    Post (fiatBasisEvaluation F l o ps ent) (TabFreeIn (AmongIx ps.indices)) := by
  unfold fiatBasisEvaluation
  split
  · exact Post.raise
  · exact Post.mapM fun p _ => Post.bind post_fiatTable fun t ht => Post.pure ht

theorem post_spectral {F : Fiat K} {cls : PSClass} {l : Leaf} {o : Nat} {ps : PSet K} {ent : Option (Dim × Nat)} :
    Post (spectralBasisEvaluation F cls l o ps ent) (TabFreeIn (AmongIx ps.indices)) := by
  refine Post.bind post_fiatBasis fun T hT => ?_
  split
  · split
    · rename_i q hq
      refine Post.bind' fun r => ?_
      split
      · rename_i r'
        refine Post.bind (P := FreeIn (AmongIx ps.indices)) (post_tensor (freeIn_delta ?_ ?_)) fun t ht =>
          Post.pure (tab_set hT ht)
        · exact .inl (among_of (by simp [hq]))
        · exact .inr (among_of (by simp))
      · exact Post.raise
    · exact Post.raise
  · exact Post.pure hT

theorem post_matvec {l : Leaf} {m : Mapped K} {t : Gem K} (ht : t.FreeIn S) : Post (matvec l m t) (FreeIn S) := by
  refine Post.bind' fun ij => Post.bind' fun zeta => ?_
  have hij : ∀ i ∈ ij, (S i.id ∨ AmongIx (ij.take 1 ++ zeta) i.id) ∨ AmongIx (ij.drop 1) i.id := by
    intro i hi
    rw [← List.take_append_drop 1 ij] at hi
    rcases List.mem_append.1 hi with h | h
    · exact .inl (.inr (among_left h))
    · exact .inr (among_of h)
  refine Post.bind (post_indexed_free (S := fun n => (S n ∨ AmongIx (ij.take 1 ++ zeta) n) ∨ AmongIx (ij.drop 1) n)
    (ht.mono fun n hn => .inl (.inl hn)) fun i hi => ?_) fun t' ht' =>
    Post.bind (post_indexed_free freeIn_literal hij) fun e he => Post.bind (post_product he ht') fun p hp =>
      Post.bind (post_sum hp) fun s hs => post_tensor hs
  rcases List.mem_append.1 hi with h | h
  · exact .inr (among_of h)
  · exact .inl (.inr (among_right h))

theorem post_leafBasis {F : Fiat K} {l : Leaf} {o : Nat} {ps : PSet K} {ent : Option (Dim × Nat)} :
    Post (leafBasisEvaluation F l o ps ent) (TabFreeIn (AmongIx ps.indices)) := by
  unfold leafBasisEvaluation
  split
  · exact Post.bind post_fiatBasis fun T hT => post_mapTab hT fun t ht => post_matvec ht
  · split
    · exact post_spectral
    · exact post_fiatBasis

theorem post_leafWith {F : Fiat K} {b : Bool} {l : Leaf} {o : Nat} {ps : PSet K} {ent : Option (Dim × Nat)} :
    Post (leafBasisWith F b l o ps ent) (TabFreeIn (AmongIx ps.indices)) := by
  unfold leafBasisWith
  split
  · exact Post.raise
  · exact post_leafBasis

theorem post_quad {R : Rules K} {r : Nat} {c : Cell} {ext : List Nat} {o : Nat} {ps : PSet K}
    {ent : Option (Dim × Nat)} : Post (quadBasisEvaluation R r c ext o ps ent) (TabFreeIn (AmongIx ps.indices)) := by
  unfold quadBasisEvaluation
  split
  · exact Post.raise
  · split
    · exact Post.raise
    · refine Post.bind' fun b => ?_
      split
      · exact Post.raise
      · refine Post.bind' fun mi => Post.bind (post_deltas (S := fun n => AmongIx ps.indices n ∨ AmongIx mi n)
          (fun i hi => .inl (among_of hi)) fun i hi => .inr (among_of hi)) fun p hp =>
          Post.bind (post_tensor hp) fun t ht => Post.pure ?_
        intro q hq
        rw [List.mem_singleton.1 hq]
        exact ht

theorem indicesL_mem : ∀ {fs : List (PSet K)} {q : PSet K}, q ∈ fs → ∀ i ∈ q.indices, i ∈ PSet.indicesL fs
  | p :: fs, q, h, i, hi => by
    simp only [PSet.indicesL, List.mem_append]
    rcases List.mem_cons.1 h with rfl | h
    · exact .inl hi
    · exact .inr (indicesL_mem h i hi)

theorem factor_indices {cs : List Cell} {ds : List Dim} {ps : PSet K} {qs : List (PSet K)}
    (h : factorPointSet cs ds ps = .ok qs) : ∀ q ∈ qs, ∀ i ∈ q.indices, i ∈ ps.indices := by
  unfold factorPointSet at h
  split at h
  · cases h
  have points_ok : ∀ {d : Nat} {p : PSet K} {qs : List (PSet K)}, (if d ≠ (ds.map Dim.total).sum then
      Except.error Err.assertionError
      else .ok ((splitLens (ds.map Dim.total) (List.range d)).map fun cols =>
            PSet.points .plain (p.pts.map fun pt => cols.filterMap fun c => pt[c]?) p.indices)) = .ok qs →
      ∀ q ∈ qs, ∀ i ∈ q.indices, i ∈ p.indices := by
    intro d p qs hr q hq i hi
    split at hr
    · cases hr
    · cases hr
      obtain ⟨x, _, rfl⟩ := List.mem_map.1 hq
      simpa [PSet.indices] using hi
  cases ps with
  | singleton p =>
    obtain ⟨d, _, h⟩ := bind_ok.1 h
    split at h
    · cases h
    · cases h
      intro q hq i hi
      obtain ⟨x, _, rfl⟩ := List.mem_map.1 hq
      simp [PSet.indices] at hi
  | unknown =>
    obtain ⟨d, _, h⟩ := bind_ok.1 h
    split at h <;> cases h
  | points c pts idx =>
    obtain ⟨d, _, h⟩ := bind_ok.1 h
    exact points_ok h
  | tensor fs =>
    dsimp only at h
    split at h
    · obtain ⟨d, _, h⟩ := bind_ok.1 h
      split at h
      · cases h
        intro q hq i hi
        rw [PSet.indices]
        exact indicesL_mem hq i hi
      · cases h
    · obtain ⟨d, _, h⟩ := bind_ok.1 h
      exact points_ok h

theorem basisInterp_free (F : Fiat K) (R : Rules K) : FreeSem (basisInterp F R) (fun _ => True) fun ps => AmongIx ps.indices where
  factor cs ds p _ := Post.lift fun qs h q hq => ⟨trivial, fun n hn => by
    obtain ⟨i, hi, rfl⟩ := List.mem_map.1 hn
    exact among_of (factor_indices h q hq i hi)⟩
  forget _ _ := ⟨trivial, fun _ h => h⟩
  leaf _ _ _ _ _ := post_leafWith
  quad _ _ _ _ _ _ _ := post_quad

theorem mappedInterp_free (F : Fiat K) (R : Rules K) :
    FreeSem (mappedInterp F R) (fun _ => True) fun p => AmongIx p.1.indices where
  factor cs ds p _ := Post.bind (Post.lift fun qs h => factor_indices h) fun qs h => Post.pure (by
    intro q hq
    refine ⟨trivial, fun n hn => ?_⟩
    obtain ⟨q', hq', rfl⟩ := List.mem_map.1 hq
    obtain ⟨i, hi, rfl⟩ := List.mem_map.1 hn
    exact among_of (h q' hq' i hi))
  forget _ _ := ⟨trivial, fun _ h => h⟩
  leaf _ _ _ _ _ := post_leafWith
  quad _ _ _ _ _ _ _ := post_quad

theorem post_pointTable {T : SymTab K} (hT : ∀ l α ent p i z, p.WellShaped → (T l α ent p i z).FreeIn p.Free) {l : Leaf}
    {α : List Nat} {ent : Dim × Nat} {p : Gem K} (hp : p.WellShaped) :
    Post (fiatPointTable T l α ent p) (FreeIn p.Free) := by
  refine Post.bind (Post.mapM fun c _ => post_list (S := p.Free) fun e he => ?_) fun exprs he => ?_
  · obtain ⟨i, _, rfl⟩ := List.mem_map.1 he
    exact hT _ _ _ _ _ _ hp
  · split
    · split
      · exact Post.pure (he _ (by simp))
      · exact Post.raise
    · exact post_components he

theorem pointInterp_free (F : Fiat K) {T : SymTab K} (hT : ∀ l α ent p i z, p.WellShaped → (T l α ent p i z).FreeIn p.Free) :
    FreeSem (pointInterp F T) Gem.WellShaped fun p n => p.Free n where
  factor cs ds p hp := Post.bind' fun _ => Post.bind' fun _ => Post.mapM fun s _ =>
    Post.bind (Post.mapM fun i _ => post_indexed (S := fun n => p.Free n) ⟨hp, fun _ h => h⟩ (by simp)) fun es he =>
      post_list he
  forget _ h := ⟨h, fun _ h => h⟩
  leaf l o p ent hp := by
    show Post (fiatPointEvaluation F T l o p ent) _
    unfold fiatPointEvaluation
    dsimp only
    split
    · exact Post.raise
    · exact Post.bind' fun _ => Post.mapM fun α _ => Post.bind (post_pointTable hT hp) fun t ht => Post.pure ht
  quad _ _ _ _ _ _ _ := Post.raise

end

/-! ### Dual bases -/

section
variable [CommRing K] [DecidableEq K]

theorem post_leafDual {D : FiatDual K} {l : Leaf} :
    Post (leafDualBasis D l) fun r => r.1.FreeIn (AmongIx r.2.indices) := by
  refine Post.bind' fun st => Post.bind' fun q => Post.bind (P := FreeIn fun _ => False) ?_ fun Q hQ =>
    Post.bind' fun x => ?_
  · unfold weightTensor
    split
    · refine Post.bind' fun js => ?_
      split
      · exact post_tensor (freeIn_delta (.inr (among_of (by simp))) (.inr (among_of (by simp))))
      · exact Post.raise
    · dsimp only
      split
      · exact Post.pure freeIn_literal
      · exact Post.raise
  · split
    · refine Post.bind' fun _ => Post.bind' fun ij => Post.bind (post_indexed_free
        (S := fun n => AmongIx x n ∨ AmongIx ij n) (hQ.mono fun n h => h.elim) fun i hi => ?_) fun e he =>
        Post.bind (post_tensor he) fun r hr => Post.pure ?_
      · simp only [List.mem_append] at hi
        rcases hi with (h | h) | h
        · exact .inr (among_of (List.mem_of_mem_take h))
        · exact .inl (among_of h)
        · exact .inr (among_of (List.mem_of_mem_drop h))
      · simpa [PSet.indices] using hr
    · exact Post.raise

theorem post_quadDual {R : Rules K} {r : Nat} {ext : List Nat} :
    Post (quadDualBasis R r ext) fun r => r.1.FreeIn (AmongIx r.2.indices) :=
  Post.bind' fun mi => Post.bind (post_deltas (S := fun n => AmongIx (R.pointSet r).indices n ∨ AmongIx mi n)
    (fun i hi => .inl (among_of hi)) fun i hi => .inr (among_of hi)) fun p hp =>
    Post.bind (post_tensor hp) fun t ht => Post.pure ht

theorem post_productDual {iss vss : List (List Nat)} {qs : List (Gem K)} (hq : ∀ q ∈ qs, q.FreeIn S) :
    Post (productDual iss vss qs) (FreeIn S) := by
  refine Post.bind' fun al => Post.bind' fun ze =>
    Post.bind (P := fun l => ∀ e ∈ l, e.FreeIn fun n => S n ∨ AmongIx (al ++ ze).flatten n)
    (Post.mapM fun p hp => ?_) fun l hl => Post.bind (post_reduce hl) fun e he => post_tensor he
  have h1 := List.of_mem_zip hp
  have h2 := List.of_mem_zip h1.2
  refine post_indexed_free ((hq _ h1.1).mono fun n hn => .inl hn) fun i hi => .inr (List.mem_map_of_mem ?_)
  rw [List.flatten_append, List.mem_append, List.mem_flatten, List.mem_flatten]
  rcases List.mem_append.1 hi with h | h
  · exact .inl ⟨_, h2.1, h⟩
  · exact .inr ⟨_, h2.2, h⟩

theorem post_tensorDual {bis bvs shape : List Nat} {tr : Bool} {Q : Gem K} (hQ : Q.FreeIn S) :
    Post (tensorDual bis bvs shape tr Q) (FreeIn S) := by
  refine Post.bind' fun si => Post.bind' fun sv => Post.bind' fun ti => Post.bind' fun tv => ?_
  refine Post.bind (P := FreeIn fun n => S n ∨ AmongIx (if tr then ti ++ si ++ tv ++ sv else si ++ ti ++ tv ++ sv) n)
    (post_deltas (fun i hi => .inr (among_order (by tauto))) fun i hi => .inr (among_order (by tauto)))
    fun deltas hd => ?_
  refine Post.bind (post_indexed_free (S := fun n => S n ∨ AmongIx (if tr then ti ++ si ++ tv ++ sv else
    si ++ ti ++ tv ++ sv) n) (hQ.mono fun n hn => .inl hn) fun i hi => ?_) fun x hx =>
    Post.bind (post_product hx hd) fun y hy => post_tensor hy
  exact .inr (among_order (by rcases List.mem_append.1 hi with h | h <;> tauto))

mutual
theorem post_dual (D : FiatDual K) (R : Rules K) : ∀ e : Elem,
    Post (dualBasis D R e) fun r => r.1.FreeIn (AmongIx r.2.indices)
  | .leaf l => by rw [dualBasis]; exact post_leafDual
  | .tensorProduct fs => by
    rw [dualBasis]
    refine Post.bind (post_dualL D R fs) fun qps hq => ?_
    split
    · exact Post.raise
    · refine Post.bind' fun vs => Post.bind (post_productDual (S := AmongIx (PSet.tensor (qps.map Prod.snd)).indices)
        fun q hq' => ?_) fun Q hQ => Post.pure hQ
      obtain ⟨r, hr, rfl⟩ := List.mem_map.1 hq'
      refine (hq r hr).mono fun n hn => ?_
      obtain ⟨i, hi, rfl⟩ := List.mem_map.1 hn
      rw [PSet.indices]
      exact among_of (indicesL_mem (List.mem_map_of_mem hr) i hi)
  | .flattened p => by rw [dualBasis]; exact post_dual D R p
  | .enriched _ => by rw [dualBasis]; exact Post.raise
  | .mixedSub _ _ _ => by rw [dualBasis]; exact Post.raise
  | .discontinuous e => by rw [dualBasis]; exact post_dual D R e
  | .tensorFE e shape tr => by
    rw [dualBasis]
    exact Post.bind (post_dual D R e) fun qp h => Post.bind' fun vs => Post.bind (post_tensorDual h) fun Q hQ =>
      Post.pure hQ
  | .hdiv w => by
    rw [dualBasis]
    exact Post.bind (post_dual D R w) fun qp h => Post.bind' fun _ => Post.bind' fun _ => Post.bind' fun _ =>
      Post.bind' fun _ => Post.bind (post_wrapped h) fun Q hQ => Post.pure hQ
  | .hcurl w => by
    rw [dualBasis]
    exact Post.bind (post_dual D R w) fun qp h => Post.bind' fun _ => Post.bind' fun _ => Post.bind' fun _ =>
      Post.bind' fun _ => Post.bind (post_wrapped h) fun Q hQ => Post.pure hQ
  | .quadrature r _ ext => by rw [dualBasis]; exact post_quadDual
theorem post_dualL (D : FiatDual K) (R : Rules K) : ∀ es : List Elem,
    Post (dualBasisL D R es) fun rs => ∀ r ∈ rs, r.1.FreeIn (AmongIx r.2.indices)
  | [] => by rw [dualBasisL]; exact Post.pure (by simp)
  | e :: es => by
    rw [dualBasisL]
    exact Post.bind (post_dual D R e) fun r hr => Post.bind (post_dualL D R es) fun rs hrs =>
      Post.pure (by simpa using ⟨hr, fun a b h => hrs (a, b) h⟩)
end

/-- Dual evaluation, for a function whose expression has the indices of the points and others with property `G`. -/
theorem post_dualEvaluation {D : FiatDual K} {R : Rules K} {e : Elem} {fn : PSet K → M (Gem K)} {G : Nat → Prop}
    (hfn : ∀ ps, Post (fn ps) (FreeIn fun n => G n ∨ AmongIx ps.indices n)) :
    Post (dualEvaluation D R e fn) fun r => r.1.FreeIn fun n => G n ∨ AmongIx r.2 n := by
  unfold dualEvaluation
  split
  · refine Post.bind (post_dual D R _) fun qp hqp => Post.bind (hfn qp.2) fun expr he => Post.bind' fun vs =>
      Post.bind' fun _ => Post.bind' fun bvs => Post.bind' fun si => Post.bind' fun sv => Post.bind' fun ti =>
      Post.bind' fun tv => ?_
    rename_i tr
    refine Post.bind (post_indexed_free (S := fun n => (G n ∨ AmongIx (si ++ tv) n) ∨
      AmongIx (qp.2.indices ++ sv ++ ti) n) (hqp.mono fun n hn => ?_) fun i hi => ?_) fun tq htq =>
      Post.bind (post_indexed_free (he.mono fun n hn => ?_) fun i hi => ?_) fun ex hex =>
      Post.bind (post_product htq hex) fun p hp => Post.bind (post_sum hp) fun ev hev => Post.pure hev
    · simp only [AmongIx, List.map_append, List.mem_append] at hn ⊢
      tauto
    · have : i ∈ si ∨ i ∈ ti ∨ i ∈ tv ∨ i ∈ sv := by
        split at hi <;> simp only [List.mem_append] at hi <;> tauto
      have hm : ∀ {l : List Index}, i ∈ l → i.id ∈ l.map Index.id := fun h => List.mem_map_of_mem h
      simp only [AmongIx, List.map_append, List.mem_append]
      rcases this with h | h | h | h <;> have := hm h <;> tauto
    · simp only [AmongIx, List.map_append, List.mem_append] at hn ⊢
      tauto
    · have hm : ∀ {l : List Index}, i ∈ l → i.id ∈ l.map Index.id := fun h => List.mem_map_of_mem h
      simp only [AmongIx, List.map_append, List.mem_append] at hi ⊢
      rcases hi with h | h <;> have := hm h <;> tauto
  · refine Post.bind (post_dual D R _) fun qp hqp => Post.bind (hfn qp.2) fun expr he => Post.bind' fun _ =>
      Post.bind' fun si => Post.bind' fun bi => ?_
    refine Post.bind (post_indexed_free (S := fun n => (G n ∨ AmongIx bi n) ∨ AmongIx (qp.2.indices ++ si) n)
      (hqp.mono fun n hn => ?_) fun i hi => ?_) fun tq htq =>
      Post.bind (post_indexed_free (he.mono fun n hn => ?_) fun i hi => ?_) fun ex hex =>
      Post.bind (post_product htq hex) fun p hp => Post.bind (post_sum hp) fun ev hev => Post.pure hev
    · simp only [AmongIx, List.map_append, List.mem_append] at hn ⊢
      tauto
    · rcases List.mem_append.1 hi with h | h
      · exact .inl (.inr (among_of h))
      · exact .inr (among_right h)
    · simp only [AmongIx, List.map_append, List.mem_append] at hn ⊢
      tauto
    · exact .inr (among_right hi)

end

/-! ### Integrals over entities -/

section
variable [CommRing K]

mutual
theorem post_weight : ∀ q : QRule K, Post q.weightExpr (FreeIn (AmongIx q.pointSet.indices))
  | .rule ps w => by
    rw [QRule.weightExpr, QRule.pointSet]
    exact post_indexed_free freeIn_literal fun i hi => among_of hi
  | .tensor fs => by
    rw [QRule.weightExpr, QRule.pointSet, PSet.indices]
    exact Post.bind (post_weightL fs) fun es he => post_reduce he
theorem post_weightL : ∀ fs : List (QRule K), Post (QRule.weightExprL fs) fun es =>
    ∀ e ∈ es, e.FreeIn (AmongIx (PSet.indicesL (QRule.pointSetL fs)))
  | [] => by rw [QRule.weightExprL]; exact Post.pure (by simp)
  | q :: qs => by
    rw [QRule.weightExprL, QRule.pointSetL, PSet.indicesL]
    refine Post.bind (post_weight q) fun e he => Post.bind (post_weightL qs) fun es hes => Post.pure ?_
    intro x hx
    rcases List.mem_cons.1 hx with rfl | hx
    · exact he.mono fun n hn => by simp only [AmongIx, List.map_append, List.mem_append] at hn ⊢; exact .inl hn
    · exact (hes x hx).mono fun n hn => by simp only [AmongIx, List.map_append, List.mem_append] at hn ⊢; exact .inr hn
end

end

theorem post_support [Field K] {I : Interp K (PSet K)} (H : FreeSem I (fun _ => True) fun ps => AmongIx ps.indices) {e : Elem}
    {beta zeta : List Index} {q : QRule K} {ent : Dim × Nat} :
    Post (supportExpr I e beta zeta q ent) (FreeIn fun _ => False) := by
  refine Post.bind (post_evaluate H e 0 q.pointSet (some ent) trivial) fun tab ht => ?_
  have key : ∀ vals : Gem K, vals.FreeIn (AmongIx q.pointSet.indices) → Post (do
      let x ← mkIndexed vals ((beta ++ zeta).map .free)
      let y ← mkIndexed vals ((beta ++ zeta).map .free)
      let xy ← mkProduct x y
      let s ← mkIndexSum xy zeta
      let w ← q.weightExpr
      let sw ← mkProduct s w
      let i ← mkIndexSum sw q.pointSet.indices
      mkComponentTensor i beta) (FreeIn fun _ => False) := by
    intro vals hv
    have hx : Post (mkIndexed vals ((beta ++ zeta).map .free)) (FreeIn fun n =>
        ((False ∨ AmongIx beta n) ∨ AmongIx q.pointSet.indices n) ∨ AmongIx zeta n) :=
      post_indexed_free (hv.mono fun n hn => .inl (.inr hn)) fun i hi => by
        rcases List.mem_append.1 hi with h | h
        · exact .inl (.inl (.inr (among_of h)))
        · exact .inr (among_of h)
    exact Post.bind hx fun x hx' => Post.bind hx fun y hy => Post.bind (post_product hx' hy) fun xy hxy =>
      Post.bind (post_sum hxy) fun s hs => Post.bind (post_weight q) fun w hw =>
      Post.bind (post_product hs (hw.mono fun n hn => .inr hn)) fun sw hsw => Post.bind (post_sum hsw) fun i hi =>
      post_tensor hi
  dsimp only
  split
  · exact key _ (ht _ (by simp))
  · exact Post.bind Post.raise fun _ h => key _ h

end FInAT
