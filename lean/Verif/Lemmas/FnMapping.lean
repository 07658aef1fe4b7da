import Verif.Spec.FnMapping
import Verif.Spec.Tab
import Verif.Lemmas.Admits
import Verif.Py.Lemmas

/-!
# Mappings of basis functions
-/

namespace FInAT

open Spec Elem Props

theorem mem_distinct {α : Type} [DecidableEq α] {l : List α} {a : α} : a ∈ distinct l ↔ a ∈ l := by
  induction l with
  | nil => simp [distinct]
  | cons b l ih =>
    simp only [distinct]
    split
    · next h =>
      rw [ih, List.mem_cons]
      exact ⟨.inr, fun h' => h'.elim (fun e => e ▸ h) id⟩
    · rw [List.mem_cons, List.mem_cons, ih]

theorem distinct_nodup {α : Type} [DecidableEq α] (l : List α) : (distinct l).Nodup := by
  induction l with
  | nil => simp [distinct]
  | cons b l ih =>
    simp only [distinct]
    split
    · exact ih
    · next h => exact List.nodup_cons.2 ⟨fun h' => h (mem_distinct.1 h'), ih⟩

theorem fiatMapping_some {l : List Mapping} {a : Mapping} :
    fiatMapping l = some a ↔ l ≠ [] ∧ ∀ b ∈ l, b = a := by
  have hn := distinct_nodup l
  have hm := @mem_distinct _ _ l
  unfold fiatMapping
  constructor
  · intro h
    split at h
    · next m hd =>
      cases h
      rw [hd] at hm
      refine ⟨fun h0 => ?_, fun b hb => by simpa using hm.2 hb⟩
      have := (@hm a).1 (by simp)
      rw [h0] at this
      simp at this
    · cases h
  · rintro ⟨h0, hall⟩
    obtain ⟨c, hc⟩ := List.exists_mem_of_ne_nil l h0
    match hd : distinct l with
    | [] => rw [hd] at hm; exact absurd (hm.2 hc) (by simp)
    | [m] =>
      rw [hd] at hm
      rw [hall m (hm.1 (by simp))]
    | x :: y :: r =>
      rw [hd] at hm hn
      have h1 := hall x (hm.1 (by simp))
      have h2 := hall y (hm.1 (by simp))
      rw [h1, h2] at hn
      simp at hn

/-- The mapping of a product of elements. -/
def prodMap (ms : List (Option Mapping)) : Option Mapping :=
  match ms.filter (fun m => decide (m ≠ some .affine)) with
  | [] => some .affine
  | [m] => m
  | _ => none

theorem prodMap_affine {ms : List (Option Mapping)} : prodMap ms = some .affine ↔ ∀ x ∈ ms, x = some .affine := by
  constructor
  · intro h x hx
    by_contra hne
    have hm : x ∈ ms.filter (fun m => decide (m ≠ some .affine)) := by
      simp [hx, hne]
    unfold prodMap at h
    split at h
    · next h0 => rw [h0] at hm; simp at hm
    · next y h1 =>
      have hy : y ∈ ms.filter (fun m => decide (m ≠ some .affine)) := by rw [h1]; simp
      rw [List.mem_filter] at hy
      simp only [decide_eq_true_eq] at hy
      exact hy.2 h
    · cases h
  · intro h
    have : ms.filter (fun m => decide (m ≠ some .affine)) = [] := by
      refine List.filter_eq_nil_iff.2 fun x hx => ?_
      simp [h x hx]
    rw [prodMap, this]

theorem prodMap_cons {m : Option Mapping} {ms : List (Option Mapping)} {k : Mapping} :
    prodMap (m :: ms) = some k ↔
      (m = some .affine ∧ prodMap ms = some k) ∨ (m = some k ∧ prodMap ms = some .affine) := by
  by_cases hm : m = some .affine
  · subst hm
    have : prodMap (some .affine :: ms) = prodMap ms := by simp [prodMap]
    rw [this]
    constructor
    · exact fun h => .inl ⟨rfl, h⟩
    · rintro (⟨_, h⟩ | ⟨h1, h2⟩)
      · exact h
      · cases h1; exact h2
  · have hf : (m :: ms).filter (fun m => decide (m ≠ some .affine)) =
        m :: ms.filter (fun m => decide (m ≠ some .affine)) := by simp [hm]
    constructor
    · intro h
      rw [prodMap, hf] at h
      cases hr : ms.filter (fun m => decide (m ≠ some .affine)) with
      | nil =>
        rw [hr] at h
        refine .inr ⟨h, ?_⟩
        rw [prodMap, hr]
      | cons a l => rw [hr] at h; cases h
    · rintro (⟨h, _⟩ | ⟨h, h2⟩)
      · exact absurd h hm
      · have hr : ms.filter (fun m => decide (m ≠ some .affine)) = [] := by
          refine List.filter_eq_nil_iff.2 fun x hx => ?_
          simp [prodMap_affine.1 h2 x hx]
        rw [prodMap, hf, hr]
        exact h

theorem mapping_tensorProduct (fs : List Elem) : (Elem.tensorProduct fs).mapping = prodMap (Elem.mappingL fs) := by
  rw [Elem.mapping, prodMap]
  rfl

theorem mapping_enriched (es : List Elem) {m : Mapping} :
    (Elem.enriched es).mapping = some m ↔ es ≠ [] ∧ ∀ e ∈ es, e.mapping = some m := by
  rw [Elem.mapping]
  have hL : ∀ es : List Elem, Elem.mappingL es = es.map Elem.mapping := by
    intro es
    induction es with
    | nil => rfl
    | cons e es ih => rw [Elem.mappingL, ih, List.map_cons]
  rw [hL]
  cases es with
  | nil => simp
  | cons e es =>
    simp only [List.map_cons]
    constructor
    · intro h
      split at h
      · next hall =>
        simp only [List.all_eq_true, decide_eq_true_eq, List.mem_map, forall_exists_index, and_imp,
          forall_apply_eq_imp_iff₂] at hall
        refine ⟨by simp, fun f hf => ?_⟩
        rcases List.mem_cons.1 hf with rfl | hf
        · exact h
        · rw [hall f hf, h]
      · cases h
    · rintro ⟨_, hall⟩
      rw [if_pos, hall e List.mem_cons_self]
      simp only [List.all_eq_true, decide_eq_true_eq, List.mem_map, forall_exists_index, and_imp,
        forall_apply_eq_imp_iff₂]
      intro f hf
      rw [hall f (List.mem_cons_of_mem _ hf), hall e List.mem_cons_self]

theorem InRange.split {i s t : List Nat} (h : InRange i (s ++ t)) :
    InRange (i.take s.length) s ∧ InRange (i.drop s.length) t := by
  induction s generalizing i with
  | nil => exact ⟨by simp [InRange], by simpa using h⟩
  | cons a s ih =>
    cases h with
    | @cons b _ i' _ h1 h2 =>
      have := ih h2
      exact ⟨by simpa using ⟨h1, this.1⟩, by simpa using this.2⟩

theorem InRange.join {i j s t : List Nat} (h1 : InRange i s) (h2 : InRange j t) : InRange (i ++ j) (s ++ t) := by
  induction h1 with
  | nil => exact h2
  | cons h _ ih => exact .cons h ih

/-! ### The mapping of the element is that of its functions -/

variable (mu : Leaf → Nat → Mapping)

mutual
theorem hasMapping_of : ∀ (e : Elem) (m : Mapping), Leaves (LeafMapping mu) e → e.mapping = some m → ∀ i,
    InRange i e.indexShape → HasMapping mu e i m
  | .leaf l, m, hl, hm, i, hi => by
    simp only [Leaves, LeafMapping, Elem.mapping] at hl hm
    rw [hm] at hl
    have hall := (fiatMapping_some.1 hl.symm).2
    simp only [Elem.indexShape] at hi
    cases hi with
    | cons h1 h2 =>
      cases h2
      simp only [HasMapping, List.headD_cons]
      exact hall _ (List.mem_map.2 ⟨_, List.mem_range.2 h1, rfl⟩)
  | .tensorProduct fs, m, hl, hm, i, hi => by
    rw [mapping_tensorProduct] at hm
    simp only [Elem.indexShape, HasMapping] at hi ⊢
    exact productHas_of fs m hl hm i hi
  | .flattened p, m, hl, hm, i, hi => by
    simp only [HasMapping]
    exact hasMapping_of p m hl (by simpa [Elem.mapping] using hm) i (by simpa [Elem.indexShape] using hi)
  | .enriched es, m, hl, hm, i, hi => by
    simp only [HasMapping]
    simp only [Elem.indexShape] at hi
    cases hi with
    | cons h1 h2 =>
      cases h2
      exact sumHas_of es m hl ((mapping_enriched es).1 hm).2 _ (by simpa using h1)
  | .mixedSub e _ _, m, hl, hm, i, hi => by
    simp only [HasMapping]
    exact hasMapping_of e m hl (by simpa [Elem.mapping] using hm) i (by simpa [Elem.indexShape] using hi)
  | .discontinuous e, m, hl, hm, i, hi => by
    simp only [HasMapping]
    exact hasMapping_of e m hl (by simpa [Elem.mapping] using hm) i (by simpa [Elem.indexShape] using hi)
  | .tensorFE e shape tr, m, hl, hm, i, hi => by
    simp only [HasMapping]
    refine hasMapping_of e m hl (by simpa [Elem.mapping] using hm) _ ?_
    cases tr
    · simp only [Elem.indexShape, Bool.false_eq_true, if_false] at hi ⊢
      exact (InRange.split hi).1
    · simp only [Elem.indexShape, if_true] at hi ⊢
      exact (InRange.split hi).2
  | .hdiv _, m, _, hm, _, _ => by
    simp only [Elem.mapping, Option.some.injEq] at hm
    exact hm.symm
  | .hcurl _, m, _, hm, _, _ => by
    simp only [Elem.mapping, Option.some.injEq] at hm
    exact hm.symm
  | .quadrature _ _ _, m, _, hm, _, _ => by
    simp only [Elem.mapping, Option.some.injEq] at hm
    exact hm.symm
theorem productHas_of : ∀ (fs : List Elem) (m : Mapping), LeavesL (LeafMapping mu) fs →
    prodMap (Elem.mappingL fs) = some m → ∀ i, InRange i (Elem.indexShapeL fs).flatten → ProductHas mu fs i m
  | [], m, _, hm, i, _ => by
    simp only [Elem.mappingL, prodMap, List.filter_nil, Option.some.injEq] at hm
    exact hm.symm
  | f :: fs, m, hl, hm, i, hi => by
    simp only [Elem.indexShapeL, List.flatten_cons] at hi
    obtain ⟨h1, h2⟩ := InRange.split hi
    rw [Elem.mappingL] at hm
    rcases prodMap_cons.1 hm with ⟨ha, hb⟩ | ⟨ha, hb⟩
    · exact .inl ⟨hasMapping_of f _ hl.1 ha _ h1, productHas_of fs _ hl.2 hb _ h2⟩
    · exact .inr ⟨hasMapping_of f _ hl.1 ha _ h1, productHas_of fs _ hl.2 hb _ h2⟩
theorem sumHas_of : ∀ (es : List Elem) (m : Mapping), LeavesL (LeafMapping mu) es →
    (∀ e ∈ es, e.mapping = some m) → ∀ k, k < (Elem.spaceDimL es).sum → SumHas mu es k m
  | [], m, _, _, k, hk => by simp [Elem.spaceDimL] at hk
  | e :: es, m, hl, hm, k, hk => by
    simp only [SumHas]
    split
    · next h =>
      exact hasMapping_of e m hl.1 (hm e List.mem_cons_self) _ (unravel_bounds (by rwa [e.indexShape_prod]))
    · next h =>
      simp only [Elem.spaceDimL, List.sum_cons] at hk
      exact sumHas_of es m hl.2 (fun f hf => hm f (List.mem_cons_of_mem _ hf)) _ (by omega)
end


/-! ### A function has at most one mapping -/

mutual
theorem HasMapping.unique : ∀ (e : Elem) (i : List Nat) {m n : Mapping}, HasMapping mu e i m → HasMapping mu e i n →
    m = n
  | .leaf l, i, m, n, h, h' => by
    simp only [HasMapping] at h h'
    rw [← h, ← h']
  | .tensorProduct fs, i, m, n, h, h' => by
    simp only [HasMapping] at h h'
    exact ProductHas.unique fs i h h'
  | .flattened p, i, m, n, h, h' => by
    simp only [HasMapping] at h h'
    exact HasMapping.unique p i h h'
  | .enriched es, i, m, n, h, h' => by
    simp only [HasMapping] at h h'
    exact SumHas.unique es _ h h'
  | .mixedSub e _ _, i, m, n, h, h' => by
    simp only [HasMapping] at h h'
    exact HasMapping.unique e i h h'
  | .discontinuous e, i, m, n, h, h' => by
    simp only [HasMapping] at h h'
    exact HasMapping.unique e i h h'
  | .tensorFE e _ _, i, m, n, h, h' => by
    simp only [HasMapping] at h h'
    exact HasMapping.unique e _ h h'
  | .hdiv _, _, m, n, h, h' => by
    simp only [HasMapping] at h h'
    rw [h, h']
  | .hcurl _, _, m, n, h, h' => by
    simp only [HasMapping] at h h'
    rw [h, h']
  | .quadrature _ _ _, _, m, n, h, h' => by
    simp only [HasMapping] at h h'
    rw [h, h']
theorem ProductHas.unique : ∀ (fs : List Elem) (i : List Nat) {m n : Mapping}, ProductHas mu fs i m →
    ProductHas mu fs i n → m = n
  | [], i, m, n, h, h' => by
    simp only [ProductHas] at h h'
    rw [h, h']
  | f :: fs, i, m, n, h, h' => by
    simp only [ProductHas] at h h'
    rcases h with ⟨h1, h2⟩ | ⟨h1, h2⟩ <;> rcases h' with ⟨h3, h4⟩ | ⟨h3, h4⟩
    · exact ProductHas.unique fs _ h2 h4
    · rw [ProductHas.unique fs _ h2 h4, HasMapping.unique f _ h1 h3]
    · rw [HasMapping.unique f _ h1 h3, ProductHas.unique fs _ h2 h4]
    · exact HasMapping.unique f _ h1 h3
theorem SumHas.unique : ∀ (es : List Elem) (k : Nat) {m n : Mapping}, SumHas mu es k m → SumHas mu es k n → m = n
  | [], k, m, n, h, _ => by simp [SumHas] at h
  | e :: es, k, m, n, h, h' => by
    simp only [SumHas] at h h'
    split at h
    · next hk =>
      rw [if_pos hk] at h'
      exact HasMapping.unique e _ h h'
    · next hk =>
      rw [if_neg hk] at h'
      exact SumHas.unique es _ h h'
end

/-! ### An element whose functions have a common mapping has it -/

theorem InRange.ofProd {s : List Nat} (h : 0 < s.prod) : ∃ i, InRange i s := ⟨_, unravel_bounds h⟩

mutual
theorem Populated.dim : ∀ e : Elem, Populated e → 0 < e.indexShape.prod
  | .leaf l, h => by simpa [Populated, Elem.indexShape] using h
  | .tensorProduct fs, h => by
    simp only [Populated] at h
    exact PopulatedL.dim fs h
  | .flattened p, h => by
    simp only [Populated] at h
    exact Populated.dim p h
  | .enriched es, h => by
    simp only [Populated] at h
    match es, h with
    | e :: es, h =>
      have := Populated.dim e h.2.1
      rw [e.indexShape_prod] at this
      simp only [Elem.indexShape, Elem.spaceDimL, List.sum_cons, List.prod_cons, List.prod_nil, mul_one]
      omega
  | .mixedSub e _ _, h => by
    simp only [Populated] at h
    exact Populated.dim e h
  | .discontinuous e, h => by
    simp only [Populated] at h
    exact Populated.dim e h
  | .tensorFE e s tr, h => by
    simp only [Populated] at h
    have := Populated.dim e h.1
    simp only [Elem.indexShape]
    split <;> rw [List.prod_append] <;> exact Nat.mul_pos (by first | exact this | exact h.2) (by first | exact this | exact h.2)
  | .hdiv w, h => by
    simp only [Populated] at h
    exact Populated.dim w h
  | .hcurl w, h => by
    simp only [Populated] at h
    exact Populated.dim w h
  | .quadrature _ _ _, h => by simpa [Populated, Elem.indexShape] using h
theorem PopulatedL.dim : ∀ es : List Elem, PopulatedL es → 0 < (Elem.indexShapeL es).flatten.prod
  | [], _ => by simp [Elem.indexShapeL]
  | e :: es, h => by
    simp only [Elem.indexShapeL, List.flatten_cons, List.prod_append]
    exact Nat.mul_pos (Populated.dim e h.1) (PopulatedL.dim es h.2)
end

theorem inRange_length {i s : List Nat} (h : InRange i s) : i.length = s.length := List.Forall₂.length_eq h

mutual
theorem mapping_of : ∀ (e : Elem) (m : Mapping), Leaves (LeafMapping mu) e → Populated e →
    (∀ i, InRange i e.indexShape → HasMapping mu e i m) → e.mapping = some m
  | .leaf l, m, hl, hp, h => by
    simp only [Leaves, LeafMapping, Populated, Elem.mapping, Elem.indexShape, HasMapping] at hl hp h ⊢
    rw [hl, fiatMapping_some]
    refine ⟨fun h0 => ?_, fun b hb => ?_⟩
    · rw [List.map_eq_nil_iff, List.range_eq_nil] at h0
      omega
    · obtain ⟨k, hk, rfl⟩ := List.mem_map.1 hb
      exact h [k] (.cons (List.mem_range.1 hk) .nil)
  | .tensorProduct fs, m, hl, hp, h => by
    rw [mapping_tensorProduct]
    simp only [Leaves, Populated, Elem.indexShape, HasMapping] at hl hp h
    exact productMapping_of fs m hl hp h
  | .flattened p, m, hl, hp, h => by
    simp only [Leaves, Populated, Elem.indexShape, HasMapping, Elem.mapping] at hl hp h ⊢
    exact mapping_of p m hl hp h
  | .enriched es, m, hl, hp, h => by
    simp only [Leaves, Populated, Elem.indexShape, HasMapping] at hl hp h
    refine (mapping_enriched es).2 ⟨hp.1, sumMapping_of es m hl hp.2 fun k hk => ?_⟩
    exact h [k] (.cons hk .nil)
  | .mixedSub e _ _, m, hl, hp, h => by
    simp only [Leaves, Populated, Elem.indexShape, HasMapping, Elem.mapping] at hl hp h ⊢
    exact mapping_of e m hl hp h
  | .discontinuous e, m, hl, hp, h => by
    simp only [Leaves, Populated, Elem.indexShape, HasMapping, Elem.mapping] at hl hp h ⊢
    exact mapping_of e m hl hp h
  | .tensorFE e s tr, m, hl, hp, h => by
    simp only [Leaves, Populated, Elem.indexShape, HasMapping, Elem.mapping] at hl hp h ⊢
    obtain ⟨s0, hs0⟩ := InRange.ofProd hp.2
    refine mapping_of e m hl hp.1 fun i hi => ?_
    cases tr
    · simp only [Bool.false_eq_true, if_false] at h
      have := h (i ++ s0) (InRange.join hi hs0)
      rwa [← inRange_length hi, List.take_left] at this
    · simp only [if_true] at h
      have := h (s0 ++ i) (InRange.join hs0 hi)
      rwa [← inRange_length hs0, List.drop_left] at this
  | .hdiv w, m, hl, hp, h => by
    obtain ⟨i, hi⟩ := InRange.ofProd (Populated.dim _ hp)
    have := h i hi
    simp only [HasMapping] at this
    rw [this, Elem.mapping]
  | .hcurl w, m, hl, hp, h => by
    obtain ⟨i, hi⟩ := InRange.ofProd (Populated.dim _ hp)
    have := h i hi
    simp only [HasMapping] at this
    rw [this, Elem.mapping]
  | .quadrature r c x, m, hl, hp, h => by
    obtain ⟨i, hi⟩ := InRange.ofProd (Populated.dim _ hp)
    have := h i hi
    simp only [HasMapping] at this
    rw [this, Elem.mapping]
theorem productMapping_of : ∀ (fs : List Elem) (m : Mapping), LeavesL (LeafMapping mu) fs → PopulatedL fs →
    (∀ i, InRange i (Elem.indexShapeL fs).flatten → ProductHas mu fs i m) → prodMap (Elem.mappingL fs) = some m
  | [], m, hl, hp, h => by
    have := h [] (by simp [Elem.indexShapeL, InRange])
    simp only [ProductHas] at this
    rw [this]
    simp [Elem.mappingL, prodMap]
  | f :: fs, m, hl, hp, h => by
    rw [Elem.mappingL, prodMap_cons]
    obtain ⟨i0, hi0⟩ := InRange.ofProd (Populated.dim f hp.1)
    obtain ⟨j0, hj0⟩ := InRange.ofProd (PopulatedL.dim fs hp.2)
    have hij : ∀ i j, InRange i f.indexShape → InRange j (Elem.indexShapeL fs).flatten →
        (HasMapping mu f i .affine ∧ ProductHas mu fs j m) ∨ (HasMapping mu f i m ∧ ProductHas mu fs j .affine) := by
      intro i j hi hj
      have := h (i ++ j) (by rw [Elem.indexShapeL, List.flatten_cons]; exact InRange.join hi hj)
      simp only [ProductHas] at this
      rwa [← inRange_length hi, List.take_left, List.drop_left] at this
    by_cases hm : m = .affine
    · subst hm
      refine .inl ⟨mapping_of f _ hl.1 hp.1 fun i hi => ?_, productMapping_of fs _ hl.2 hp.2 fun j hj => ?_⟩
      · exact (hij i j0 hi hj0).elim (·.1) (·.1)
      · exact (hij i0 j hi0 hj).elim (·.2) (·.2)
    · rcases hij i0 j0 hi0 hj0 with ⟨h1, h2⟩ | ⟨h1, h2⟩
      · refine .inl ⟨mapping_of f _ hl.1 hp.1 fun i hi => ?_, productMapping_of fs _ hl.2 hp.2 fun j hj => ?_⟩
        · rcases hij i j0 hi hj0 with ⟨h3, _⟩ | ⟨_, h4⟩
          · exact h3
          · exact absurd (ProductHas.unique mu fs _ h2 h4) hm
        · rcases hij i0 j hi0 hj with ⟨_, h4⟩ | ⟨h3, _⟩
          · exact h4
          · exact absurd (HasMapping.unique mu f _ h3 h1) hm
      · refine .inr ⟨mapping_of f _ hl.1 hp.1 fun i hi => ?_, productMapping_of fs _ hl.2 hp.2 fun j hj => ?_⟩
        · rcases hij i j0 hi hj0 with ⟨_, h4⟩ | ⟨h3, _⟩
          · exact absurd (ProductHas.unique mu fs _ h4 h2) hm
          · exact h3
        · rcases hij i0 j hi0 hj with ⟨h3, _⟩ | ⟨_, h4⟩
          · exact absurd (HasMapping.unique mu f _ h1 h3) hm
          · exact h4
theorem sumMapping_of : ∀ (es : List Elem) (m : Mapping), LeavesL (LeafMapping mu) es → PopulatedL es →
    (∀ k, k < (Elem.spaceDimL es).sum → SumHas mu es k m) → ∀ e ∈ es, e.mapping = some m
  | [], m, _, _, _ => by simp
  | e :: es, m, hl, hp, h => by
    have h1 : e.mapping = some m := by
      refine mapping_of e m hl.1 hp.1 fun i hi => ?_
      have hlt := ravel_lt hi
      rw [e.indexShape_prod] at hlt
      have := h (ravel e.indexShape i) (by simp only [Elem.spaceDimL, List.sum_cons]; omega)
      simp only [SumHas] at this
      rw [if_pos hlt, unravel_ravel hi] at this
      exact this
    have h2 := sumMapping_of es m hl.2 hp.2 fun k hk => by
      have := h (e.spaceDim + k) (by simp only [Elem.spaceDimL, List.sum_cons]; omega)
      simp only [SumHas] at this
      rw [if_neg (by omega), Nat.add_sub_cancel_left] at this
      exact this
    intro f hf
    rcases List.mem_cons.1 hf with rfl | hf
    · exact h1
    · exact h2 f hf
end

end FInAT
