import Verif.Lemmas.RestrictLeaf
import Verif.Lemmas.TabNode2
import Verif.Lemmas.FiatTab

/-! # Restriction of tensor product elements -/

namespace FInAT

open Spec Elem

variable {K : Type} [CommRing K]

/-! ### lists -/

theorem flatMap_filter_ite {α β : Type _} (p : α → Bool) (g : α → List β) (l : List α) :
    (l.filter p).flatMap g = l.flatMap fun x => if p x then g x else [] := by
  induction l with
  | nil => rfl
  | cons a l ih => by_cases h : p a <;> simp [h, ih]

/-- The product of filtered lists. -/
theorem product_filter {γ α : Type _} (l : γ → List α) (κ : γ → α → Nat) : ∀ (fs : List γ) (δ : List Nat),
    δ.length = fs.length →
    product (List.zipWith (fun f k => (l f).filter fun y => decide (κ f y = k)) fs δ) =
      (product (fs.map l)).filter fun t => decide (List.zipWith κ fs t = δ)
  | [], δ, h => by
    have : δ = [] := List.length_eq_zero_iff.1 (by simpa using h)
    subst this
    simp
  | f :: fs, [], h => by simp at h
  | f :: fs, k :: δ, h => by
    have ih := product_filter l κ fs δ (by simpa using h)
    simp only [List.zipWith_cons_cons, product_cons, List.map_cons, ih, List.filter_flatMap]
    rw [flatMap_filter_ite]
    apply List.flatMap_congr
    intro x _
    rw [List.filter_map]
    by_cases hx : κ f x = k
    · simp [hx, Function.comp_def]
    · simp [hx, Function.comp_def]

theorem flatMap_fibres {α : Type _} {L : List α} (f : α → List Nat) : ∀ {D : List (List Nat)}, D.Nodup →
    (D.flatMap fun δ => L.filter fun t => decide (f t = δ)).Perm (L.filter fun t => decide (f t ∈ D))
  | [], _ => by simp
  | δ :: D, h => by
    have hnd := List.nodup_cons.1 h
    have ih := flatMap_fibres (L := L) f hnd.2
    simp only [List.flatMap_cons]
    refine (ih.append_left _).trans ?_
    clear ih
    induction L with
    | nil => simp
    | cons a L ih =>
      by_cases h1 : f a = δ
      · have h2 : f a ∉ D := by rw [h1]; exact hnd.1
        have h3 : f a ∈ δ :: D := by simp [h1]
        rw [List.filter_cons_of_pos (by simpa using h1), List.filter_cons_of_neg (by simpa using h2),
          List.filter_cons_of_pos (by simpa using h3)]
        exact ih.cons a
      · by_cases h2 : f a ∈ D
        · have h3 : f a ∈ δ :: D := by simp [h2]
          rw [List.filter_cons_of_neg (by simpa using h1), List.filter_cons_of_pos (by simpa using h2),
            List.filter_cons_of_pos (by simpa using h3)]
          exact List.perm_middle.trans (ih.cons a)
        · have h3 : f a ∉ δ :: D := by simp [h1, h2]
          rw [List.filter_cons_of_neg (by simpa using h1), List.filter_cons_of_neg (by simpa using h2),
            List.filter_cons_of_neg (by simpa using h3)]
          exact ih

theorem mapM_spec {α β : Type} {f : α → Except Err β} {R : α → β → Prop} : ∀ {l : List α},
    (∀ x ∈ l, ∃ y, f x = .ok y ∧ R x y) → ∃ ys, l.mapM f = .ok ys ∧ List.Forall₂ R l ys
  | [], _ => ⟨[], rfl, .nil⟩
  | a :: l, h => by
    obtain ⟨y, hy, hr⟩ := h a (by simp)
    obtain ⟨ys, hys, hrs⟩ := mapM_spec (l := l) fun x hx => h x (by simp [hx])
    exact ⟨y :: ys, by simp [List.mapM_cons, hy, hys, bind, Except.bind, pure, Except.pure], .cons hr hrs⟩

theorem filterE_ok {α : Type} {p : α → Except Err Bool} {q : α → Bool} : ∀ {l : List α},
    (∀ x ∈ l, p x = .ok (q x)) → filterE p l = .ok (l.filter q)
  | [], _ => rfl
  | a :: l, h => by
    simp only [filterE, h a (by simp), filterE_ok (l := l) fun x hx => h x (by simp [hx]), bind, Except.bind,
      pure, Except.pure]
    by_cases hq : q a <;> simp [hq]

/-! ### codimensions -/

theorem codimToR_ok {k n : Nat} (hk : k ≤ n) (hn : n ≤ 4) :
    ∃ dom, codimToR k n = .ok dom ∧ DomainOK dom n ∧ ∀ t ≤ n, keeps dom false n t = decide (n - t = k) := by
  have key : ∀ (dom : Domain) (m : Nat), domainDim dom n = some m → m + k = n →
      (m = n → dom = .interior) →
      DomainOK dom n ∧ ∀ t ≤ n, keeps dom false n t = decide (n - t = k) := by
    intro dom m h1 h2 h3
    refine ⟨⟨m, h1, by omega, h3⟩, fun t ht => ?_⟩
    simp only [keeps, h1, Bool.false_eq_true, false_and, if_false, decide_eq_decide]
    omega
  unfold codimToR
  simp only
  by_cases h0 : k = 0
  · subst h0
    exact ⟨.interior, by simp, key .interior n rfl (by omega) (fun _ => rfl)⟩
  · rw [if_neg (by omega)]
    by_cases h1 : k = 1
    · subst h1
      refine ⟨.facet, by simp, key .facet (n - 1) ?_ (by omega) (by omega)⟩
      simp only [domainDim]
      rw [if_neg (by omega)]
    · rw [if_neg (by omega)]
      by_cases h2 : n = k
      · exact ⟨.vertex, by rw [if_pos (by omega)], key .vertex 0 rfl (by omega) (by omega)⟩
      · rw [if_neg (by omega)]
        by_cases h3 : n = k + 1
        · exact ⟨.edge, by rw [if_pos (by omega)], key .edge 1 rfl (by omega) (by omega)⟩
        · rw [if_neg (by omega)]
          exact ⟨.face, by rw [if_pos (by omega)], key .face 2 rfl (by omega) (by omega)⟩

theorem rToCodim_ok {dom : Domain} {n m : Nat} (hm : domainDim dom n = some m) (hmn : m ≤ n) :
    rToCodim dom n = .ok ((n - m : Nat) : Int) := by
  cases dom <;> simp only [domainDim, Option.some.injEq, reduceCtorEq] at hm <;>
    try (simp only [rToCodim]; congr 1; omega)
  · split at hm
    · cases hm
    · cases hm
      simp only [rToCodim]
      congr 1
      omega

theorem fitsCells_ok : ∀ {cs : List Cell} (δ : List Nat), (∀ c ∈ cs, Plain c) → δ.length = cs.length →
    fitsCells (δ.map Int.ofNat) cs =
      .ok (decide (List.Forall₂ (fun (k : Nat) (c : Cell) => k ≤ c.spatialDim) δ cs))
  | [], [], _, _ => by simp [fitsCells]
  | [], _ :: _, _, h => by simp at h
  | _ :: _, [], _, h => by simp at h
  | c :: cs, k :: δ, hp, h => by
    have ih := fitsCells_ok (cs := cs) δ (fun x hx => hp x (by simp [hx])) (by simpa using h)
    simp only [List.map_cons, fitsCells, (plain_top (hp c (by simp))).2.2, Int.ofNat_eq_natCast, Nat.cast_le]
    rw [show (List.map Int.ofNat δ) = (List.map Int.ofNat δ) from rfl]
    by_cases hk : k ≤ c.spatialDim
    · rw [if_pos (by exact_mod_cast hk)]
      rw [ih]
      simp [hk]
    · rw [if_neg (by exact_mod_cast hk)]
      simp [hk]

/-- The candidate decompositions. -/
theorem decompositions_ok {cs : List Cell} (hp : ∀ c ∈ cs, Plain c) {dom : Domain} (cl : Bool)
    (hd : DomainOK dom (Cell.spatialDimL cs)) :
    ∃ D : List (List Nat), decompositions cs dom cl = .ok (D.map (List.map Int.ofNat)) ∧ D.Nodup ∧
      ∀ δ, δ ∈ D ↔ List.Forall₂ (fun (k : Nat) (c : Cell) => k ≤ c.spatialDim) δ cs ∧
        keeps dom cl (Cell.spatialDimL cs) (Cell.spatialDimL cs - δ.sum) = true := by
  obtain ⟨m, hm, hmn, hmi⟩ := hd
  set n := Cell.spatialDimL cs with hn
  set a := n - m with ha
  set cnt := (if cl = true ∧ dom ≠ .interior then n + 1 - a else 1) with hcnt
  set cand := (List.range cnt).flatMap (fun i => mis cs.length (a + i)) with hcand
  have hrange : (intRange (a : Int) (1 + if (cl && decide (dom ≠ .interior)) = true then (n : Int) else (a : Int))).flatMap
      (misInt cs.length) = cand.map (List.map Int.ofNat) := by
    unfold intRange
    rw [show ((1 + if (cl && decide (dom ≠ .interior)) = true then (n : Int) else (a : Int)) - (a : Int)).toNat = cnt by
      rw [hcnt]
      by_cases h : cl = true ∧ dom ≠ .interior
      · rw [if_pos h, if_pos (by simp [h.1, h.2])]
        omega
      · rw [if_neg h, if_neg (by simpa using h)]
        omega]
    rw [hcand, List.flatMap_map, List.map_flatMap]
    apply List.flatMap_congr
    intro i _
    simp only [misInt]
    rw [if_neg (by omega)]
    rw [show ((a : Int) + (i : Int)).toNat = a + i by omega]
  refine ⟨cand.filter fun δ => decide (List.Forall₂ (fun (k : Nat) (c : Cell) => k ≤ c.spatialDim) δ cs), ?_, ?_, ?_⟩
  · unfold decompositions
    rw [← hn]
    simp only [rToCodim_ok hm hmn, bind, Except.bind]
    rw [← ha, hrange]
    rw [filterE_ok (q := fun δ => decide (List.Forall₂ (fun (k : Nat) (c : Cell) => k ≤ c.spatialDim)
      (δ.map Int.toNat) cs))]
    · rw [List.filter_map]
      congr 2
      apply List.filter_congr
      intro δ _
      simp
    · intro x hx
      obtain ⟨δ, hδ, rfl⟩ := List.mem_map.1 hx
      obtain ⟨i, _, hi⟩ := List.mem_flatMap.1 hδ
      rw [fitsCells_ok δ hp (mem_mis.1 hi).1]
      congr 2
      simp
  · refine List.Nodup.filter _ ?_
    rw [hcand, List.nodup_flatMap]
    refine ⟨fun i _ => nodup_mis _ _, ?_⟩
    refine List.nodup_range.imp ?_
    intro i j hij
    simp only [Function.onFun]
    intro x hx hy
    exact hij (by have := (mem_mis.1 hx).2; have := (mem_mis.1 hy).2; omega)
  · intro δ
    rw [List.mem_filter, decide_eq_true_eq, and_comm]
    refine and_congr_right fun hf => ?_
    have hsum : δ.sum ≤ n := by
      rw [hn]
      clear * - hf
      induction hf with
      | nil => simp
      | cons h _ ih => simp only [List.sum_cons, Cell.spatialDimL]; omega
    have hlen := hf.length_eq
    rw [hcand, List.mem_flatMap]
    simp only [mem_mis, List.mem_range, keeps, hm]
    constructor
    · rintro ⟨i, hi, _, hs⟩
      rw [hcnt] at hi
      by_cases h : cl = true ∧ dom ≠ .interior
      · rw [if_pos h] at hi ⊢
        rw [decide_eq_true_eq]; omega
      · rw [if_neg h] at hi ⊢
        rw [decide_eq_true_eq]; omega
    · intro hk
      refine ⟨δ.sum - a, ?_, hlen, ?_⟩
      · rw [hcnt]
        by_cases h : cl = true ∧ dom ≠ .interior
        · rw [if_pos h] at hk ⊢
          rw [decide_eq_true_eq] at hk; omega
        · rw [if_neg h] at hk ⊢
          rw [decide_eq_true_eq] at hk; omega
      · by_cases h : cl = true ∧ dom ≠ .interior
        · rw [if_pos h] at hk
          rw [decide_eq_true_eq] at hk; omega
        · rw [if_neg h] at hk
          rw [decide_eq_true_eq] at hk; omega

/-! ### results -/

/-- What a restriction must be. -/
def OkRes (φ : LeafVals K) (e : Elem) (dom : Domain) (cl : Bool) (c : Cell) (vs : List Nat) : RRes → Prop
  | .null => (attached φ e).filter (fun y => keeps dom cl c.spatialDim y.1.1.total) = []
  | .notElem => False
  | .elem e' => Good e' ∧ FlatEnriched e' ∧ enrichedParts e' ≠ [] ∧
    (∀ p ∈ enrichedParts e', p.cell = .ok c ∧ p.valueShape = .ok vs) ∧
    (Uniform e → ∀ k, e.formdegree = .ok k →
      ∀ p ∈ enrichedParts e', p.formdegree = .ok k ∧ p.mapping = e.mapping) ∧
    (attached φ e').Perm ((attached φ e).filter fun y => keeps dom cl c.spatialDim y.1.1.total)

/-- Restriction does what it should. -/
def Stmt (φ : LeafVals K) (e : Elem) : Prop :=
  ∀ c vs dom cl, e.cell = .ok c → e.valueShape = .ok vs → DomainOK dom c.spatialDim →
    ∃ r, restrict e dom cl = .ok r ∧ OkRes φ e dom cl c vs r

theorem cellL_const {c : Cell} : ∀ {es : List Elem}, (∀ e ∈ es, e.cell = .ok c) →
    cellL es = .ok (List.replicate es.length c)
  | [], _ => rfl
  | e :: es, h => by
    simp [cellL, h e (by simp), cellL_const (es := es) fun x hx => h x (by simp [hx]), bind, Except.bind, pure, Except.pure,
      List.replicate_succ]

theorem valueShapeL_const {c : List Nat} : ∀ {es : List Elem}, (∀ e ∈ es, e.valueShape = .ok c) →
    valueShapeL es = .ok (List.replicate es.length c)
  | [], _ => rfl
  | e :: es, h => by
    simp [valueShapeL, h e (by simp), valueShapeL_const (es := es) fun x hx => h x (by simp [hx]), bind, Except.bind, pure,
      Except.pure, List.replicate_succ]

theorem formdegreeL_const {k : Option Nat} : ∀ {es : List Elem}, (∀ e ∈ es, e.formdegree = .ok k) →
    formdegreeL es = .ok (List.replicate es.length k)
  | [], _ => rfl
  | e :: es, h => by
    simp [formdegreeL, h e (by simp), formdegreeL_const (es := es) fun x hx => h x (by simp [hx]), bind, Except.bind, pure,
      Except.pure, List.replicate_succ]

theorem mappingL_const {m : Option Mapping} : ∀ {es : List Elem}, (∀ e ∈ es, e.mapping = m) →
    mappingL es = List.replicate es.length m
  | [], _ => rfl
  | e :: es, h => by
    simp [mappingL, h e (by simp), mappingL_const (es := es) fun x hx => h x (by simp [hx]), List.replicate_succ]

theorem uniqueOf_replicate {α : Type} [DecidableEq α] (n : Nat) (a : α) :
    uniqueOf (List.replicate (n + 1) a) = .ok a :=
  uniqueOf_ok.2 ⟨by simp, fun _ hb => (List.mem_replicate.1 hb).2⟩

theorem maxList_replicate (n k : Nat) : maxList (List.replicate (n + 1) k) = k := by
  induction n with
  | zero => simp [maxList, List.replicate]
  | succ n ih => rw [List.replicate_succ, maxList, ih]; simp

theorem enriched_attrs {es : List Elem} (hne : es ≠ []) {c : Cell} {vs : List Nat}
    (h : ∀ p ∈ es, p.cell = .ok c ∧ p.valueShape = .ok vs) :
    (Elem.enriched es).cell = .ok c ∧ (Elem.enriched es).valueShape = .ok vs := by
  obtain ⟨n, hn⟩ : ∃ n, es.length = n + 1 := ⟨es.length - 1, by
    have := List.length_pos_of_ne_nil hne; omega⟩
  simp only [Elem.cell, Elem.valueShape, cellL_const fun e he => (h e he).1,
    valueShapeL_const fun e he => (h e he).2, bind, Except.bind, hn, uniqueOf_replicate, and_self]

theorem enriched_attrs2 {es : List Elem} (hne : es ≠ []) {k : Option Nat} {m : Option Mapping}
    (h : ∀ p ∈ es, p.formdegree = .ok k ∧ p.mapping = m) :
    (Elem.enriched es).formdegree = .ok k ∧ (Elem.enriched es).mapping = m := by
  obtain ⟨n, hn⟩ : ∃ n, es.length = n + 1 := ⟨es.length - 1, by
    have := List.length_pos_of_ne_nil hne; omega⟩
  constructor
  · simp only [Elem.formdegree, formdegreeL_const fun e he => (h e he).1, bind, Except.bind, hn, pure, Except.pure]
    cases k with
    | none => simp [List.replicate_succ]
    | some k =>
      rw [if_neg (by simp), if_neg (by simp [List.replicate_succ]),
        show (List.replicate (n + 1) (some k)).filterMap id = List.replicate (n + 1) k by
          generalize n + 1 = q
          induction q with
          | zero => rfl
          | succ q ih => simp [List.replicate_succ], maxList_replicate]
  · simp only [Elem.mapping, mappingL_const fun e he => (h e he).2, hn, List.replicate_succ]
    rw [if_pos (by simp)]

theorem parts_attrs {e : Elem} (hne : enrichedParts e ≠ []) {c : Cell} {vs : List Nat}
    (h : ∀ p ∈ enrichedParts e, p.cell = .ok c ∧ p.valueShape = .ok vs) :
    e.cell = .ok c ∧ e.valueShape = .ok vs := by
  cases e with
  | enriched es => exact enriched_attrs hne h
  | _ => exact h _ (by simp [enrichedParts])

theorem parts_attrs2 {e : Elem} (hne : enrichedParts e ≠ []) {k : Option Nat} {m : Option Mapping}
    (h : ∀ p ∈ enrichedParts e, p.formdegree = .ok k ∧ p.mapping = m) :
    e.formdegree = .ok k ∧ e.mapping = m := by
  cases e with
  | enriched es => exact enriched_attrs2 hne h
  | _ => exact h _ (by simp [enrichedParts])

theorem goodL_iff : ∀ {es : List Elem}, GoodL es ↔ ∀ e ∈ es, Good e
  | [] => by simp [GoodL]
  | e :: es => by simp [GoodL, goodL_iff (es := es)]

theorem good_parts {e : Elem} (h : Good e) : ∀ p ∈ enrichedParts e, Good p := by
  cases e with
  | enriched es => exact goodL_iff.1 h
  | _ => intro p hp; simp only [enrichedParts, List.mem_singleton] at hp; subst hp; exact h

theorem good_mkEnriched {es : List Elem} (h : ∀ e ∈ es, Good e) : Good (mkEnriched es) := by
  have hp : ∀ p ∈ es.flatMap enrichedParts, Good p := by
    intro p hp
    obtain ⟨e, he, hp⟩ := List.mem_flatMap.1 hp
    exact good_parts (h e he) p hp
  unfold mkEnriched
  split
  · rename_i e he
    exact hp e (by rw [he]; simp)
  · exact goodL_iff.2 hp

theorem attached_mkEnriched (φ : LeafVals K) {es : List Elem} {c : Cell} (hne : es ≠ []) (hg : ∀ e ∈ es, Good e)
    (hpne : ∀ e ∈ es, enrichedParts e ≠ [])
    (hcell : ∀ e ∈ es, ∀ p ∈ enrichedParts e, p.cell = .ok c) :
    (attached φ (mkEnriched es)).Perm (es.flatMap (attached φ)) := by
  have h1 : (es.flatMap (attached φ)).Perm ((es.flatMap enrichedParts).flatMap (attached φ)) := by
    rw [List.flatMap_assoc]
    refine List.Perm.flatMap_left _ fun e he => ?_
    refine attached_parts φ (hg e he) (c := c) ?_
    cases e with
    | enriched xs =>
      simp only [Elem.cell]
      have := hcell _ he
      simp only [enrichedParts] at this
      rw [cellL_const this]
      obtain ⟨n, hn⟩ : ∃ n, xs.length = n + 1 := ⟨xs.length - 1, by
        have := List.length_pos_of_ne_nil (hpne _ he); simp only [enrichedParts] at this; omega⟩
      simp only [bind, Except.bind, hn, uniqueOf_replicate]
    | _ => exact hcell _ he _ (by simp [enrichedParts])
  refine List.Perm.trans ?_ h1.symm
  have hp : ∀ p ∈ es.flatMap enrichedParts, Good p ∧ p.cell = .ok c := by
    intro p hp
    obtain ⟨e, he, hp⟩ := List.mem_flatMap.1 hp
    exact ⟨good_parts (hg e he) p hp, hcell e he p hp⟩
  have hne' : es.flatMap enrichedParts ≠ [] := by
    obtain ⟨e, es', rfl⟩ := List.exists_cons_of_ne_nil hne
    simp only [List.flatMap_cons]
    exact fun h => hpne e (by simp) (List.append_eq_nil_iff.1 h).1
  unfold mkEnriched
  split
  · rename_i e he
    rw [he]; simp
  · refine attached_enriched φ (c := c) (dofsOKL _ (goodL_iff.2 fun p hp' => (hp p hp').1)) ?_
    simp only [Elem.cell, cellL_const fun p hp' => (hp p hp').2]
    obtain ⟨n, hn⟩ : ∃ n, (es.flatMap enrichedParts).length = n + 1 := ⟨(es.flatMap enrichedParts).length - 1, by
        have := List.length_pos_of_ne_nil hne'; omega⟩
    simp only [bind, Except.bind, hn, uniqueOf_replicate]

end FInAT
