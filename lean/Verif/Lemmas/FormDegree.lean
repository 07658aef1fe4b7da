import Verif.Spec.FormDegree
import Verif.Props.Dofs
import Verif.Lemmas.Layout
import Verif.Lemmas.Poly

/-!
# Form degrees
-/

namespace FInAT

open Spec Elem Props

theorem filterMap_id_some {ks : List (Option Nat)} (h : ks.contains none = false) :
    ks = (ks.filterMap id).map some := by
  induction ks with
  | nil => rfl
  | cons a ks ih =>
    cases a with
    | none => simp at h
    | some a =>
      have : ks.contains none = false := by simpa using h
      conv_lhs => rw [ih this]
      rfl

theorem formdegree_tensorProduct {fs : List Elem} {k : Nat} (h : (Elem.tensorProduct fs).formdegree = .ok (some k)) :
    ∃ ks : List Nat, Elem.formdegreeL fs = .ok (ks.map some) ∧ k = ks.sum := by
  simp only [Elem.formdegree, bind_ok] at h
  obtain ⟨ks, hks, h⟩ := h
  split at h
  · cases h
  · next hn =>
    refine ⟨ks.filterMap id, ?_, ?_⟩
    · rw [← filterMap_id_some (by simpa using hn)]; exact hks
    · cases h; rfl

theorem formdegree_enriched {es : List Elem} {k : Nat} {k' : Option Nat}
    (h : (Elem.enriched es).formdegree = .ok (some k)) (hu : ∀ e ∈ es, e.formdegree = .ok k') : k' = some k := by
  simp only [Elem.formdegree, bind_ok] at h
  obtain ⟨ks, hks, h⟩ := h
  have hall : ∀ {es : List Elem} {ks}, Elem.formdegreeL es = .ok ks → (∀ e ∈ es, e.formdegree = .ok k') →
      ∀ x ∈ ks, x = k' := by
    intro es
    induction es with
    | nil => intro ks h _; cases h; simp
    | cons e es ih =>
      intro ks h hu
      simp only [Elem.formdegreeL, bind_ok, pure, Except.pure, Except.ok.injEq] at h
      obtain ⟨a, ha, as, has, rfl⟩ := h
      rw [hu e List.mem_cons_self] at ha
      cases ha
      intro x hx
      rcases List.mem_cons.1 hx with rfl | hx
      · rfl
      · exact ih has (fun e he => hu e (List.mem_cons_of_mem _ he)) x hx
  have hk := hall hks hu
  split at h
  · cases h
  · next hn =>
    split at h
    · cases h
    · next hne =>
      have hs := filterMap_id_some (by simpa using hn)
      obtain ⟨a, l, hal⟩ : ∃ a l, ks.filterMap id = a :: l := by
        cases hf : ks.filterMap id with
        | nil => rw [hf] at hs; exact absurd hs hne
        | cons a l => exact ⟨a, l, rfl⟩
      rw [hal] at h hs
      simp only [pure, Except.pure, Except.ok.injEq, Option.some.injEq] at h
      have hmem : ∀ b ∈ a :: l, some b = k' := fun b hb => hk _ (by rw [hs]; exact List.mem_map.2 ⟨b, hb, rfl⟩)
      have ha := hmem a List.mem_cons_self
      subst ha
      have hle : ∀ m : List Nat, (∀ b ∈ m, b = a) → maxList m ≤ a := by
        intro m
        induction m with
        | nil => intro _; exact Nat.zero_le _
        | cons b m ih =>
          intro h
          simp only [maxList]
          exact Nat.max_le.2 ⟨(h b List.mem_cons_self).le, ih fun c hc => h c (List.mem_cons_of_mem _ hc)⟩
      have h1 := hle (a :: l) fun b hb => Option.some.inj (hmem b hb)
      have h2 : a ≤ maxList (a :: l) := Nat.le_max_left _ _
      rw [← h, Nat.le_antisymm h1 h2]

theorem mkHDiv_formdegree {w e : Elem} (h : mkHDiv w = .ok e) : e = .hdiv w ∧ e.formdegree = w.formdegree := by
  cases w with
  | tensorProduct fs =>
    simp only [mkHDiv, bind_ok] at h
    obtain ⟨ks, hks, h⟩ := h
    split at h
    · cases h
    · next hn =>
      rw [bind_ok] at h
      obtain ⟨c, hc, h⟩ := h
      split at h
      · cases h
      · next hk =>
        rw [bind_ok] at h
        obtain ⟨_, _, h⟩ := h
        cases h
        refine ⟨rfl, ?_⟩
        simp only [Elem.formdegree, hc, hks, bind, Except.bind, pure, Except.pure]
        rw [if_neg hn]
        have hk' := not_not.1 hk
        congr 2
        omega
  | _ => cases h

theorem mkHCurl_formdegree {w e : Elem} (h : mkHCurl w = .ok e) : e = .hcurl w ∧ e.formdegree = w.formdegree := by
  cases w with
  | tensorProduct fs =>
    simp only [mkHCurl, bind_ok] at h
    obtain ⟨ks, hks, h⟩ := h
    split at h
    · cases h
    · next hn =>
      split at h
      · cases h
      · next hk =>
        rw [bind_ok] at h
        obtain ⟨_, _, h⟩ := h
        cases h
        refine ⟨rfl, ?_⟩
        rw [Elem.formdegree, Elem.formdegree, hks]
        simp only [bind, Except.bind, pure, Except.pure]
        rw [if_neg hn, not_not.1 hk]
  | _ => cases h

theorem shiftedConcat_nil : ∀ (o : Nat) (l : List (Nat × List Nat)), (∀ x ∈ l, x.2 = []) → shiftedConcat o l = []
  | _, [], _ => rfl
  | o, (n, x) :: l, h => by
    have h0 := h (n, x) List.mem_cons_self
    simp only at h0
    subst h0
    rw [shiftedConcat, shiftedConcat_nil _ l fun y hy => h y (List.mem_cons_of_mem _ hy)]
    rfl

mutual
theorem forms_below : ∀ (e : Elem) (c : Cell) (k : Nat) (d : EntityDofs), Good e → Forms e → e.cell = .ok c →
    e.formdegree = .ok (some k) → e.entityDofs = .ok d → k ≤ c.spatialDim ∧ NoneBelow d c k
  | .leaf l, c, k, d, hg, hf, hc, hk, hd => by
    simp only [Elem.cell, Elem.formdegree, Elem.entityDofs, Except.ok.injEq] at hc hk hd
    subst hc hd
    exact hf k hk
  | .tensorProduct fs, c, k, d, hg, hf, hc, hk, hd => by
    obtain ⟨ks, hks, rfl⟩ := formdegree_tensorProduct hk
    have hc' := hc
    simp only [Elem.cell, bind_ok, pure, Except.pure, Except.ok.injEq] at hc'
    obtain ⟨cs, hcs, rfl⟩ := hc'
    have hL := fun ds h => formsL_below fs cs ks ds hg hf hcs hks h
    refine ⟨?_, fun dim n hdim i hi hlt => ?_⟩
    · obtain ⟨ds, d', h1, _, _⟩ := C04_tensor_product_dofs fs cs hg hc
      exact (hL ds h1).1
    · obtain ⟨dims, rfl⟩ : ∃ dims, dim = .tup dims := by
        simp only [Cell.topology, Cell.prodTop] at hdim
        obtain ⟨ps, _, heq⟩ := List.mem_map.1 hdim
        exact ⟨_, (Prod.mk.inj heq).1.symm⟩
      obtain ⟨ds, d', ents, h1, h2, _, h4, h5, h6⟩ := C05_factor_entity_agrees fs cs hg hc dims n i hdim hi
      rw [hd] at h2
      cases h2
      rw [h6, (hL ds h1).2 ents h5 (by rw [h4]; exact hlt)]
      rfl
  | .flattened p, cf, k, df, hg, hf, hcf, hk, hdf => by
    have hc := hcf
    simp only [Elem.cell, bind_ok] at hc
    obtain ⟨c, hc, _⟩ := hc
    obtain ⟨d, df', h1, h2, h3⟩ := C06_flattened_entities p c hg hc cf hcf
    rw [hdf] at h2
    cases h2
    have ih := forms_below p c k d hg.1 hf hc (by simpa [Elem.formdegree] using hk) h1
    refine ⟨by rw [flattened_spatialDim hc hcf]; exact ih.1, fun dim n hdim i hi hlt => ?_⟩
    obtain ⟨t, rfl⟩ : ∃ t, dim = .int t := by
      simp only [Elem.cell, hc, bind, Except.bind] at hcf
      split at hcf
      · cases hcf
        have hq : Cell.quad.topology = [(.int 0, 4), (.int 1, 4), (.int 2, 1)] := by decide +kernel
        rw [hq] at hdim
        simp only [List.mem_cons, Prod.mk.injEq, List.not_mem_nil, or_false] at hdim
        rcases hdim with h | h | h <;> exact ⟨_, h.1⟩
      · split at hcf
        · cases hcf
          have hq : Cell.hex.topology = [(.int 0, 8), (.int 1, 12), (.int 2, 6), (.int 3, 1)] := by decide +kernel
          rw [hq] at hdim
          simp only [List.mem_cons, Prod.mk.injEq, List.not_mem_nil, or_false] at hdim
          rcases hdim with h | h | h | h <;> exact ⟨_, h.1⟩
        · cases hcf
    obtain ⟨dim, ent, _, ⟨m, hm, hlt'⟩, htot, heq⟩ := h3 t n hdim i hi
    rw [heq]
    refine ih.2 dim m hm ent hlt' ?_
    rw [htot]
    exact hlt
  | .enriched es, c, k, d, hg, hf, hc, hk, hd => by
    obtain ⟨hfl, k', hu⟩ := hf
    have hk' := formdegree_enriched hk hu
    subst hk'
    obtain ⟨ds, d', h1, h2, _, h4⟩ := C03_enriched_blocks es c hg hc
    rw [hd] at h2
    cases h2
    have hcell : ∀ e ∈ es, e.cell = .ok c := by
      simp only [Elem.cell, bind_ok] at hc
      obtain ⟨cs, hcs, hu'⟩ := hc
      have hm := (uniqueOf_mem hu').2
      clear h4 h1 hk hu hd hfl hg hu'
      induction es generalizing cs with
      | nil => simp
      | cons e es ih =>
        obtain ⟨c1, cs', hc1, hc2, rfl⟩ := cellL_cons hcs
        intro f hf
        rcases List.mem_cons.1 hf with rfl | hf
        · rw [hc1, hm c1 List.mem_cons_self]
        · exact ih cs' hc2 (fun b hb => hm b (List.mem_cons_of_mem _ hb)) f hf
    have hne : es ≠ [] := by
      rintro rfl
      simp [Elem.cell, Elem.cellL, bind, Except.bind, uniqueOf] at hc
    have hL := formsSum_below es c k ds hg hfl (fun e he => ⟨hcell e he, hu e he⟩) h1
    refine ⟨hL.1 hne, fun dim n hdim i hi hlt => ?_⟩
    rw [h4 dim n hdim i hi]
    refine shiftedConcat_nil _ _ fun x hx => ?_
    obtain ⟨j, hj, rfl⟩ := List.mem_iff_getElem.1 hx
    rw [List.getElem_zipWith]
    exact hL.2 _ (List.getElem_mem _) dim n hdim i hi hlt
  | .mixedSub e _ _, c, k, d, hg, hf, hc, hk, hd => by
    simp only [Elem.cell, Elem.formdegree, Elem.entityDofs, Good, Forms] at hc hk hd hg hf
    exact forms_below e c k d hg hf hc hk hd
  | .discontinuous e, c, k, d, hg, hf, hc, hk, hd => by
    simp only [Elem.cell] at hc
    simp only [Elem.formdegree, hc, bind, Except.bind, pure, Except.pure, Except.ok.injEq, Option.some.injEq] at hk
    subst hk
    obtain ⟨d', h1, _, _, h4⟩ := C09_discontinuous_dofs e c hc
    rw [hd] at h1
    cases h1
    refine ⟨le_rfl, fun dim n hdim i hi hlt => h4 dim n hdim i hi fun h => ?_⟩
    rw [(Prod.mk.inj h).1, Cell.total_dimension] at hlt
    exact lt_irrefl _ hlt
  | .tensorFE e shape tr, c, k, d', hg, hf, hc, hk, hd => by
    simp only [Elem.cell, Elem.formdegree, Good, Forms] at hc hk hg hf
    obtain ⟨d, d'', h1, h2, h3⟩ := C07_tensorFE_count e c shape tr hg hc
    rw [hd] at h2
    cases h2
    have ih := forms_below e c k d hg hf hc hk h1
    refine ⟨ih.1, fun dim n hdim i hi hlt => ?_⟩
    have := h3 dim n hdim i hi
    rw [ih.2 dim n hdim i hi hlt] at this
    simpa using this
  | .hdiv w, c, k, d, hg, hf, hc, hk, hd => by
    rw [(mkHDiv_formdegree hf.2).2] at hk
    simp only [Elem.cell, Elem.entityDofs, Good] at hc hd hg
    exact forms_below w c k d hg hf.1 hc hk hd
  | .hcurl w, c, k, d, hg, hf, hc, hk, hd => by
    rw [(mkHCurl_formdegree hf.2).2] at hk
    simp only [Elem.cell, Elem.entityDofs, Good] at hc hd hg
    exact forms_below w c k d hg hf.1 hc hk hd
  | .quadrature _ _ _, c, k, d, hg, hf, hc, hk, hd => by
    simp only [Elem.formdegree, Except.ok.injEq] at hk
    cases hk
theorem formsL_below : ∀ (fs : List Elem) (cs : List Cell) (ks : List Nat) (ds : List EntityDofs), GoodL fs → FormsL fs →
    Elem.cellL fs = .ok cs → Elem.formdegreeL fs = .ok (ks.map some) →
    List.Forall₂ (fun e d => e.entityDofs = .ok d) fs ds →
    ks.sum ≤ Cell.spatialDimL cs ∧ ∀ ents : List (Dim × Nat),
      List.Forall₂ (fun (x : Dim × Nat) (c : Cell) => ∃ m, (x.1, m) ∈ c.topology ∧ x.2 < m) ents cs →
      Dim.totalL (ents.map Prod.fst) < ks.sum →
      product (List.zipWith (fun d (x : Dim × Nat) => dofsOn d x.1 x.2) ds ents) = []
  | [], cs, ks, ds, _, _, hc, hk, _ => by
    simp only [Elem.formdegreeL, Except.ok.injEq] at hk
    have : ks = [] := by simpa using hk.symm
    subst this
    exact ⟨Nat.zero_le _, fun _ _ h => absurd h (by simp)⟩
  | f :: fs, cs, ks, ds, hg, hf, hc, hk, hd => by
    obtain ⟨c, cs, hc1, hc2, rfl⟩ := cellL_cons hc
    simp only [Elem.formdegreeL, bind_ok, pure, Except.pure, Except.ok.injEq] at hk
    obtain ⟨a, ha, as, has, hk⟩ := hk
    cases ks with
    | nil => cases hk
    | cons k ks =>
      rw [List.map_cons] at hk
      obtain ⟨rfl, rfl⟩ := List.cons.inj hk
      cases hd with
      | @cons _ d _ ds hd hds =>
        have ih1 := forms_below f c k d hg.1 hf.1 hc1 ha hd
        have ih2 := formsL_below fs cs ks ds hg.2 hf.2 hc2 has hds
        refine ⟨?_, ?_⟩
        · simp only [List.sum_cons, Cell.spatialDimL]
          exact Nat.add_le_add ih1.1 ih2.1
        · intro ents he hlt
          cases he with
          | @cons x _ ents _ hx he =>
            obtain ⟨m, hm, hxm⟩ := hx
            simp only [List.map_cons, Dim.totalL, List.sum_cons] at hlt
            rw [List.zipWith_cons_cons]
            refine List.eq_nil_iff_forall_not_mem.2 fun y hy => ?_
            have hy' := mem_product.1 hy
            cases hy' with
            | @cons b _ bs _ hb hbs =>
              by_cases h : x.1.total < k
              · rw [ih1.2 x.1 m hm x.2 hxm h] at hb
                simp at hb
              · have h0 := ih2.2 ents he (by omega)
                have := mem_product.2 hbs
                rw [h0] at this
                simp at this
theorem formsSum_below : ∀ (es : List Elem) (c : Cell) (k : Nat) (ds : List EntityDofs), GoodL es → FormsL es →
    (∀ e ∈ es, e.cell = .ok c ∧ e.formdegree = .ok (some k)) →
    List.Forall₂ (fun e d => e.entityDofs = .ok d) es ds →
    (es ≠ [] → k ≤ c.spatialDim) ∧ ∀ d ∈ ds, NoneBelow d c k
  | [], c, k, ds, _, _, _, hd => by
    cases hd
    exact ⟨fun h => absurd rfl h, by simp⟩
  | e :: es, c, k, ds, hg, hf, he, hd => by
    cases hd with
    | @cons _ d _ ds hd hds =>
      have h0 := he e List.mem_cons_self
      have ih1 := forms_below e c k d hg.1 hf.1 h0.1 h0.2 hd
      have ih2 := formsSum_below es c k ds hg.2 hf.2 (fun x hx => he x (List.mem_cons_of_mem _ hx)) hds
      refine ⟨fun _ => ih1.1, fun x hx => ?_⟩
      rcases List.mem_cons.1 hx with rfl | hx
      · exact ih1.2
      · exact ih2.2 x hx
end

end FInAT
