import Verif.Spec.Mapping
import Verif.Lemmas.Admits
import Verif.Props.PointEval

/-!
# The coordinate mapping on element trees
-/

namespace FInAT

open Spec Elem Props

variable {K : Type} [CommRing K]

omit [CommRing K] in
theorem factorPointSet_length {cs : List Cell} {ds : List Dim} {ps : PSet K} {pss : List (PSet K)}
    (h : factorPointSet cs ds ps = .ok pss) : pss.length = ds.length := by
  unfold factorPointSet at h
  split at h
  · cases h
  rename_i hlen
  have hlen : cs.length = ds.length := by simpa using hlen
  cases ps with
  | tensor fs =>
    simp only [bind, Except.bind] at h
    split at h
    · split at h
      · cases h
      split at h
      · cases h; omega
      · cases h
    · split at h
      · cases h
      split at h
      · cases h
      · cases h; simp [splitLens_length]
  | singleton p =>
    simp only [bind, Except.bind] at h
    split at h
    · cases h
    split at h
    · cases h
    · cases h; simp [splitLens_length]
  | unknown a b c =>
    simp only [bind, Except.bind] at h
    split at h
    · cases h
    split at h <;> cases h
  | points a b c =>
    simp only [bind, Except.bind] at h
    split at h
    · cases h
    split at h
    · cases h
    · cases h; simp [splitLens_length]

theorem mapM_length {α β : Type} {f : α → Except Err β} : ∀ {l : List α} {r : List β},
    l.mapM f = .ok r → r.length = l.length
  | [], r, h => by cases h; rfl
  | a :: l, r, h => by
    rw [List.mapM_cons] at h
    simp only [bind, Except.bind] at h
    split at h
    · cases h
    split at h
    · cases h
    · rename_i h2
      cases h
      simp [mapM_length h2]

theorem factorEntity_length {cs : List Cell} {entity : Option (Dim × Nat)} {ents : List (Dim × Nat)}
    (h : factorEntity cs entity = .ok ents) : ents.length = cs.length := by
  unfold factorEntity at h
  simp only [bind, Except.bind] at h
  split at h
  · cases h
  split at h
  · split at h
    · cases h
    rename_i hl _ hm
    split at h
    · cases h
    rename_i hu
    cases h
    have := mapM_length hm
    have hids : ∀ {k : Nat} {sh ids : List Nat}, unravelIndex k sh = .ok ids → ids.length = sh.length := by
      intro k sh ids h
      unfold unravelIndex at h
      split at h
      · rename_i hlt
        cases h
        exact (unravel_bounds hlt).length_eq
      · cases h
    have := hids hu
    simp only [List.length_zip] at *
    omega
  · cases h

theorem cellL_length : ∀ {fs : List Elem} {cs : List Cell}, Elem.cellL fs = .ok cs → cs.length = fs.length
  | [], cs, h => by simp only [Elem.cellL, Except.ok.injEq] at h; subst h; rfl
  | f :: fs, cs, h => by
    obtain ⟨c, cs', _, h2, rfl⟩ := cellL_cons h
    simp [cellL_length h2]

theorem liftE_inv {α : Type} {x : Except Err α} {a : α} {n m : Nat} (h : liftE x n = .ok (a, m)) :
    x = .ok a ∧ m = n := by
  cases x with
  | error e => cases h
  | ok b => cases h; exact ⟨rfl, rfl⟩

section
variable (F : Fiat K) (R : Rules K)

/-- The leaf is physically mapped. -/
def IsMapped (l : Leaf) : Prop := F.mapped l ≠ none

/-- A product loses the mapping. -/
theorem product_lost (fs : List Elem) (order : Nat) (hz : ∀ (qs : List (PSet K))
    (ents : List (Dim × Nat)), qs.length = fs.length → ents.length = fs.length → ∀ (n : Nat) (Ts : List (Tab K)) (m : Nat),
    evaluateZip (mappedInterp F R) fs order (qs.map fun q => (q, false)) ents n ≠ .ok (Ts, m)) (p : PSet K × Bool)
    (entity : Option (Dim × Nat)) (n : Nat) (T : Tab K) (m : Nat) :
    evaluate (mappedInterp F R) (.tensorProduct fs) order p entity n ≠ .ok (T, m) := by
  intro h
  simp only [evaluate] at h
  obtain ⟨cs, k1, h1, h⟩ := bind_inv h
  obtain ⟨ents, k2, h2, h⟩ := bind_inv h
  obtain ⟨pss, k3, h3, h⟩ := bind_inv h
  obtain ⟨frs, k4, h4, _⟩ := bind_inv h
  simp only [mappedInterp] at h3
  obtain ⟨qs, k5, h5, h6⟩ := bind_inv h3
  cases h6
  have e1 := cellL_length (liftE_inv h1).1
  have e2 := factorEntity_length (liftE_inv h2).1
  have e3 := factorPointSet_length (liftE_inv h5).1
  rw [List.length_map] at e3
  exact hz qs ents (by omega) (by omega) _ _ _ h4

mutual
/-- A tree that contains a physically mapped leaf cannot be tabulated without a coordinate mapping. -/
theorem unmapped_fails : ∀ (e : Elem), Contains (IsMapped F) e → ∀ (order : Nat) (ps : PSet K)
    (entity : Option (Dim × Nat)) (n : Nat) (T : Tab K) (m : Nat),
    evaluate (mappedInterp F R) e order (ps, false) entity n ≠ .ok (T, m)
  | .leaf l, hc, order, ps, entity, n, T, m => by
    intro h
    have hc : F.mapped l ≠ none := hc
    have hs : (F.mapped l).isSome = true := by
      cases hx : F.mapped l with
      | none => exact absurd hx hc
      | some _ => rfl
    simp only [evaluate, mappedInterp, leafBasisWith, hs, Bool.not_false, Bool.and_true, if_true] at h
    cases h
  | .tensorProduct fs, hc, order, ps, entity, n, T, m => fun h =>
    product_lost F R fs order (fun qs ents h1 h2 => unmapped_failsZip fs hc order qs ents h1 h2) _ _ _ _ _ h
  | .flattened p, hc, order, ps, entity, n, T, m => by
    intro h
    simp only [evaluate] at h
    obtain ⟨ent, k, _, h2⟩ := bind_inv h
    exact unmapped_fails p hc _ _ _ _ _ _ h2
  | .enriched es, hc, order, ps, entity, n, T, m => by
    intro h
    simp only [evaluate] at h
    obtain ⟨tabs, k, h1, _⟩ := bind_inv h
    exact unmapped_failsL es hc _ _ _ _ _ _ h1
  | .mixedSub e _ _, hc, order, ps, entity, n, T, m => by
    intro h
    simp only [evaluate] at h
    obtain ⟨tabs, k, h1, _⟩ := bind_inv h
    exact unmapped_fails e hc _ _ _ _ _ _ h1
  | .discontinuous e, hc, order, ps, entity, n, T, m => by
    intro h
    simp only [evaluate] at h
    exact unmapped_fails e hc _ _ _ _ _ _ h
  | .tensorFE e _ _, hc, order, ps, entity, n, T, m => by
    intro h
    simp only [evaluate] at h
    obtain ⟨tabs, k, h1, _⟩ := bind_inv h
    exact unmapped_fails e hc _ _ _ _ _ _ h1
  | .hdiv w, hc, order, ps, entity, n, T, m => by
    intro h
    simp only [evaluate] at h
    obtain ⟨tabs, k, h1, _⟩ := bind_inv h
    exact unmapped_fails w hc _ _ _ _ _ _ h1
  | .hcurl w, hc, order, ps, entity, n, T, m => by
    intro h
    simp only [evaluate] at h
    obtain ⟨tabs, k, h1, _⟩ := bind_inv h
    exact unmapped_fails w hc _ _ _ _ _ _ h1
  | .quadrature _ _ _, hc, _, _, _, _, _, _ => by simp only [Contains] at hc
theorem unmapped_failsZip : ∀ (fs : List Elem), ContainsL (IsMapped F) fs → ∀ (order : Nat) (qs : List (PSet K))
    (ents : List (Dim × Nat)), qs.length = fs.length → ents.length = fs.length → ∀ (n : Nat) (Ts : List (Tab K)) (m : Nat),
    evaluateZip (mappedInterp F R) fs order (qs.map fun q => (q, false)) ents n ≠ .ok (Ts, m)
  | [], hc, _, _, _, _, _, _, _, _ => by simp only [ContainsL] at hc
  | f :: fs, hc, order, q :: qs, x :: ents, h1, h2, n, Ts, m => by
    intro h
    simp only [List.map_cons, evaluateZip] at h
    obtain ⟨T, k, h3, h⟩ := bind_inv h
    obtain ⟨Ts', k', h4, _⟩ := bind_inv h
    simp only [ContainsL] at hc
    rcases hc with hc | hc
    · exact unmapped_fails f hc _ _ _ _ _ _ h3
    · exact unmapped_failsZip fs hc order qs ents (by simpa using h1) (by simpa using h2) _ _ _ h4
  | f :: fs, _, _, [], _, h1, _, _, _, _ => by simp at h1
  | f :: fs, _, _, _ :: _, [], _, h2, _, _, _ => by simp at h2
theorem unmapped_failsL : ∀ (es : List Elem), ContainsL (IsMapped F) es → ∀ (order : Nat) (ps : PSet K)
    (entity : Option (Dim × Nat)) (n : Nat) (Ts : List (Tab K)) (m : Nat),
    evaluateL (mappedInterp F R) es order (ps, false) entity n ≠ .ok (Ts, m)
  | [], hc, _, _, _, _, _, _ => by simp only [ContainsL] at hc
  | e :: es, hc, order, ps, entity, n, Ts, m => by
    intro h
    simp only [evaluateL] at h
    obtain ⟨T, k, h3, h⟩ := bind_inv h
    obtain ⟨Ts', k', h4, _⟩ := bind_inv h
    simp only [ContainsL] at hc
    rcases hc with hc | hc
    · exact unmapped_fails e hc _ _ _ _ _ _ h3
    · exact unmapped_failsL es hc _ _ _ _ _ _ h4
end

mutual
theorem unreached_fails : ∀ (e : Elem), ¬ Reached (IsMapped F) e → ∀ (order : Nat) (p : PSet K × Bool)
    (entity : Option (Dim × Nat)) (n : Nat) (T : Tab K) (m : Nat),
    evaluate (mappedInterp F R) e order p entity n ≠ .ok (T, m)
  | .leaf l, hr, _, _, _, _, _, _ => by simp [Reached] at hr
  | .tensorProduct fs, hr, order, p, entity, n, T, m => by
    simp only [Reached, not_not] at hr
    exact product_lost F R fs order (fun qs ents h1 h2 => unmapped_failsZip F R fs hr order qs ents h1 h2) _ _ _ _ _
  | .flattened q, hr, order, p, entity, n, T, m => by
    intro h
    simp only [Reached, not_not] at hr
    simp only [evaluate] at h
    obtain ⟨ent, k, _, h2⟩ := bind_inv h
    exact unmapped_fails F R q hr _ _ _ _ _ _ h2
  | .enriched es, hr, order, ps, entity, n, T, m => by
    intro h
    simp only [Reached] at hr
    simp only [evaluate] at h
    obtain ⟨tabs, k, h1, _⟩ := bind_inv h
    exact unreached_failsL es hr _ _ _ _ _ _ h1
  | .mixedSub e _ _, hr, order, ps, entity, n, T, m => by
    intro h
    simp only [Reached] at hr
    simp only [evaluate] at h
    obtain ⟨tabs, k, h1, _⟩ := bind_inv h
    exact unreached_fails e hr _ _ _ _ _ _ h1
  | .discontinuous e, hr, order, ps, entity, n, T, m => by
    intro h
    simp only [Reached] at hr
    simp only [evaluate] at h
    exact unreached_fails e hr _ _ _ _ _ _ h
  | .tensorFE e _ _, hr, order, ps, entity, n, T, m => by
    intro h
    simp only [Reached] at hr
    simp only [evaluate] at h
    obtain ⟨tabs, k, h1, _⟩ := bind_inv h
    exact unreached_fails e hr _ _ _ _ _ _ h1
  | .hdiv w, hr, order, p, entity, n, T, m => by
    intro h
    simp only [Reached, not_not] at hr
    simp only [evaluate] at h
    obtain ⟨tabs, k, h1, _⟩ := bind_inv h
    exact unmapped_fails F R w hr _ _ _ _ _ _ h1
  | .hcurl w, hr, order, p, entity, n, T, m => by
    intro h
    simp only [Reached, not_not] at hr
    simp only [evaluate] at h
    obtain ⟨tabs, k, h1, _⟩ := bind_inv h
    exact unmapped_fails F R w hr _ _ _ _ _ _ h1
  | .quadrature _ _ _, hr, _, _, _, _, _, _ => by simp [Reached] at hr
theorem unreached_failsL : ∀ (es : List Elem), ¬ ReachedL (IsMapped F) es → ∀ (order : Nat) (p : PSet K × Bool)
    (entity : Option (Dim × Nat)) (n : Nat) (Ts : List (Tab K)) (m : Nat),
    evaluateL (mappedInterp F R) es order p entity n ≠ .ok (Ts, m)
  | [], hr, _, _, _, _, _, _ => by simp [ReachedL] at hr
  | e :: es, hr, order, ps, entity, n, Ts, m => by
    intro h
    simp only [evaluateL] at h
    obtain ⟨T, k, h3, h⟩ := bind_inv h
    obtain ⟨Ts', k', h4, _⟩ := bind_inv h
    simp only [ReachedL, not_and_or] at hr
    rcases hr with hr | hr
    · exact unreached_fails e hr _ _ _ _ _ _ h3
    · exact unreached_failsL es hr _ _ _ _ _ _ h4
end
end

/-! ### What is tabulated -/

section
variable [DecidableEq K] (F : Fiat K) (R : Rules K)

/-- `basis_evaluation` with a coordinate mapping satisfies the assumptions of the tree theorem. -/
def mappedSem : Sem (mappedInterp F R) (leafVals F R) where
  at_ p ρ := p.1.pointAt ρ
  valid p ρ := p.1.Valid ρ
  wf n p := PSet.WF n p.1
  leafOK l order p ent := (IsMapped F l → p.2 = true) ∧ LeafOK F l order p.1 ent
  quadOK r c ext order p ent := QuadOK R r c ext order p.1 ent
  local_at h ha := PSet.pointAt_local h ha
  local_valid h := PSet.valid_local h
  factor := by
    intro n p cs ds ps hw hf
    have h0 := hf 0
    simp only [mappedInterp] at h0
    obtain ⟨qs, k, h1, h2⟩ := bind_inv h0
    cases h2
    obtain ⟨h3, h4⟩ := PSet.factorPointSet_ok hw (liftE_inv h1).1
    refine ⟨?_, fun ρ hρ => ⟨?_, ?_⟩⟩
    · intro q hq
      obtain ⟨q', hq', rfl⟩ := List.mem_map.1 hq
      exact h3 _ hq'
    · intro q hq
      obtain ⟨q', hq', rfl⟩ := List.mem_map.1 hq
      exact (h4 ρ hρ).1 _ hq'
    · rw [List.map_map]
      exact (h4 ρ hρ).2
  forget h := ⟨h, fun _ hρ => ⟨hρ, rfl⟩⟩
  factor_forget _ _ _ := rfl
  leaf := by
    intro n m p l order entity hw hm hok
    have hif : ((F.mapped l).isSome && !p.2) = false := by
      cases hx : F.mapped l with
      | none => rfl
      | some M => simp [hok.1 (by simp [IsMapped, hx])]
    simp only [mappedInterp, leafBasisWith, hif, Bool.false_eq_true, if_false]
    refine (leafBasisEvaluation_spec hw hm hok.2).mono ?_
    rintro T m' ⟨h1, h2⟩
    refine ⟨h1, h2.congr rfl ?_⟩
    intro α ρ v _ hv _
    cases hv with
    | cons _ _ => simp [leafVals]
  quad := by
    intro n m p r c ext order entity hw hm hok
    exact quadBasisEvaluation_spec hw hm hok

/-- What a FIAT leaf has to satisfy to be tabulated on unstructured points of an entity, with a coordinate
mapping where one is needed. -/
def MappedLeafOK (order : Nat) (l : Leaf) : Prop :=
  ∀ p ent, IsEntity l.cell ent → PlainPoints p ent.1.total → LeafOK F l order p ent

omit [DecidableEq K] in
theorem mapped_prod (cs : List Cell) (ent : Dim × Nat) (p : PSet K × Bool) (hg : IsEntity (.prod cs) ent)
    (hq : PlainPoints p.1 ent.1.total) : ∃ ents ps,
      factorEntity cs (some ent) = .ok ents ∧ List.Forall₂ IsEntity cs ents ∧
      (∀ m, (mappedInterp F R).factor cs (ents.map Prod.fst) p m = .ok (ps, m)) ∧
      List.Forall₂ (fun (q : PSet K × Bool) (x : Dim × Nat) => PlainPoints q.1 x.1.total) ps ents := by
  obtain ⟨ents, h1, h2, h3⟩ := isEntity_factor hg
  rw [← h3] at hq
  obtain ⟨ps, h4, h5⟩ := plain_split h2.length_eq hq
  refine ⟨ents, ps.map fun q => (q, false), h1, h2, fun m => ?_, ?_⟩
  · simp only [mappedInterp, liftE, h4]; rfl
  · rw [List.forall₂_map_left_iff]; exact h5

mutual
theorem leaves_and {L : Leaf → Prop} {m : Leaf → Prop} : ∀ e, AllLeaves L e → ¬ Contains m e →
    AllLeaves (fun l => L l ∧ ¬ m l) e
  | .leaf l, h, hn => by
    simp only [AllLeaves] at h ⊢
    simp only [Contains] at hn
    exact ⟨h, hn⟩
  | .tensorProduct fs, h, hn => by
    simp only [AllLeaves] at h ⊢; simp only [Contains] at hn; exact leaves_andL fs h hn
  | .flattened p, h, hn => by
    simp only [AllLeaves] at h ⊢; simp only [Contains] at hn; exact leaves_and p h hn
  | .enriched es, h, hn => by
    simp only [AllLeaves] at h ⊢; simp only [Contains] at hn; exact leaves_andL es h hn
  | .mixedSub e _ _, h, hn => by
    simp only [AllLeaves] at h ⊢; simp only [Contains] at hn; exact leaves_and e h hn
  | .discontinuous e, h, hn => by
    simp only [AllLeaves] at h ⊢; simp only [Contains] at hn; exact leaves_and e h hn
  | .tensorFE e _ _, h, hn => by
    simp only [AllLeaves] at h ⊢; simp only [Contains] at hn; exact leaves_and e h hn
  | .hdiv w, h, hn => by
    simp only [AllLeaves] at h ⊢; simp only [Contains] at hn; exact leaves_and w h hn
  | .hcurl w, h, hn => by
    simp only [AllLeaves] at h ⊢; simp only [Contains] at hn; exact leaves_and w h hn
  | .quadrature _ _ _, h, _ => by simp only [AllLeaves] at h
theorem leaves_andL {L : Leaf → Prop} {m : Leaf → Prop} : ∀ es, AllLeavesL L es → ¬ ContainsL m es →
    AllLeavesL (fun l => L l ∧ ¬ m l) es
  | [], _, _ => by simp only [AllLeavesL]
  | e :: es, h, hn => by
    simp only [AllLeavesL] at h ⊢
    simp only [ContainsL, not_or] at hn
    exact ⟨leaves_and e h.1 hn.1, leaves_andL es h.2 hn.2⟩
end

/-- Trees without mapped leaves are admitted with and without a mapping. -/
theorem admits_unmapped (order : Nat) (e : Elem) (p : PSet K × Bool) (ent : Dim × Nat) (c : Cell)
    (hcube : Cubes e) (hl : AllLeaves (MappedLeafOK F order) e) (hn : ¬ Contains (IsMapped F) e)
    (hc : e.cell = .ok c) (hent : IsEntity c ent) (hp : PlainPoints p.1 ent.1.total) :
    Admits (mappedSem F R) order e p ent :=
  admits_of (mappedSem F R) order (fun p d => PlainPoints p.1 d) IsEntity (mapped_prod F R)
    (fun _ _ _ _ hc hcf hcube hg => isEntity_unflatten hc hcf hcube hg) (fun _ _ h => h)
    (fun l => MappedLeafOK F order l ∧ ¬ IsMapped F l)
    (fun _ p ent h hi hq => ⟨fun hm => absurd hm h.2, h.1 p.1 ent hi hq⟩)
    e p ent c hcube (leaves_and e hl hn) hc hent hp

mutual
theorem admits_reached (order : Nat) : ∀ (e : Elem) (p : PSet K) (ent : Dim × Nat) (c : Cell),
    Cubes e → AllLeaves (MappedLeafOK F order) e → Reached (IsMapped F) e → e.cell = .ok c → IsEntity c ent →
    PlainPoints p ent.1.total → Admits (mappedSem F R) order e (p, true) ent
  | .leaf l, p, ent, c, _, hl, _, hc, hg, hq => by
    simp only [Elem.cell, Except.ok.injEq] at hc
    subst hc
    simp only [Admits]
    exact ⟨fun _ => rfl, hl p ent hg hq⟩
  | .tensorProduct fs, p, ent, c, hcu, hl, hr, hc, hg, hq =>
    admits_unmapped F R order (.tensorProduct fs) (p, true) ent c hcu hl
      (by simpa only [Reached, Contains] using hr) hc hg hq
  | .flattened q, p, ent, c, hcu, hl, hr, hc, hg, hq =>
    admits_unmapped F R order (.flattened q) (p, true) ent c hcu hl
      (by simpa only [Reached, Contains] using hr) hc hg hq
  | .enriched es, p, ent, c, hcu, hl, hr, hc, hg, hq => by
    simp only [Admits]
    simp only [Elem.cell, bind, Except.bind] at hc
    cases hcs : Elem.cellL es with
    | error e => rw [hcs] at hc; cases hc
    | ok cs =>
      rw [hcs] at hc
      simp only [Reached] at hr
      exact admits_reachedL order es p ent cs c hcu hl hr hcs (uniqueOf_mem hc).2 hg hq
  | .mixedSub e _ _, p, ent, c, hcu, hl, hr, hc, hg, hq => by
    simp only [Admits]
    simp only [Reached] at hr
    exact admits_reached order e p ent c hcu hl hr hc hg hq
  | .discontinuous e, p, ent, c, hcu, hl, hr, hc, hg, hq => by
    simp only [Admits]
    simp only [Reached] at hr
    exact admits_reached order e p ent c hcu hl hr hc hg hq
  | .tensorFE e _ _, p, ent, c, hcu, hl, hr, hc, hg, hq => by
    simp only [Admits]
    simp only [Reached] at hr
    exact admits_reached order e p ent c hcu hl hr hc hg hq
  | .hdiv w, p, ent, c, hcu, hl, hr, hc, hg, hq =>
    admits_unmapped F R order (.hdiv w) (p, true) ent c hcu hl
      (by simpa only [Reached, Contains] using hr) hc hg hq
  | .hcurl w, p, ent, c, hcu, hl, hr, hc, hg, hq =>
    admits_unmapped F R order (.hcurl w) (p, true) ent c hcu hl
      (by simpa only [Reached, Contains] using hr) hc hg hq
  | .quadrature _ _ _, _, _, _, _, hl, _, _, _, _ => by
    simp only [AllLeaves] at hl
theorem admits_reachedL (order : Nat) : ∀ (es : List Elem) (p : PSet K) (ent : Dim × Nat) (cs : List Cell) (c : Cell),
    CubesL es → AllLeavesL (MappedLeafOK F order) es → ReachedL (IsMapped F) es → Elem.cellL es = .ok cs →
    (∀ c' ∈ cs, c' = c) → IsEntity c ent →
    PlainPoints p ent.1.total → AdmitsL (mappedSem F R) order es (p, true) ent
  | [], _, _, _, _, _, _, _, _, _, _, _ => by simp only [AdmitsL]
  | e :: es, p, ent, cs, c, hcu, hl, hr, hc, hall, hg, hq => by
    obtain ⟨c1, cs', h1, h2, rfl⟩ := cellL_cons hc
    simp only [CubesL] at hcu
    simp only [AllLeavesL] at hl
    simp only [ReachedL] at hr
    have h3 := hall c1 List.mem_cons_self
    simp only [AdmitsL]
    exact ⟨admits_reached order e p ent c hcu.1 hl.1 hr.1 (h3 ▸ h1) hg hq,
      admits_reachedL order es p ent cs' c hcu.2 hl.2 hr.2 h2 (fun c' h => hall c' (List.mem_cons_of_mem _ h)) hg hq⟩
end
end

end FInAT
