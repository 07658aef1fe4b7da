import Verif.Lemmas.Mapping

/-!
# Evaluation commutes with maps of points; failures travel up
-/

namespace FInAT

open Spec Elem Props

variable {K P Q : Type} [CommRing K]

/-- The second interpretation does to `f p` what the first does to `p`. -/
structure Interp.Maps (I : Interp K P) (J : Interp K Q) (f : P → Q) : Prop where
  factor : ∀ cs ds p n, J.factor cs ds (f p) n = (I.factor cs ds p n).map fun r => (r.1.map f, r.2)
  forget : ∀ p, J.forget (f p) = f (I.forget p)
  leafTab : ∀ l order p entity, J.leafTab l order (f p) entity = I.leafTab l order p entity
  quadTab : ∀ r c ext order p entity, J.quadTab r c ext order (f p) entity = I.quadTab r c ext order p entity

variable {I : Interp K P} {J : Interp K Q} {f : P → Q}

mutual
theorem evaluate_maps (h : I.Maps J f) : ∀ (e : Elem) (order : Nat) (p : P) (entity : Option (Dim × Nat)),
    evaluate J e order (f p) entity = evaluate I e order p entity
  | .leaf l, order, p, entity => by simp only [evaluate]; exact h.leafTab ..
  | .tensorProduct fs, order, p, entity => by
    simp only [evaluate]
    congr 1; funext cs; congr 1; funext ents
    funext n
    show (J.factor cs _ (f p) n >>= fun r => _) = (I.factor cs _ p n >>= fun r => _)
    rw [h.factor]
    cases I.factor cs (ents.map Prod.fst) p n with
    | error e => rfl
    | ok r =>
      simp only [Except.map, bind, Except.bind]
      rw [evaluateZip_maps h fs]
  | .flattened q, order, p, entity => by
    simp only [evaluate, h.forget, evaluate_maps h q]
  | .enriched es, order, p, entity => by
    simp only [evaluate, evaluateL_maps h es]
  | .mixedSub e _ _, order, p, entity => by simp only [evaluate, evaluate_maps h e]
  | .discontinuous e, order, p, entity => by simp only [evaluate, evaluate_maps h e]
  | .tensorFE e _ _, order, p, entity => by simp only [evaluate, evaluate_maps h e]
  | .hdiv w, order, p, entity => by simp only [evaluate, h.forget, evaluate_maps h w]
  | .hcurl w, order, p, entity => by simp only [evaluate, h.forget, evaluate_maps h w]
  | .quadrature _ _ _, order, p, entity => by simp only [evaluate]; exact h.quadTab ..
theorem evaluateZip_maps (h : I.Maps J f) : ∀ (fs : List Elem) (order : Nat) (ps : List P) (ents : List (Dim × Nat)),
    evaluateZip J fs order (ps.map f) ents = evaluateZip I fs order ps ents
  | [], _, ps, ents => by cases ps <;> cases ents <;> simp only [evaluateZip, List.map_nil, List.map_cons]
  | e :: es, order, [], ents => by cases ents <;> simp only [evaluateZip, List.map_nil]
  | e :: es, order, p :: ps, [] => by simp only [evaluateZip, List.map_cons]
  | e :: es, order, p :: ps, x :: ents => by
    simp only [evaluateZip, List.map_cons, evaluate_maps h e, evaluateZip_maps h es]
theorem evaluateL_maps (h : I.Maps J f) : ∀ (es : List Elem) (order : Nat) (p : P) (entity : Option (Dim × Nat)),
    evaluateL J es order (f p) entity = evaluateL I es order p entity
  | [], _, _, _ => by simp only [evaluateL]
  | e :: es, order, p, entity => by simp only [evaluateL, evaluate_maps h e, evaluateL_maps h es]
end

/-- A call without a coordinate mapping is a call with the mapping `None`. -/
theorem basis_maps (F : Fiat K) (R : Rules K) : (basisInterp F R).Maps (mappedInterp F R) (fun p => (p, false)) where
  factor cs ds p n := by
    show (liftE (factorPointSet cs ds p) >>= fun ps => pure (ps.map fun q => (q, false))) n = _
    show _ = (liftE (factorPointSet cs ds p) n).map _
    cases factorPointSet cs ds p <;> rfl
  forget p := rfl
  leafTab l order p entity := rfl
  quadTab r c ext order p entity := rfl

/-! ### Quadrature elements at points -/

theorem mapM_run_length {α β : Type} (g : α → M β) : ∀ (l : List α) (n m : Nat) (r : List β),
    l.mapM g n = .ok (r, m) → r.length = l.length
  | [], n, m, r, h => by cases h; rfl
  | a :: as, n, m, r, h => by
    rw [List.mapM_cons] at h
    obtain ⟨b, k, _, h⟩ := bind_inv h
    obtain ⟨bs, k', h2, h⟩ := bind_inv h
    cases h
    rw [List.length_cons, List.length_cons, mapM_run_length g as _ _ _ h2]

theorem factorPoint_length {cs : List Cell} {ds : List Dim} {p : Gem K} {n m : Nat} {r : List (Gem K)}
    (h : factorPoint cs ds p n = .ok (r, m)) : r.length = ds.length := by
  unfold factorPoint at h
  obtain ⟨_, k, _, h⟩ := bind_inv h
  obtain ⟨_, k', _, h⟩ := bind_inv h
  rw [mapM_run_length _ _ _ _ _ h, splitLens_length, List.length_map]

mutual
/-- A tree with a part that cannot be evaluated cannot be evaluated. -/
theorem part_fails (hq : ∀ r c ext order p entity n T m, I.quadTab r c ext order p entity n ≠ .ok (T, m))
    (hlen : ∀ cs ds p n r m, I.factor cs ds p n = .ok (r, m) → r.length = ds.length) :
    ∀ (e : Elem), Spec.HasQuadrature e → ∀ (order : Nat) (p : P) (entity : Option (Dim × Nat)) (n : Nat)
      (T : Tab K) (m : Nat), evaluate I e order p entity n ≠ .ok (T, m)
  | .leaf _, hc, _, _, _, _, _, _ => by simp only [Spec.HasQuadrature] at hc
  | .tensorProduct fs, hc, order, p, entity, n, T, m => by
    intro h
    simp only [evaluate] at h
    obtain ⟨cs, k1, h1, h⟩ := bind_inv h
    obtain ⟨ents, k2, h2, h⟩ := bind_inv h
    obtain ⟨pss, k3, h3, h⟩ := bind_inv h
    obtain ⟨frs, k4, h4, _⟩ := bind_inv h
    have e1 := cellL_length (liftE_inv h1).1
    have e2 := factorEntity_length (liftE_inv h2).1
    have e3 := hlen _ _ _ _ _ _ h3
    rw [List.length_map] at e3
    exact part_failsZip hq hlen fs hc order pss ents (by omega) (by omega) _ _ _ h4
  | .flattened q, hc, order, p, entity, n, T, m => by
    intro h
    simp only [evaluate] at h
    obtain ⟨ent, k, _, h2⟩ := bind_inv h
    exact part_fails hq hlen q hc _ _ _ _ _ _ h2
  | .enriched es, hc, order, p, entity, n, T, m => by
    intro h
    simp only [evaluate] at h
    obtain ⟨tabs, k, h1, _⟩ := bind_inv h
    exact part_failsL hq hlen es hc _ _ _ _ _ _ h1
  | .mixedSub e _ _, hc, order, p, entity, n, T, m => by
    intro h
    simp only [evaluate] at h
    obtain ⟨tabs, k, h1, _⟩ := bind_inv h
    exact part_fails hq hlen e hc _ _ _ _ _ _ h1
  | .discontinuous e, hc, order, p, entity, n, T, m => by
    intro h
    simp only [evaluate] at h
    exact part_fails hq hlen e hc _ _ _ _ _ _ h
  | .tensorFE e _ _, hc, order, p, entity, n, T, m => by
    intro h
    simp only [evaluate] at h
    obtain ⟨tabs, k, h1, _⟩ := bind_inv h
    exact part_fails hq hlen e hc _ _ _ _ _ _ h1
  | .hdiv w, hc, order, p, entity, n, T, m => by
    intro h
    simp only [evaluate] at h
    obtain ⟨tabs, k, h1, _⟩ := bind_inv h
    exact part_fails hq hlen w hc _ _ _ _ _ _ h1
  | .hcurl w, hc, order, p, entity, n, T, m => by
    intro h
    simp only [evaluate] at h
    obtain ⟨tabs, k, h1, _⟩ := bind_inv h
    exact part_fails hq hlen w hc _ _ _ _ _ _ h1
  | .quadrature _ _ _, _, order, p, entity, n, T, m => by
    simp only [evaluate]
    exact hq _ _ _ _ _ _ _ _ _
theorem part_failsZip (hq : ∀ r c ext order p entity n T m, I.quadTab r c ext order p entity n ≠ .ok (T, m))
    (hlen : ∀ cs ds p n r m, I.factor cs ds p n = .ok (r, m) → r.length = ds.length) :
    ∀ (fs : List Elem), Spec.HasQuadratureL fs → ∀ (order : Nat) (ps : List P) (ents : List (Dim × Nat)),
      ps.length = fs.length → ents.length = fs.length → ∀ (n : Nat) (Ts : List (Tab K)) (m : Nat),
      evaluateZip I fs order ps ents n ≠ .ok (Ts, m)
  | [], hc, _, _, _, _, _, _, _, _ => by simp only [Spec.HasQuadratureL] at hc
  | f :: fs, hc, order, q :: qs, x :: ents, h1, h2, n, Ts, m => by
    intro h
    simp only [evaluateZip] at h
    obtain ⟨T, k, h3, h⟩ := bind_inv h
    obtain ⟨Ts', k', h4, _⟩ := bind_inv h
    simp only [Spec.HasQuadratureL] at hc
    rcases hc with hc | hc
    · exact part_fails hq hlen f hc _ _ _ _ _ _ h3
    · exact part_failsZip hq hlen fs hc order qs ents (by simpa using h1) (by simpa using h2) _ _ _ h4
  | f :: fs, _, _, [], _, h1, _, _, _, _ => by simp at h1
  | f :: fs, _, _, _ :: _, [], _, h2, _, _, _ => by simp at h2
theorem part_failsL (hq : ∀ r c ext order p entity n T m, I.quadTab r c ext order p entity n ≠ .ok (T, m))
    (hlen : ∀ cs ds p n r m, I.factor cs ds p n = .ok (r, m) → r.length = ds.length) :
    ∀ (es : List Elem), Spec.HasQuadratureL es → ∀ (order : Nat) (p : P) (entity : Option (Dim × Nat)) (n : Nat)
      (Ts : List (Tab K)) (m : Nat), evaluateL I es order p entity n ≠ .ok (Ts, m)
  | [], hc, _, _, _, _, _, _ => by simp only [Spec.HasQuadratureL] at hc
  | e :: es, hc, order, p, entity, n, Ts, m => by
    intro h
    simp only [evaluateL] at h
    obtain ⟨T, k, h3, h⟩ := bind_inv h
    obtain ⟨Ts', k', h4, _⟩ := bind_inv h
    simp only [Spec.HasQuadratureL] at hc
    rcases hc with hc | hc
    · exact part_fails hq hlen e hc _ _ _ _ _ _ h3
    · exact part_failsL hq hlen es hc _ _ _ _ _ _ h4
end

end FInAT
