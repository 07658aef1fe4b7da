import Verif.Lemmas.DualLeaf
import Verif.Lemmas.TabTree

/-!
# The dual basis tensors compute the functionals
-/

namespace FInAT

open Spec Elem

variable {K : Type}

namespace PSet

mutual
theorem pointAt_congr : ∀ (p : PSet K) {ρ ρ' : Env},
    p.indices.map (fun i => ρ i.id) = p.indices.map (fun i => ρ' i.id) → p.pointAt ρ = p.pointAt ρ'
  | .singleton p, ρ, ρ', _ => rfl
  | .points c pts idx, ρ, ρ', h => by
    simp only [indices] at h
    simp only [pointAt, h]
  | .unknown pts d idx, ρ, ρ', h => by
    simp only [indices, List.map_cons, List.map_nil, List.cons.injEq, and_true] at h
    simp only [pointAt, h]
  | .tensor fs, ρ, ρ', h => by
    simp only [indices] at h
    simp only [pointAt]
    exact pointAtL_congr fs h
theorem pointAtL_congr : ∀ (ps : List (PSet K)) {ρ ρ' : Env},
    (indicesL ps).map (fun i => ρ i.id) = (indicesL ps).map (fun i => ρ' i.id) → pointAtL ρ ps = pointAtL ρ' ps
  | [], ρ, ρ', _ => rfl
  | p :: ps, ρ, ρ', h => by
    simp only [indicesL, List.map_append] at h
    obtain ⟨h1, h2⟩ := List.append_inj h (by simp)
    simp only [pointAtL, pointAt_congr p h1, pointAtL_congr ps h2]
end

mutual
theorem WF.mono : ∀ {p : PSet K} {n m : Nat}, WF n p → n ≤ m → WF m p
  | .singleton p, n, m, _, _ => by simp only [WF]
  | .points c pts idx, n, m, h, hm => by
    simp only [WF] at h ⊢
    exact ⟨fun i hi => Nat.lt_of_lt_of_le (h.1 i hi) hm, h.2⟩
  | .unknown pts d idx, n, m, h, hm => by
    simp only [WF] at h ⊢
    exact ⟨Nat.lt_of_lt_of_le h.1 hm, h.2⟩
  | .tensor fs, n, m, h, hm => by
    simp only [WF] at h ⊢
    exact WFL.mono h hm
theorem WFL.mono : ∀ {ps : List (PSet K)} {n m : Nat}, WFL n ps → n ≤ m → WFL m ps
  | [], n, m, _, _ => by simp only [WFL]
  | p :: ps, n, m, h, hm => by
    simp only [WFL] at h ⊢
    exact ⟨WF.mono h.1 hm, WFL.mono h.2 hm⟩
end

/-- The point at a multi-index. -/
def at_ (p : PSet K) (v : List Nat) : List K := p.pointAt (bindIx (fun _ => 0) p.indices v)
/-- ... for lists. -/
def atL (ps : List (PSet K)) (v : List Nat) : List K := pointAtL (bindIx (fun _ => 0) (indicesL ps) v) ps

theorem at_eq {p : PSet K} (hn : (p.indices.map Index.id).Nodup) {ρ : Env} {v : List Nat}
    (h : p.indices.map (fun i => ρ i.id) = v) : p.pointAt ρ = p.at_ v := by
  apply pointAt_congr
  rw [map_bindIx _ hn (by rw [← h]; simp), h]

theorem atL_eq {ps : List (PSet K)} (hn : ((indicesL ps).map Index.id).Nodup) {ρ : Env} {v : List Nat}
    (h : (indicesL ps).map (fun i => ρ i.id) = v) : pointAtL ρ ps = atL ps v := by
  apply pointAtL_congr
  rw [map_bindIx _ hn (by rw [← h]; simp), h]

theorem valid_bindIx {idx : List Index} (hn : (idx.map Index.id).Nodup) {v : List Nat} (ρ : Env)
    (hv : InB v (idx.map Index.extent)) : ∀ i ∈ idx, bindIx ρ idx v i.id < i.extent := by
  have h := map_bindIx ρ hn (show v.length = idx.length by rw [hv.length]; simp)
  intro i hi
  obtain ⟨k, hk, rfl⟩ := List.mem_iff_getElem.1 hi
  have h1 : bindIx ρ idx v idx[k].id = v[k]'(by rw [hv.length]; simpa using hk) := by
    have := List.getElem_of_eq h (i := k) (by simpa using hk)
    simpa using this
  rw [h1]
  have := List.Forall₂.get hv (i := k) (by rw [hv.length]; simpa using hk) (by simpa using hk)
  simpa using this

theorem atL_cons {p : PSet K} {ps : List (PSet K)} (hn : ((indicesL (p :: ps)).map Index.id).Nodup)
    {v w : List Nat} (hv : v.length = p.indices.length) (hw : w.length = (indicesL ps).length) :
    atL (p :: ps) (v ++ w) = p.at_ v ++ atL ps w := by
  have hb := map_bindIx (fun _ => 0) hn (v := v ++ w) (by simp [indicesL, hv, hw])
  simp only [indicesL, List.map_append] at hb hn
  obtain ⟨h1, h2⟩ := List.append_inj hb (by simp [hv])
  rw [List.nodup_append] at hn
  rw [atL, pointAtL]
  congr 1
  · exact at_eq hn.1 h1
  · exact atL_eq hn.2.1 h2

end PSet

variable [CommRing K]

/-- What a successful `dual_basis` gives: `Q` has shape `is ++ vs` and, contracted over the points and
components with the values of a function, gives the functionals `L`. -/
structure DualDen (Q : Gem K) (ps : PSet K) (n n' : Nat) (qi : List Nat) (is vs : List Nat)
    (L : List Nat → (List K → List Nat → K) → K) : Prop where
  nodup : (ps.indices.map Index.id).Nodup
  ids : ∀ i ∈ ps.indices, (n ≤ i.id ∧ i.id < n') ∨ i.id ∈ qi
  wf : ps.WF n'
  contract : ∃ G : List Nat → List Nat → K,
    Den ps.Valid Q (is ++ vs) (fun ρ v => G (ps.indices.map fun i => ρ i.id) v) ∧
    ∀ i f, InB i is → (lsum (ndindex (ps.indices.map Index.extent)) fun v =>
      lsum (ndindex vs) fun z => G v (i ++ z) * f (ps.at_ v) z) = L i f

/-! ### FIAT elements -/

section leaf
variable [DecidableEq K]

omit [DecidableEq K] in
theorem weightTensor_spec {isOne : K → Bool} (h1 : ∀ w, isOne w = true → w = 1) {Q : Dict (List Nat) K}
    (hn : Q.keys.Nodup) (hne : Q.keys ≠ []) {d k : Nat} {vs : List Nat}
    (hb : ∀ x ∈ Q.keys, InB x (d :: k :: vs))
    (hat : ∀ a < (d :: k :: vs).length, ∃ x ∈ Q.keys, x[a]? = some (((d :: k :: vs)[a]?).getD 0 - 1))
    (hrow : ∀ a < d, ∃ x ∈ Q.keys, x[0]? = some a) (n : Nat) :
    Runs (weightTensor isOne Q) n fun r n' => n ≤ n' ∧
      Den (fun _ => True) r (d :: k :: vs) fun _ v => (Q.get? v).getD 0 := by
  have hsh := colMax_shape hne hb hat
  unfold weightTensor
  split
  · next hid =>
    simp only [isIdentity, List.all_eq_true] at hid
    have hdiag : ∀ p ∈ Q, ∃ a, p.1 = [a, a] ∧ p.2 = 1 := by
      intro p hp
      have := hid p hp
      split at this
      · next a b he =>
        simp only [Bool.and_eq_true, decide_eq_true_eq] at this
        exact ⟨a, by rw [he, this.1], h1 _ this.2⟩
      · cases this
    rw [hsh]
    have hvs : vs = [] := by
      cases hq : Q with
      | nil => rw [hq] at hne; exact absurd rfl hne
      | cons p Q' =>
        obtain ⟨a, ha, _⟩ := hdiag p (by rw [hq]; exact List.mem_cons_self)
        have := (hb p.1 (List.mem_map_of_mem (by rw [hq]; exact List.mem_cons_self))).length
        rw [ha] at this
        simpa using this
    subst hvs
    apply Runs.bind
    apply Runs.freshIndices
    intro js n1 hf he
    match js, hf, he with
    | [a, b], hf, he =>
      simp only []
      apply Runs.mkComponentTensor (by simp [Gem.shape])
      intro r hr1 hr2
      refine ⟨hf.2.2, by rw [hr1, he], fun ρ v _ hv => ?_⟩
      have hbi := map_bindIx ρ hf.1 (v := v) (by rw [hv.length]; rfl)
      rw [hr2 ρ v (by rw [hv.length]; rfl)]
      cases hv with
      | @cons i _ t _ hi ht =>
      cases ht with
      | @cons j _ t' _ hj ht' =>
      cases ht'
      simp only [List.map_cons, List.map_nil, List.cons.injEq, and_true] at hbi
      rw [Gem.eval, hbi.1, hbi.2]
      by_cases hij : i = j
      · subst hij
        rw [if_pos rfl]
        obtain ⟨x, hx, hx0⟩ := hrow i hi
        obtain ⟨p, hp, rfl⟩ := List.mem_map.1 hx
        obtain ⟨a', ha', hw⟩ := hdiag p hp
        rw [ha'] at hx0
        simp only [List.getElem?_cons_zero, Option.some.injEq] at hx0
        subst hx0
        rw [← ha', Dict.get?_eq_some_of_mem hn (v := p.2) hp, hw]
        rfl
      · rw [if_neg hij]
        cases hg : Q.get? [i, j] with
        | none => rfl
        | some w =>
          obtain ⟨a', ha', _⟩ := hdiag _ (Dict.mem_of_get?_eq_some hg)
          simp only [List.cons.injEq, and_true] at ha'
          exact absurd (ha'.1.trans ha'.2.symm) hij
    | [], _, he => simp at he
    | [_], _, he => simp at he
    | _ :: _ :: _ :: _, _, he => simp at he
  · simp only [hsh]
    rw [if_pos]
    · exact Runs.pure ⟨Nat.le_refl _, by simp [Gem.shape], fun ρ v _ _ => by simp [Gem.eval]⟩
    · simp only [List.all_eq_true, decide_eq_true_eq]
      exact fun x hx => (hb x hx).length

theorem leafDual_spec {D : FiatDual K} {R : Rules K} (h1 : ∀ w, D.isOne w = true → w = 1) {l : Leaf}
    (hok : DualOK D R n0 (.leaf l)) (n : Nat) :
    Runs (leafDualBasis D l) n fun r n' => n ≤ n' ∧
      DualDen r.1 r.2 n n' [] [l.fns.length] l.valueShape
        (fun i f => (fiatDuals D R).leaf l (i.headD 0) f) := by
  simp only [DualOK] at hok
  obtain ⟨hN, hlen, dpt, hdpt⟩ := hok
  unfold leafDualBasis
  obtain ⟨st, hst, hseen, hkeys, hpts, hcov⟩ := collect_spec D.le (D.nodes l) ([], [])
    (by intro pts r hr; simp [Dict.get?] at hr) hN.noDeriv (by simp)
  have hst' : collectPoints D.le (D.nodes l) = .ok st := hst
  have hin : ∀ nd ∈ D.nodes l, sortBy D.le nd.ptDict.keys ∈ st.1.keys :=
    fun nd hm => (hkeys _).2 (.inr ⟨nd, hm, rfl⟩)
  have hnod := allEntries_nodup (le := D.le) (seen := st.1) hN
  have hget : ∀ nd ∈ D.nodes l, ∃ r, st.1.get? (sortBy D.le nd.ptDict.keys) = some r ∧
      r.2 = r.1 + (sortBy D.le nd.ptDict.keys).length := by
    intro nd hm
    obtain ⟨r, hr⟩ := Option.isSome_iff_exists.1 (Dict.get?_isSome_iff.2 (hin nd hm))
    exact ⟨r, hr, (hseen _ _ hr).1⟩
  have hq := buildQ_eq D.le st.1 (D.nodes l) hget hnod
  set Q := allEntries D.le st.1 (enumFrom 0 (D.nodes l)) with hQ
  apply Runs.bind
  refine Runs.liftE hst' ?_
  apply Runs.bind
  refine Runs.liftE hq ?_
  -- the position of an entry
  have hpos : ∀ nd ∈ D.nodes l, ∀ (j : Nat) (pt : List K), (sortBy D.le nd.ptDict.keys)[j]? = some pt →
      kstart D.le st.1 nd + j < st.2.length := by
    intro nd hm j pt hj
    obtain ⟨r, hr, _⟩ := hget nd hm
    have := (hseen _ _ hr).2 j (List.getElem?_eq_some_iff.1 hj).1
    rw [hj] at this
    have h' := (List.getElem?_eq_some_iff.1 this).1
    simpa [kstart, hr] using h'
  have hbnd : ∀ x ∈ Q.keys, InB x ((D.nodes l).length :: st.2.length :: l.valueShape) := by
    intro x hx
    obtain ⟨e, he, rfl⟩ := List.mem_map.1 hx
    rw [hQ, mem_allEntries] at he
    obtain ⟨i, nd, j, pt, wc, hi, hj, hw, rfl⟩ := he
    have hm := List.mem_of_getElem? hi
    obtain ⟨ws, hws, _, _, hwin⟩ := nodesOK_get hN hm (mem_of_sorted hj)
    rw [hws] at hw
    exact .cons (List.getElem?_eq_some_iff.1 hi).1 (.cons (hpos nd hm j pt hj) (hwin wc hw))
  have hex : ∀ (i : Nat) (nd : Node K), (D.nodes l)[i]? = some nd → ∀ (j : Nat) (pt : List K), (sortBy D.le nd.ptDict.keys)[j]? = some pt →
      ∀ wc ∈ (nd.ptDict.get? pt).getD [], (i :: (kstart D.le st.1 nd + j) :: wc.2) ∈ Q.keys := by
    intro i nd hi j pt hj wc hwc
    refine List.mem_map.2 ⟨_, mem_allEntries.2 ⟨i, nd, j, pt, wc, hi, hj, hwc, rfl⟩, rfl⟩
  have hsome : ∀ nd ∈ D.nodes l, ∀ (j : Nat) (pt : List K), (sortBy D.le nd.ptDict.keys)[j]? = some pt →
      ∃ wc, wc ∈ (nd.ptDict.get? pt).getD [] := by
    intro nd hm j pt hj
    obtain ⟨ws, hws, hne, _⟩ := nodesOK_get hN hm (mem_of_sorted hj)
    rw [hws]
    exact List.exists_mem_of_ne_nil _ hne
  have hfirst : ∀ nd ∈ D.nodes l, ∃ pt, (sortBy D.le nd.ptDict.keys)[0]? = some pt := by
    intro nd hm
    have hl : (sortBy D.le nd.ptDict.keys).length = nd.ptDict.length := by
      rw [(sortBy_perm D.le _).length_eq]; simp [Dict.keys]
    have : 0 < nd.ptDict.length := List.length_pos_iff.2 (hN.points nd hm).1
    exact ⟨_, List.getElem?_eq_getElem (by omega)⟩
  have hrow : ∀ a < (D.nodes l).length, ∃ x ∈ Q.keys, x[0]? = some a := by
    intro a ha
    have hm : (D.nodes l)[a] ∈ D.nodes l := List.getElem_mem ha
    obtain ⟨pt, hpt⟩ := hfirst _ hm
    obtain ⟨wc, hwc⟩ := hsome _ hm 0 pt hpt
    exact ⟨_, hex a _ (List.getElem?_eq_getElem ha) 0 pt hpt wc hwc, rfl⟩
  have hdpos : 0 < (D.nodes l).length := List.length_pos_iff.2 hN.nonempty
  have hkpos : 0 < st.2.length := by
    have hm : (D.nodes l)[0] ∈ D.nodes l := List.getElem_mem hdpos
    obtain ⟨pt, hpt⟩ := hfirst _ hm
    have := hpos _ hm 0 pt hpt
    omega
  have hQne : Q.keys ≠ [] := by
    obtain ⟨x, hx, _⟩ := hrow 0 hdpos
    exact List.ne_nil_of_mem hx
  have hat : ∀ a < ((D.nodes l).length :: st.2.length :: l.valueShape).length, ∃ x ∈ Q.keys,
      x[a]? = some ((((D.nodes l).length :: st.2.length :: l.valueShape)[a]?).getD 0 - 1) := by
    intro a ha
    match a with
    | 0 =>
      obtain ⟨x, hx, he⟩ := hrow ((D.nodes l).length - 1) (by omega)
      exact ⟨x, hx, by simpa using he⟩
    | 1 =>
      obtain ⟨pts, r, hr, hr1, hr2⟩ := hcov (st.2.length - 1) (by omega)
      have hkm : pts ∈ st.1.keys := by rw [← Dict.get?_isSome_iff, hr]; rfl
      rcases (hkeys pts).1 hkm with h | ⟨nd, hm, rfl⟩
      · simp [Dict.keys] at h
      obtain ⟨i, hi⟩ := List.getElem?_of_mem hm
      obtain ⟨j, hj⟩ : ∃ j, st.2.length - 1 = r.1 + j := ⟨st.2.length - 1 - r.1, by omega⟩
      have hjl : j < (sortBy D.le nd.ptDict.keys).length := by
        have := (hseen _ _ hr).1; omega
      have hj' := List.getElem?_eq_getElem hjl
      obtain ⟨wc, hwc⟩ := hsome nd hm j _ hj'
      refine ⟨_, hex i nd hi j _ hj' wc hwc, ?_⟩
      simp [kstart, hr, ← hj]
    | a + 2 =>
      obtain ⟨nd, hm, p, hp, wc, hwc, he⟩ := hN.attained a (by simpa using ha)
      obtain ⟨i, hi⟩ := List.getElem?_of_mem hm
      have hpk : p.1 ∈ sortBy D.le nd.ptDict.keys :=
        (sortBy_perm D.le _).mem_iff.2 (List.mem_map_of_mem hp)
      obtain ⟨j, hj⟩ := List.getElem?_of_mem hpk
      have hg : nd.ptDict.get? p.1 = some p.2 := Dict.get?_eq_some_of_mem (hN.points nd hm).2 hp
      exact ⟨_, hex i nd hi j p.1 hj wc (by rw [hg]; exact hwc), by simpa using he⟩
  apply Runs.bind
  refine (weightTensor_spec h1 hnod hQne hbnd hat hrow n).mono ?_
  rintro T n1 ⟨hn1, hT⟩
  apply Runs.bind
  apply Runs.freshIndices
  intro x n2 hx ex
  simp only [hT.shape]
  apply Runs.bind
  apply Runs.assertM (by simp)
  apply Runs.bind
  apply Runs.freshIndices
  intro ij n3 hij eij
  obtain ⟨x0, rfl⟩ : ∃ x0, x = [x0] := by
    match x, ex with
    | [x0], _ => exact ⟨x0, rfl⟩
    | [], h => simp at h
    | _ :: _ :: _, h => simp at h
  obtain ⟨i0, jt, rfl⟩ : ∃ i0 jt, ij = i0 :: jt := by
    cases ij with
    | nil => simp at eij
    | cons i0 jt => exact ⟨i0, jt, rfl⟩
  simp only [List.map_cons, List.map_nil, List.cons.injEq, and_true] at ex eij
  apply Runs.bind
  apply Runs.mkIndexed
  · rw [hT.shape]
    exact fitsShape_free (by simp [ex, eij])
  intro e he1 he2
  apply Runs.bind
  apply Runs.mkComponentTensor he1
  intro r hr1 hr2
  have hx0 := hx.2.1 x0 List.mem_cons_self
  refine Runs.pure ⟨by have := hx.2.2; have := hij.2.2; omega, ?_, ?_, ?_, ?_⟩
  · simp [PSet.indices]
  · intro i hi
    simp only [PSet.indices, List.mem_singleton] at hi
    subst hi
    left
    exact ⟨by omega, Nat.lt_of_lt_of_le hx0.2 hij.2.2⟩
  · simp only [PSet.WF]
    refine ⟨?_, by simp [ex], dpt, ?_⟩
    · intro i hi
      simp only [List.mem_singleton] at hi
      subst hi
      exact Nat.lt_of_lt_of_le hx0.2 hij.2.2
    · intro pt hpt
      rcases hpts pt hpt with h | ⟨nd, hm, h⟩
      · simp at h
      · exact hdpt nd hm pt h
  · refine ⟨fun p v => (Q.get? (v.take 1 ++ p ++ v.drop 1)).getD 0, ⟨?_, ?_⟩, ?_⟩
    · rw [hr1]; simp [eij, hlen]
    · intro ρ v hV hv
      have hvl : v.length = (i0 :: jt).length := by
        have h2 : jt.length = l.valueShape.length := by rw [← eij.2]; simp
        rw [hv.length]; simp [h2]
      rw [hr2 ρ v hvl, he2, map_val_free]
      have hbi := map_bindIx ρ hij.1 hvl
      have hag := bindIx_agree hij v ρ
      simp only [List.map_append, List.map_take, List.map_drop] 
      rw [hbi]
      have hxe : [x0].map (fun i => bindIx ρ (i0 :: jt) v i.id) = [x0].map fun i => ρ i.id :=
        hag.map fun i hi => (hx.2.1 i hi).2
      rw [hxe]
      simp only [PSet.indices]
      refine hT.val _ _ trivial ?_
      have hvx : ρ x0.id < x0.extent := hV x0 (by simp [PSet.indices])
      cases hv with
      | @cons a _ t _ ha ht =>
      simp only [List.take_succ_cons, List.take_zero, List.drop_succ_cons, List.drop_zero,
        List.map_cons, List.map_nil, List.singleton_append]
      exact .cons (by rw [hlen]; exact ha) (.cons (by rw [← ex]; exact hvx) ht)
    · intro i f hi
      cases hi with
      | @cons a _ t _ ha ht =>
      cases ht
      have hal : a < (D.nodes l).length := by omega
      have hai := List.getElem?_eq_getElem hal
      simp only [PSet.indices, List.map_cons, List.map_nil, ex, lsum_ndindex_one]
      have := contract_entries (le := D.le) hN hseen hin hai f
      simp only [fiatDuals, List.headD_cons, hai]
      rw [← this]
      refine lsum_congr fun k hk => lsum_congr fun z _ => ?_
      simp only [List.take_succ_cons, List.take_zero, List.drop_succ_cons,
        List.drop_zero, List.cons_append, List.nil_append]
      congr 2
      simp [PSet.at_, PSet.pointAt, PSet.indices, bindIx, ex, ravel]

end leaf

/-! ### Quadrature elements -/

theorem quadDual_spec {D : FiatDual K} {R : Rules K} {r : Nat} {c : Cell} {ext : List Nat} {n0 n : Nat}
    (hok : DualOK D R n0 (.quadrature r c ext)) (hn : n0 ≤ n)
    (hnd : (quadIds R (.quadrature r c ext)).Nodup) :
    Runs (quadDualBasis R r ext) n fun x n' => n ≤ n' ∧
      DualDen x.1 x.2 n n' (quadIds R (.quadrature r c ext)) ext []
        (fun i f => (fiatDuals D R).quad r ext i f) := by
  simp only [DualOK] at hok
  simp only [quadIds] at hnd ⊢
  obtain ⟨hwf, hext, hne⟩ := hok
  unfold quadDualBasis
  set ps := R.pointSet r with hps
  apply Runs.bind
  apply Runs.freshIndices
  intro mi n1 hmi emi
  have hl1 : ps.indices.length = mi.length := by
    have := congrArg List.length (hext.trans emi.symm)
    simpa using this
  apply Runs.bind
  apply Runs.reduceProduct
  · intro h
    have h' : (ps.indices.zip mi).length = 0 := by simpa using congrArg List.length h
    rw [List.length_zip, hl1, Nat.min_self] at h'
    rw [List.length_eq_zero_iff.1 h'] at emi
    exact hne (by simpa using emi.symm)
  · intro e he
    obtain ⟨p, _, rfl⟩ := List.mem_map.1 he
    simp [Gem.shape]
  intro e he1 he2
  apply Runs.bind
  apply Runs.mkComponentTensor he1
  intro t ht1 ht2
  refine Runs.pure ⟨hmi.2.2, hnd, fun i hi => .inr (List.mem_map_of_mem hi), ?_, ?_⟩
  · exact hwf.mono (Nat.le_trans hn hmi.2.2)
  refine ⟨fun p v => if p = v then 1 else 0, ⟨by rw [ht1, emi]; simp, fun ρ v hV hv => ?_⟩, ?_⟩
  · rw [List.append_nil] at hv
    have hvl : v.length = mi.length := by rw [hv.length, ← emi]; simp
    rw [ht2 ρ v hvl, he2, List.map_map]
    have hbi := map_bindIx ρ hmi.1 hvl
    have hag := bindIx_agree hmi v ρ
    set ρ1 := bindIx ρ mi v with hρ1
    have hz1 : (ps.indices.zip mi).map (fun p => ρ1 p.1.id) = ps.indices.map fun i => ρ1 i.id := by
      have h := congrArg (List.map fun i : Index => ρ1 i.id) (List.map_fst_zip (l₁ := ps.indices) (l₂ := mi) (by omega))
      rw [List.map_map] at h
      exact h
    have hz2 : (ps.indices.zip mi).map (fun p => ρ1 p.2.id) = mi.map fun i => ρ1 i.id := by
      have h := congrArg (List.map fun i : Index => ρ1 i.id) (List.map_snd_zip (l₁ := ps.indices) (l₂ := mi) (by omega))
      rw [List.map_map] at h
      exact h
    have hdel := deltas_eval (K := K) ps.indices mi ρ1
    rw [hz1, hz2, hbi] at hdel
    have hold : ps.indices.map (fun i => ρ1 i.id) = ps.indices.map fun i => ρ i.id :=
      hag.map fun i hi => Nat.lt_of_lt_of_le (PSet.indices_lt hwf i hi) hn
    rw [hold] at hdel
    exact hdel
  · intro i f hi
    rw [hext]
    simp only [lsum_ndindex_nil, List.append_nil]
    rw [lsum_congr (g := fun v => if i = v then f (ps.at_ v) [] else 0) (fun v _ => by
      by_cases h : v = i
      · subst h; simp
      · rw [if_neg h, if_neg (Ne.symm h), zero_mul]), lsum_delta (nodup_ndindex _) (mem_ndindex.2 hi)]
    have hval : ps.Valid (bindIx (fun _ => 0) ps.indices i) :=
      PSet.valid_bindIx hnd _ (by rw [hext]; exact hi)
    have hpt := (PSet.pts_at hwf).2 hval
    rw [map_bindIx _ hnd (by rw [InB.length hi, ← hext]; simp), hext] at hpt
    simp only [fiatDuals]
    rw [← hps, hpt]
    rfl

/-! ### Tensor elements -/

theorem tensorDual_spec {n0 n : Nat} (hn : n0 ≤ n) {V : Env → Prop} (hV : LocalV n0 V)
    {is vs shape : List Nat} (hsh : shape ≠ []) (tr : Bool) {t : Gem K}
    {F0 : Env → List Nat → K} (ht : Den V t (is ++ vs) F0) (hF0 : LocalF n0 F0) :
    Runs (tensorDual is vs shape tr t) n fun r n' => n ≤ n' ∧
      Den V r ((if tr then shape ++ is else is ++ shape) ++ (shape ++ vs))
        (tensorVal is.length shape.length tr F0) := by
  unfold tensorDual
  apply Runs.bind
  apply Runs.freshIndices
  intro sI n1 hsI esI
  apply Runs.bind
  apply Runs.freshIndices
  intro sV n2 hsV esV
  apply Runs.bind
  apply Runs.freshIndices
  intro tI n3 htI etI
  apply Runs.bind
  apply Runs.freshIndices
  intro tV n4 htV etV
  have lsI : sI.length = is.length := by rw [← esI]; simp
  have lsV : sV.length = vs.length := by rw [← esV]; simp
  have ltI : tI.length = shape.length := by rw [← etI]; simp
  have ltV : tV.length = shape.length := by rw [← etV]; simp
  apply Runs.bind
  apply Runs.reduceProduct
  · intro h
    have h' : (tI.zip tV).length = 0 := by simpa using congrArg List.length h
    rw [List.length_zip, ltI, ltV, Nat.min_self] at h'
    exact hsh (List.length_eq_zero_iff.1 h')
  · intro e he
    obtain ⟨p, _, rfl⟩ := List.mem_map.1 he
    simp [Gem.shape]
  intro deltas hd1 hd2
  have hall : Fresh n n4 (sI ++ (sV ++ (tI ++ tV))) :=
    hsI.append (hsV.append (htI.append htV))
  have hord : (sI ++ (sV ++ (tI ++ tV))).Perm
      (if tr then tI ++ sI ++ tV ++ sV else sI ++ tI ++ tV ++ sV) := by
    cases tr
    · simp only [Bool.false_eq_true, if_false, List.append_assoc]
      refine List.Perm.append_left _ ?_
      have := List.perm_append_comm (l₁ := sV) (l₂ := tI ++ tV)
      simpa [List.append_assoc] using this
    · simp only [if_true, List.append_assoc]
      have h1 : (sI ++ (sV ++ (tI ++ tV))).Perm (sI ++ (tI ++ (tV ++ sV))) := by
        refine List.Perm.append_left _ ?_
        have := List.perm_append_comm (l₁ := sV) (l₂ := tI ++ tV)
        simpa [List.append_assoc] using this
      refine h1.trans ?_
      have h2 := List.Perm.append_right (tV ++ sV) (List.perm_append_comm (l₁ := sI) (l₂ := tI))
      simpa [List.append_assoc] using h2
  have hfo := hall.perm hord
  have hn4 : n ≤ n4 := hall.2.2
  apply Runs.bind
  apply Runs.mkIndexed
  · rw [ht.shape]; exact fitsShape_free (by simp [esI, esV])
  intro x hx1 hx2
  apply Runs.bind
  apply Runs.mkProduct hx1 hd1
  intro y hy1 hy2
  apply Runs.mkComponentTensor hy1
  intro r hr1 hr2
  refine ⟨hn4, ?_, fun ρ v hVρ hv => ?_⟩
  · rw [hr1]; cases tr <;> simp [esI, esV, etI, etV]
  have hlen : v.length = (if tr then tI ++ sI ++ tV ++ sV else sI ++ tI ++ tV ++ sV).length := by
    rw [hv.length]; cases tr <;> simp [lsI, lsV, ltI, ltV]
  rw [hr2 ρ v hlen, hy2, hx2, map_val_free, hd2, List.map_map]
  have hbind := map_bindIx ρ hfo.1 hlen
  set ρ1 := bindIx ρ (if tr then tI ++ sI ++ tV ++ sV else sI ++ tI ++ tV ++ sV) v with hρ1
  have hag : Agree n0 ρ ρ1 := ((bindIx_agree hfo v ρ).mono hn).symm
  have hVρ1 : V ρ1 := hV _ _ hag hVρ
  have hz1 : (tI.zip tV).map (fun p => ρ1 p.1.id) = tI.map fun i => ρ1 i.id := by
    have h := congrArg (List.map fun i : Index => ρ1 i.id) (List.map_fst_zip (l₁ := tI) (l₂ := tV) (by omega))
    rw [List.map_map] at h
    exact h
  have hz2 : (tI.zip tV).map (fun p => ρ1 p.2.id) = tV.map fun i => ρ1 i.id := by
    have h := congrArg (List.map fun i : Index => ρ1 i.id) (List.map_snd_zip (l₁ := tI) (l₂ := tV) (by omega))
    rw [List.map_map] at h
    exact h
  have hdel := deltas_eval (K := K) tI tV ρ1
  rw [hz1, hz2] at hdel
  have hdel' : (List.map ((fun e : Gem K => e.eval ρ1 []) ∘ fun p : Index × Index => Gem.delta p.1 p.2)
      (tI.zip tV)).prod = _ := hdel
  rw [hdel']
  -- cut the multi-index into its four parts
  have hparts : sI.map (fun i => ρ1 i.id) =
        (if tr then (v.drop shape.length).take is.length else v.take is.length) ∧
      tI.map (fun i => ρ1 i.id) =
        (if tr then v.take shape.length else (v.drop is.length).take shape.length) ∧
      tV.map (fun i => ρ1 i.id) = (v.drop (is.length + shape.length)).take shape.length ∧
      sV.map (fun i => ρ1 i.id) = (v.drop (is.length + shape.length)).drop shape.length := by
    rw [← hbind, ← lsI, ← ltI]
    have e : tI.length = tV.length := by omega
    cases tr
    · simp only [Bool.false_eq_true, if_false, List.append_assoc, List.map_append]
      refine ⟨by rw [List.take_left' (by simp)], ?_, ?_, ?_⟩
      · rw [List.drop_left' (by simp), List.take_left' (by simp)]
      · rw [← List.append_assoc, List.drop_left' (by simp), e, List.take_left' (by simp)]
      · rw [← List.append_assoc, List.drop_left' (by simp), e, List.drop_left' (by simp)]
    · simp only [if_true, List.append_assoc, List.map_append]
      refine ⟨?_, by rw [List.take_left' (by simp)], ?_, ?_⟩
      · rw [List.drop_left' (by simp), List.take_left' (by simp)]
      · rw [← List.append_assoc, List.drop_left' (by simp; omega), e, List.take_left' (by simp)]
      · rw [← List.append_assoc, List.drop_left' (by simp; omega), e, List.drop_left' (by simp)]
  obtain ⟨p1, p2, p3, p4⟩ := hparts
  have hin : InB (sI.map (fun i => ρ1 i.id) ++ sV.map (fun i => ρ1 i.id)) (is ++ vs) := by
    rw [p1, p4]
    have hv' := hv
    obtain ⟨a1, a2⟩ := hv.split
    have hl1 : (if tr then shape ++ is else is ++ shape).length = is.length + shape.length := by
      cases tr <;> simp; omega
    rw [hl1] at a1 a2
    obtain ⟨a3, a4⟩ := a2.split
    refine InB.append ?_ a4
    cases tr
    · simp only [Bool.false_eq_true, if_false] at a1 ⊢
      have := a1.split.1
      rwa [List.take_take, Nat.min_eq_left (by omega)] at this
    · simp only [if_true] at a1 ⊢
      have := a1.split.2
      rwa [List.drop_take, Nat.add_sub_cancel_right] at this
  rw [List.map_append, ht.val ρ1 _ hVρ1 hin, hF0 _ _ _ hag.symm, p1, p2, p3, p4]
  unfold tensorVal
  simp only []
  split <;> simp


theorem tensorVal_split {b c a z : List Nat} (ha : a.length = c.length) (tr : Bool)
    (F : Env → List Nat → K) (ρ : Env) :
    tensorVal b.length c.length tr F ρ ((if tr then c ++ b else b ++ c) ++ (a ++ z)) =
      if c = a then F ρ (b ++ z) else 0 := by
  unfold tensorVal
  have hd : List.drop (b.length + c.length) ((if tr then c ++ b else b ++ c) ++ (a ++ z)) = a ++ z :=
    List.drop_left' (by cases tr <;> simp; omega)
  have ht : (a ++ z).take c.length = a := by rw [← ha, List.take_left]
  have hz : (a ++ z).drop c.length = z := by rw [← ha, List.drop_left]
  simp only [hd, ht, hz]
  cases tr <;> simp

/-! ### Trees -/

theorem DualDen.localF {Q : Gem K} {ps : PSet K} {n n' : Nat} {qi is vs : List Nat}
    {L : List Nat → (List K → List Nat → K) → K} (h : DualDen Q ps n n' qi is vs L)
    (G : List Nat → List Nat → K) : LocalF n' (fun ρ v => G (ps.indices.map fun i => ρ i.id) v) := by
  intro ρ ρ' v ha
  simp only [ha.map (PSet.indices_lt h.wf)]

theorem DualDen.mono {Q : Gem K} {ps : PSet K} {n n' m : Nat} {qi is vs : List Nat}
    {L : List Nat → (List K → List Nat → K) → K} (h : DualDen Q ps n n' qi is vs L) (hm : n' ≤ m) :
    DualDen Q ps n m qi is vs L :=
  ⟨h.nodup, fun i hi => (h.ids i hi).imp (fun h => ⟨h.1, by omega⟩) id, h.wf.mono hm, h.contract⟩

variable {D : FiatDual K} {R : Rules K}

mutual
theorem quadIds_lt : ∀ {e : Elem} {n : Nat}, DualOK D R n e → ∀ k ∈ quadIds R e, k < n
  | .leaf l, n, _, k, hk => by simp [quadIds] at hk
  | .tensorProduct fs, n, h, k, hk => by
    simp only [DualOK] at h; simp only [quadIds] at hk
    exact quadIdsL_lt h k hk
  | .flattened p, n, h, k, hk => by
    simp only [DualOK] at h; simp only [quadIds] at hk
    exact quadIds_lt h k hk
  | .enriched _, n, h, k, hk => by simp [DualOK] at h
  | .mixedSub _ _ _, n, h, k, hk => by simp [DualOK] at h
  | .discontinuous e, n, h, k, hk => by
    simp only [DualOK] at h; simp only [quadIds] at hk
    exact quadIds_lt h k hk
  | .tensorFE e _ _, n, h, k, hk => by
    simp only [DualOK] at h; simp only [quadIds] at hk
    exact quadIds_lt h k hk
  | .hdiv e, n, h, k, hk => by
    simp only [DualOK] at h; simp only [quadIds] at hk
    exact quadIds_lt h k hk
  | .hcurl e, n, h, k, hk => by
    simp only [DualOK] at h; simp only [quadIds] at hk
    exact quadIds_lt h k hk
  | .quadrature r c ext, n, h, k, hk => by
    simp only [DualOK] at h; simp only [quadIds] at hk
    obtain ⟨i, hi, rfl⟩ := List.mem_map.1 hk
    exact PSet.indices_lt h.1 i hi
theorem quadIdsL_lt : ∀ {es : List Elem} {n : Nat}, DualOKL D R n es → ∀ k ∈ quadIdsL R es, k < n
  | [], n, _, k, hk => by simp [quadIdsL] at hk
  | e :: es, n, h, k, hk => by
    simp only [DualOKL] at h; simp only [quadIdsL, List.mem_append] at hk
    rcases hk with hk | hk
    · exact quadIds_lt h.1 k hk
    · exact quadIdsL_lt h.2 k hk
end

variable [DecidableEq K]

/-- The claim proved by induction over the tree. -/
def DualRuns (D : FiatDual K) (R : Rules K) (e : Elem) : Prop :=
  ∀ n0 n vs, DualOK D R n0 e → n0 ≤ n → (quadIds R e).Nodup → e.valueShape = .ok vs →
    Runs (dualBasis D R e) n fun r n' => n ≤ n' ∧
      DualDen r.1 r.2 n n' (quadIds R e) e.indexShape vs (dualValue (fiatDuals D R) e)

theorem dualRuns_tensorFE {e : Elem} {shape : List Nat} (tr : Bool) (h : DualRuns D R e) (hsh : shape ≠ []) :
    DualRuns D R (.tensorFE e shape tr) := by
  intro n0 n vs' hok hn hnd hv
  simp only [DualOK] at hok
  simp only [quadIds] at hnd ⊢
  simp only [Elem.valueShape] at hv
  rw [bind_ok] at hv
  obtain ⟨vs, hvs, hv⟩ := hv
  cases hv
  unfold dualBasis
  apply Runs.bind
  refine (h n0 n vs hok hn hnd hvs).mono ?_
  rintro qp m ⟨hm, hd⟩
  apply Runs.bind
  refine Runs.liftE hvs ?_
  obtain ⟨G, hG, hc⟩ := hd.contract
  apply Runs.bind
  refine (tensorDual_spec (Nat.le_refl _) (PSet.valid_local hd.wf) hsh tr hG (hd.localF G)).mono ?_
  rintro Q m' ⟨hm', hQ⟩
  have hd' := hd.mono hm'
  refine Runs.pure ⟨by omega, hd'.nodup, hd'.ids, hd'.wf, fun p v =>
    tensorVal e.indexShape.length shape.length tr (fun _ w => G p w) (fun _ => 0) v, ?_, ?_⟩
  · simp only [Elem.indexShape]
    exact ⟨hQ.shape, fun ρ v hV hv => by rw [hQ.val ρ v hV hv]; rfl⟩
  · intro i f hi
    simp only [Elem.indexShape] at hi
    obtain ⟨b, c, hb, hcs, rfl⟩ : ∃ b c, InB b e.indexShape ∧ InB c shape ∧
        i = if tr then c ++ b else b ++ c := by
      cases tr
      · simp only [Bool.false_eq_true, if_false] at hi ⊢
        exact ⟨_, _, hi.split.1, hi.split.2, (List.take_append_drop _ _).symm⟩
      · simp only [if_true] at hi ⊢
        exact ⟨_, _, hi.split.2, hi.split.1, (List.take_append_drop _ _).symm⟩
    have hval : dualValue (fiatDuals D R) (.tensorFE e shape tr) (if tr then c ++ b else b ++ c) f =
        dualValue (fiatDuals D R) e b fun x z => f x (c ++ z) := by
      simp only [dualValue]
      have hbl := hb.length
      have hcl := hcs.length
      cases tr
      · simp [← hbl]
      · simp [← hcl]
    rw [hval, ← hc b _ hb]
    refine lsum_congr fun v _ => ?_
    rw [lsum_ndindex_append, lsum_congr (g := fun a => if c = a then lsum (ndindex vs) fun z =>
      G v (b ++ z) * f (qp.2.at_ v) (a ++ z) else 0) (fun a ha => ?_), lsum_delta (nodup_ndindex _) (mem_ndindex.2 hcs)]
    have hal : a.length = c.length := by rw [InB.length (mem_ndindex.1 ha), hcs.length]
    rw [← hb.length, ← hcs.length]
    beta_reduce
    by_cases hca : c = a
    · rw [if_pos hca]
      exact lsum_congr fun z _ => by rw [tensorVal_split hal, if_pos hca]
    · rw [if_neg hca]
      exact lsum_zero fun z _ => by rw [tensorVal_split hal, if_neg hca, zero_mul]

omit [DecidableEq K] in
theorem sum_compCoeff {vs : List Nat} (g : List Nat → K) {c : Comp}
    (hc : ∀ neg ix, c = .entry neg ix → InB ix vs) :
    (lsum (ndindex vs) fun z => g z * compCoeff z c) = compVal g c := by
  cases c with
  | zero => exact lsum_zero fun z _ => by simp [compCoeff]
  | entry neg ix =>
    have := lsum_delta (K := K) (nodup_ndindex vs) (mem_ndindex.2 (hc neg ix rfl)) (fun z => g z * if neg then -1 else 1)
    rw [lsum_congr (g := fun z => if ix = z then g z * (if neg then -1 else 1) else 0), this]
    · cases neg <;> simp [compVal]
    · intro z _
      simp only [compCoeff]
      split_ifs <;> simp

theorem dualRuns_wrap {w e : Elem} (sel : Except Err (List Comp)) (hok : DualRuns D R w)
    (heval : dualBasis D R e = (do
      let qp ← dualBasis D R w
      let comps ← liftE sel
      let c ← liftE w.cell
      let beta ← freshIndices w.indexShape
      let zeta ← freshIndices [c.spatialDim]
      let Q ← promoteWrapped comps beta zeta qp.1
      pure (Q, qp.2)))
    (hval : ∀ i f, dualValue (fiatDuals D R) e i f =
      dualValue (fiatDuals D R) w i fun x z => unwrapValue sel (f x) z)
    (hidx : e.indexShape = w.indexShape)
    (hvsh : ∀ c, w.cell = .ok c → e.valueShape = .ok [c.spatialDim])
    (hq : quadIds R e = quadIds R w) (hdo : ∀ n, DualOK D R n e → DualOK D R n w)
    (hsel : ∃ comps vs c, sel = .ok comps ∧ w.valueShape = .ok vs ∧
      w.cell = .ok c ∧ comps.length = c.spatialDim ∧ comps ≠ [] ∧
      ∀ neg ix, Comp.entry neg ix ∈ comps → InB ix vs) : DualRuns D R e := by
  obtain ⟨comps, vs, c, rfl, hvs, hwc, hlen, hcne, hin⟩ := hsel
  intro n0 n vs' hdok hn hnd hv
  rw [hvsh c hwc] at hv
  cases hv
  rw [hq] at hnd ⊢
  rw [heval]
  apply Runs.bind
  refine (hok n0 n vs (hdo _ hdok) hn hnd hvs).mono ?_
  rintro qp m ⟨hm, hd⟩
  apply Runs.bind
  refine Runs.liftE rfl ?_
  apply Runs.bind
  refine Runs.liftE hwc ?_
  apply Runs.bind
  apply Runs.freshIndices
  intro beta m2 hb eb
  apply Runs.bind
  apply Runs.freshIndices
  intro zeta m3 hz ez
  obtain ⟨G, hG, hc⟩ := hd.contract
  have hf := hb.append hz
  apply Runs.bind
  refine (promoteWrapped_spec (Nat.le_refl m) (PSet.valid_local hd.wf) hcne hin hG (hd.localF G) hf.2.2 hf eb
    (by rw [ez, hlen]) m3 (Nat.le_refl _)).mono ?_
  rintro Q m4 ⟨hm4, hQ⟩
  have hmm : m ≤ m4 := Nat.le_trans hf.2.2 hm4
  have hd' := hd.mono hmm
  refine Runs.pure ⟨by omega, hd'.nodup, hd'.ids, hd'.wf, fun p v =>
    wrapVal comps (fun _ w => G p w) (fun _ => 0) v, ?_, ?_⟩
  · rw [hidx, ← hlen]
    exact ⟨hQ.shape, fun ρ v hV hv => by rw [hQ.val ρ v hV hv]; rfl⟩
  · intro i f hi
    rw [hidx] at hi
    rw [hval, ← hc i _ hi]
    refine lsum_congr fun v _ => ?_
    rw [lsum_ndindex_one]
    -- exchange the sums over the components
    have h1 : (lsum (ndindex vs) fun z => G v (i ++ z) * unwrapValue (.ok comps) (f (qp.2.at_ v)) z) =
        lsum (List.range comps.length) fun j => (lsum (ndindex vs) fun z =>
          G v (i ++ z) * (match comps[j]? with | none => 0 | some c => compCoeff z c)) * f (qp.2.at_ v) [j] := by
      simp only [unwrapValue]
      rw [lsum_congr (g := fun z => lsum (List.range comps.length) fun j =>
        (G v (i ++ z) * (match comps[j]? with | none => 0 | some c => compCoeff z c)) * f (qp.2.at_ v) [j])]
      · rw [lsum_comm]
        exact lsum_congr fun j _ => lsum_mul_right _ _ _
      · intro z _
        rw [show ∀ l : List K, l.sum = lsum l id from fun l => by simp [lsum], lsum_map, ← lsum_mul_left]
        exact lsum_congr fun j _ => (mul_assoc _ _ _).symm
    rw [h1, ← hlen]
    refine lsum_congr fun j hj => ?_
    congr 1
    have hjl : j < comps.length := List.mem_range.1 hj
    simp only [wrapVal, List.getLastD_concat, List.dropLast_concat, List.getElem?_eq_getElem hjl, Option.map_some,
      Option.getD_some]
    exact (sum_compCoeff (fun ix => G v (i ++ ix)) fun neg ix h => hin neg ix (h ▸ List.getElem_mem hjl)).symm

/-- The factors of a product, one by one. -/
theorem dualBasisL_spec : ∀ (fs : List Elem) (n0 n : Nat) (ss : List (List Nat)), (∀ f ∈ fs, DualRuns D R f) →
    DualOKL D R n0 fs → n0 ≤ n → (quadIdsL R fs).Nodup → Elem.valueShapeL fs = .ok ss →
    Runs (dualBasisL D R fs) n fun qps n' => n ≤ n' ∧ ∃ L : List (PFac K),
      qps.map Prod.fst = L.map PFac.t ∧ L.map PFac.is = Elem.indexShapeL fs ∧ L.map PFac.vs = ss ∧
      ((PSet.indicesL (qps.map Prod.snd)).map Index.id).Nodup ∧
      (∀ i ∈ PSet.indicesL (qps.map Prod.snd), (n ≤ i.id ∧ i.id < n') ∨ i.id ∈ quadIdsL R fs) ∧
      PSet.WFL n' (qps.map Prod.snd) ∧
      (∀ x ∈ L, LocalF n' x.F ∧ Den (PSet.ValidL (qps.map Prod.snd)) x.t (x.is ++ x.vs) x.F) ∧
      ∃ G : List Nat → List Nat → List Nat → K,
        (∀ ρ i z, prodVal L ρ i z = G ((PSet.indicesL (qps.map Prod.snd)).map fun i => ρ i.id) i z) ∧
        ∀ i f, InB i (Elem.indexShapeL fs).flatten →
          (lsum (ndindex ((PSet.indicesL (qps.map Prod.snd)).map Index.extent)) fun v =>
            lsum (ndindex ss.flatten) fun z => G v i z * f (PSet.atL (qps.map Prod.snd) v) z) =
          prodDualValue (fiatDuals D R) fs i f
  | [], n0, n, ss, _, _, _, _, hs => by
    simp only [Elem.valueShapeL] at hs
    cases hs
    unfold dualBasisL
    refine Runs.pure ⟨Nat.le_refl _, [], rfl, rfl, rfl, by simp [PSet.indicesL], by simp [PSet.indicesL],
      by simp [PSet.WFL], by simp, fun _ _ _ => 1, fun _ _ _ => rfl, fun i f _ => ?_⟩
    simp [PSet.indicesL, lsum_ndindex_nil, prodDualValue, PSet.atL, PSet.pointAtL]
  | f :: fs, n0, n, ss, hok, hd, hn, hnd, hs => by
    obtain ⟨s, ss', hs1, hs2, rfl⟩ := valueShapeL_cons hs
    simp only [DualOKL] at hd
    simp only [quadIdsL, List.nodup_append] at hnd
    have hrec := fun n => dualBasisL_spec fs n0 n ss' (fun g hg => hok g (List.mem_cons_of_mem _ hg)) hd.2
    unfold dualBasisL
    apply Runs.bind
    refine (hok f List.mem_cons_self n0 n s hd.1 hn hnd.1 hs1).mono ?_
    rintro qp n1 ⟨hn1, h1⟩
    apply Runs.bind
    refine (hrec n1 (Nat.le_trans hn hn1) hnd.2.1 hs2).mono ?_
    rintro qps n2 ⟨hn2, L, l1, l2, l3, l4, l5, l6, l7, G', l8, l9⟩
    obtain ⟨G, hG, hc⟩ := h1.contract
    have h1' := h1.mono hn2
    have hsame : ∀ ρ, PSet.ValidL (qp.2 :: qps.map Prod.snd) ρ → qp.2.Valid ρ ∧ PSet.ValidL (qps.map Prod.snd) ρ :=
      fun ρ hρ => ⟨PSet.ValidL_mem hρ _ List.mem_cons_self, fun i hi => hρ i (by
        simp only [PSet.indicesL]; exact List.mem_append_right _ hi)⟩
    have hids : ((PSet.indicesL (qp.2 :: qps.map Prod.snd)).map Index.id).Nodup := by
      simp only [PSet.indicesL, List.map_append, List.nodup_append]
      refine ⟨h1.nodup, l4, ?_⟩
      intro a ha b hb hab
      obtain ⟨i, hi, rfl⟩ := List.mem_map.1 ha
      obtain ⟨j, hj, hj'⟩ := List.mem_map.1 hb
      rw [← hab] at hj'
      rcases h1.ids i hi with h2 | h2 <;> rcases l5 j hj with h3 | h3
      · omega
      · have := quadIdsL_lt hd.2 _ h3
        omega
      · have := quadIds_lt hd.1 _ h2
        omega
      · exact hnd.2.2 _ h2 _ (hj' ▸ h3) rfl
    refine Runs.pure ⟨by omega, ⟨f.indexShape, s, qp.1, fun ρ v => G (qp.2.indices.map fun i => ρ i.id) v⟩ :: L,
      by simp [l1], by simp [l2, Elem.indexShapeL], by simp [l3], hids, ?_, ?_, ?_, ?_⟩
    · intro i hi
      simp only [List.map_cons, PSet.indicesL, List.mem_append] at hi
      simp only [quadIdsL, List.mem_append]
      rcases hi with hi | hi
      · rcases h1.ids i hi with h2 | h2
        · left; omega
        · exact .inr (.inl h2)
      · rcases l5 i hi with h2 | h2
        · left; omega
        · exact .inr (.inr h2)
    · simp only [List.map_cons, PSet.WFL]
      exact ⟨h1'.wf, l6⟩
    · intro x hx
      rcases List.mem_cons.1 hx with rfl | hx
      · exact ⟨h1'.localF G, hG.shape, fun ρ v hρ hv => hG.val ρ v (hsame ρ hρ).1 hv⟩
      · exact ⟨(l7 x hx).1, (l7 x hx).2.shape, fun ρ v hρ hv => (l7 x hx).2.val ρ v (hsame ρ hρ).2 hv⟩
    · refine ⟨fun v i z => G (v.take qp.2.indices.length) (i.take f.indexShape.length ++ z.take s.length) *
        G' (v.drop qp.2.indices.length) (i.drop f.indexShape.length) (z.drop s.length), ?_, ?_⟩
      · intro ρ i z
        simp only [prodVal, l8, List.map_cons, PSet.indicesL, List.map_append]
        rw [List.take_left' (by simp), List.drop_left' (by simp)]
      · intro i g hi
        simp only [Elem.indexShapeL, List.flatten_cons] at hi
        simp only [List.map_cons, PSet.indicesL, List.map_append, List.flatten_cons, prodDualValue,
          lsum_ndindex_append]
        rw [← hc _ _ hi.split.1]
        refine lsum_congr fun v hv => ?_
        rw [lsum_comm]
        refine lsum_congr fun z hz => ?_
        rw [← l9 _ _ hi.split.2, ← lsum_mul_left]
        refine lsum_congr fun w hw => ?_
        rw [← lsum_mul_left]
        refine lsum_congr fun y hy => ?_
        have e1 : v.length = qp.2.indices.length := by rw [InB.length (mem_ndindex.1 hv)]; simp
        have e2 : w.length = (PSet.indicesL (qps.map Prod.snd)).length := by
          rw [InB.length (mem_ndindex.1 hw)]; simp
        have e3 : z.length = s.length := InB.length (mem_ndindex.1 hz)
        rw [PSet.atL_cons hids e1 e2, List.take_left' e1, List.drop_left' e1, List.take_left' e3,
          List.drop_left' e3, mul_assoc]

theorem dualRuns_tensorProduct {fs : List Elem} (hne : fs ≠ []) (hok : ∀ f ∈ fs, DualRuns D R f) :
    DualRuns D R (.tensorProduct fs) := by
  intro n0 n vs hd hn hnd hv
  simp only [DualOK] at hd
  simp only [quadIds] at hnd ⊢
  simp only [Elem.valueShape] at hv
  rw [bind_ok] at hv
  obtain ⟨ss, hss, hpv⟩ := hv
  have hfl := prodValueShape_flatten hpv
  subst hfl
  unfold dualBasis
  apply Runs.bind
  refine (dualBasisL_spec fs n0 n ss hok hd hn hnd hss).mono ?_
  rintro qps n1 ⟨hn1, L, l1, l2, l3, l4, l5, l6, l7, G, l8, l9⟩
  have hLne : L ≠ [] := by
    intro h
    subst h
    cases fs with
    | nil => exact hne rfl
    | cons f fs => simp [Elem.indexShapeL] at l2
  have hqne : qps.isEmpty = false := by
    cases qps with
    | nil =>
      have : L = [] := by simpa using l1.symm
      exact absurd this hLne
    | cons => rfl
  simp only [hqne, Bool.false_eq_true, if_false]
  apply Runs.bind
  refine Runs.liftE hss ?_
  apply Runs.bind
  unfold productDual
  apply Runs.bind
  apply Runs.freshIndicesL
  intro alphas n2 ha ea
  apply Runs.bind
  apply Runs.freshIndicesL
  intro zetas n3 hz ez
  have hf : Fresh n1 n3 (alphas ++ zetas).flatten := by
    rw [List.flatten_append]; exact ha.append hz
  have hwf : (PSet.tensor (qps.map Prod.snd)).WF n1 := by simpa only [PSet.WF] using l6
  have hV : LocalV n1 (PSet.ValidL (qps.map Prod.snd)) := by
    have := PSet.valid_local hwf
    intro ρ ρ' hag hρ
    have h' := this ρ ρ' hag (by simpa only [PSet.Valid, PSet.indices, PSet.ValidL] using hρ)
    simpa only [PSet.Valid, PSet.indices, PSet.ValidL] using h'
  rw [l1]
  refine (mergeScalars_spec (Nat.le_refl n1) hV L hLne l7 alphas zetas hf.2.2 hf (by rw [ea, l2]) (by rw [ez, l3])).mono ?_
  rintro Q n4 ⟨rfl, hQ⟩
  have hn4 : n1 ≤ n4 := hf.2.2
  refine Runs.pure ⟨by omega, ?_, ?_, ?_, ?_⟩
  · simpa only [PSet.indices] using l4
  · intro i hi
    simp only [PSet.indices] at hi
    exact (l5 i hi).imp (fun h => ⟨h.1, by omega⟩) id
  · exact hwf.mono hn4
  · refine ⟨fun v w => G v (w.take (Elem.indexShapeL fs).flatten.length) (w.drop (Elem.indexShapeL fs).flatten.length), ?_, ?_⟩
    · rw [l2, l3] at hQ
      refine ⟨by rw [hQ.shape, Elem.indexShape], fun ρ v hρ hv => ?_⟩
      rw [hQ.val ρ v (by simpa only [PSet.Valid, PSet.indices, PSet.ValidL] using hρ) (by rw [← Elem.indexShape]; exact hv), l8]
      simp only [PSet.indices]
    · intro i f hi
      rw [Elem.indexShape] at hi
      rw [dualValue, ← l9 i f hi]
      simp only [PSet.indices]
      refine lsum_congr fun v _ => lsum_congr fun z _ => ?_
      rw [List.take_left' hi.length, List.drop_left' hi.length]
      rfl

mutual
/-- Every element that has a dual basis gets the right one. -/
theorem dualRuns (h1 : ∀ w, D.isOne w = true → w = 1) : ∀ e : Elem, Shaped e → DualRuns D R e
  | .leaf l, _ => by
    intro n0 n vs hd hn hnd hv
    simp only [Elem.valueShape] at hv
    cases hv
    unfold dualBasis
    refine (leafDual_spec h1 hd n).mono ?_
    rintro r n' ⟨h, h'⟩
    refine ⟨h, ?_⟩
    simp only [quadIds, Elem.indexShape]
    refine ⟨h'.nodup, h'.ids, h'.wf, ?_⟩
    obtain ⟨G, a, b⟩ := h'.contract
    exact ⟨G, a, fun i f hi => by rw [b i f hi, dualValue]⟩
  | .tensorProduct fs, h => by
    rw [Shaped] at h
    exact dualRuns_tensorProduct h.1 (dualRunsL h1 fs h.2)
  | .flattened p, h => by
    rw [Shaped] at h
    have := dualRuns h1 p h
    intro n0 n vs hd hn hnd hv
    simp only [DualOK] at hd
    simp only [quadIds] at hnd ⊢
    simp only [Elem.valueShape] at hv
    unfold dualBasis
    refine (this n0 n vs hd hn hnd hv).mono ?_
    rintro r n' ⟨h, h'⟩
    refine ⟨h, h'.nodup, h'.ids, h'.wf, ?_⟩
    obtain ⟨G, a, b⟩ := h'.contract
    exact ⟨G, by rw [Elem.indexShape]; exact a, fun i f hi => by rw [dualValue]; exact b i f (by rw [Elem.indexShape] at hi; exact hi)⟩
  | .enriched _, _ => fun n0 n vs hd => by simp [DualOK] at hd
  | .mixedSub _ _ _, _ => fun n0 n vs hd => by simp [DualOK] at hd
  | .discontinuous e, h => by
    rw [Shaped] at h
    have := dualRuns h1 e h
    intro n0 n vs hd hn hnd hv
    simp only [DualOK] at hd
    simp only [quadIds] at hnd ⊢
    simp only [Elem.valueShape] at hv
    unfold dualBasis
    refine (this n0 n vs hd hn hnd hv).mono ?_
    rintro r n' ⟨h, h'⟩
    refine ⟨h, h'.nodup, h'.ids, h'.wf, ?_⟩
    obtain ⟨G, a, b⟩ := h'.contract
    exact ⟨G, by rw [Elem.indexShape]; exact a, fun i f hi => by rw [dualValue]; exact b i f (by rw [Elem.indexShape] at hi; exact hi)⟩
  | .tensorFE e shape tr, h => by
    rw [Shaped] at h
    exact dualRuns_tensorFE tr (dualRuns h1 e h.1) h.2
  | .hdiv w, h => by
    rw [Shaped] at h
    refine dualRuns_wrap (selectHdiv w.factorsOf) (dualRuns h1 w h.1) (by rw [dualBasis]) (fun i f => by rw [dualValue])
      (by rw [Elem.indexShape]) (fun c hc => by rw [Elem.valueShape, hc]; rfl) (by rw [quadIds])
      (fun n hn => by rw [DualOK] at hn; exact hn) h.2
  | .hcurl w, h => by
    rw [Shaped] at h
    refine dualRuns_wrap (selectHcurl w.factorsOf) (dualRuns h1 w h.1) (by rw [dualBasis]) (fun i f => by rw [dualValue])
      (by rw [Elem.indexShape]) (fun c hc => by rw [Elem.valueShape, hc]; rfl) (by rw [quadIds])
      (fun n hn => by rw [DualOK] at hn; exact hn) h.2
  | .quadrature r c ext, _ => by
    intro n0 n vs hd hn hnd hv
    simp only [Elem.valueShape] at hv
    cases hv
    unfold dualBasis
    refine (quadDual_spec hd hn hnd).mono ?_
    rintro x n' ⟨h, h'⟩
    refine ⟨h, h'.nodup, h'.ids, h'.wf, ?_⟩
    obtain ⟨G, a, b⟩ := h'.contract
    exact ⟨G, by rw [Elem.indexShape]; exact a, fun i f hi => by rw [dualValue]; exact b i f (by rw [Elem.indexShape] at hi; exact hi)⟩
theorem dualRunsL (h1 : ∀ w, D.isOne w = true → w = 1) : ∀ es : List Elem, (∀ e ∈ es, Shaped e) →
    ∀ e ∈ es, DualRuns D R e
  | [], _, e, he => by simp at he
  | x :: es, h, e, he => by
    rcases List.mem_cons.1 he with he | he
    · rw [he]
      exact dualRuns h1 x (h x List.mem_cons_self)
    · exact dualRunsL h1 es (fun y hy => h y (List.mem_cons_of_mem _ hy)) e he
end

end FInAT
