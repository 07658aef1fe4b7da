import Verif.Lemmas.Dual
import Verif.Lemmas.FiatTab

/-!
# Dual evaluation applies the functionals
-/

namespace FInAT

open Spec Elem

variable {K : Type} [CommRing K]

theorem map_bindIx_other {a b : List Index} {v : List Nat} {ρ : Env}
    (h : ∀ i ∈ a, ∀ j ∈ b, i.id ≠ j.id) : a.map (fun i => bindIx ρ b v i.id) = a.map fun i => ρ i.id := by
  refine List.map_congr_left fun i hi => bindIx_of_not_mem ?_
  intro hm
  obtain ⟨j, hj, e⟩ := List.mem_map.1 hm
  exact h i hi j hj e.symm

variable [DecidableEq K] {D : FiatDual K} {R : Rules K}

/-- The function `fn` of point sets evaluates `f` (a function of the values of the argument indices, a
point and a component) at the points. -/
theorem dualEval_base {e : Elem} (hd : DualRuns D R e) {n : Nat} {vs : List Nat}
    (hok : DualOK D R n e) (hnd : (quadIds R e).Nodup) (hv : e.valueShape = .ok vs)
    {fn : PSet K → M (Gem K)} {f : Env → List K → List Nat → K}
    (hf : ∀ ρ ρ', (∀ k < n, k ∉ quadIds R e → ρ k = ρ' k) → f ρ = f ρ')
    (hfn : ∀ r m, dualBasis D R e n = .ok (r, m) → n ≤ m → r.2.WF m → Runs (fn r.2) m fun t m' => m ≤ m' ∧
      Den r.2.Valid t vs fun ρ z => f ρ (r.2.pointAt ρ) z) :
    Runs (do
      let qp ← dualBasis D R e
      let expr ← fn qp.2
      let k := qp.1.shape.length - expr.shape.length
      assertM (decide (expr.shape = qp.1.shape.drop k))
      let shapeIx ← freshIndices expr.shape
      let basisIx ← freshIndices (qp.1.shape.take k)
      let Qi ← mkIndexed qp.1 ((basisIx ++ shapeIx).map .free)
      let expri ← mkIndexed expr (shapeIx.map .free)
      let prod ← mkProduct Qi expri
      let ev ← mkIndexSum prod (qp.2.indices ++ shapeIx)
      pure (ev, basisIx)) n fun (r : Gem K × List Index) n' => n ≤ n' ∧ Fresh n n' r.2 ∧ r.1.shape = [] ∧
        r.2.map Index.extent = e.indexShape ∧ ∀ ρ i, InB i e.indexShape →
          r.1.eval (bindIx ρ r.2 i) [] = dualValue (fiatDuals D R) e i (f ρ) := by
  apply Runs.bind
  obtain ⟨⟨Q, ps⟩, n1, hrun, hn1, hden⟩ := hd n n vs hok (Nat.le_refl _) hnd hv
  refine ⟨(Q, ps), n1, hrun, ?_⟩
  obtain ⟨G, hQ, hc⟩ := hden.contract
  simp only at hden hQ hc ⊢
  apply Runs.bind
  refine (hfn (Q, ps) n1 hrun hn1 hden.wf).mono ?_
  rintro t n2 ⟨hn2, ht⟩
  have hk : Q.shape.length - t.shape.length = e.indexShape.length := by
    rw [hQ.shape, ht.shape]; simp
  simp only [hk]
  rw [hQ.shape, ht.shape, List.drop_left, List.take_left]
  apply Runs.bind
  refine Runs.assertM (by simp) ?_
  apply Runs.bind
  apply Runs.freshIndices
  intro sI n3 hsI esI
  apply Runs.bind
  apply Runs.freshIndices
  intro bI n4 hbI ebI
  apply Runs.bind
  apply Runs.mkIndexed
  · rw [hQ.shape]; exact fitsShape_free (by simp [esI, ebI])
  intro x hx1 hx2
  apply Runs.bind
  apply Runs.mkIndexed
  · rw [ht.shape]; exact fitsShape_free esI
  intro y hy1 hy2
  apply Runs.bind
  apply Runs.mkProduct hx1 hy1
  intro p hp1 hp2
  apply Runs.bind
  apply Runs.mkIndexSum hp1
  intro r hr1 hr2
  apply Runs.pure
  have h3 := hsI.2.2
  have h4 := hbI.2.2
  refine ⟨by omega, hbI.weaken (by omega), hr1, ebI, ?_⟩
  intro ρ i hi
  have hql := quadIds_lt hok
  -- identities of the point indices
  have hps : ∀ j ∈ ps.indices, j.id < n1 := by
    intro j hj
    rcases hden.ids j hj with h | h
    · exact h.2
    · exact Nat.lt_of_lt_of_le (hql _ h) hn1
  have hpn : ((ps.indices ++ sI).map Index.id).Nodup := by
    rw [List.map_append, List.nodup_append]
    refine ⟨hden.nodup, hsI.1, ?_⟩
    intro a ha b hb hab
    obtain ⟨j, hj, rfl⟩ := List.mem_map.1 ha
    obtain ⟨k, hk, rfl⟩ := List.mem_map.1 hb
    have := hps j hj
    have := (hsI.2.1 k hk).1
    omega
  rw [hr2, List.map_append, esI, ← hc i (f ρ) hi]
  refine (lsum_ndindex_append _ _ _).trans (lsum_congr fun v hvm => lsum_congr fun z hz => ?_)
  have hv : InB v _ := mem_ndindex.1 hvm
  have hz : InB z _ := mem_ndindex.1 hz
  rw [hp2, hx2, hy2, map_val_free, map_val_free]
  set ρ1 := bindIx ρ bI i with hρ1
  have hm := map_bindIx ρ1 hpn (v := v ++ z) (by
    rw [List.length_append, List.length_append, hv.length, hz.length, ← esI]; simp)
  set ρ2 := bindIx ρ1 (ps.indices ++ sI) (v ++ z) with hρ2
  rw [List.map_append] at hm
  obtain ⟨m1, m2⟩ := List.append_inj hm (by rw [hv.length]; simp)
  have mb : bI.map (fun j => ρ2 j.id) = i := by
    rw [hρ2, map_bindIx_other, hρ1, map_bindIx ρ hbI.1 (by rw [hi.length, ← ebI]; simp)]
    intro a ha b hb
    have := (hbI.2.1 a ha).1
    rcases List.mem_append.1 hb with hb | hb
    · have := hps b hb; omega
    · have := (hsI.2.1 b hb).2; omega
  have hVal : ps.Valid ρ2 := by
    intro j hj
    have h := PSet.valid_bindIx hpn (v := v ++ z) ρ1 (by
      rw [List.map_append, esI]; exact InB.append hv hz) j (List.mem_append_left _ hj)
    exact h
  rw [List.map_append, mb, m2, hQ.val ρ2 _ hVal (InB.append hi hz), ht.val ρ2 _ hVal hz, m1,
    PSet.at_eq hden.nodup m1]
  have hff : f ρ2 = f ρ := by
    refine hf ρ2 ρ fun k hk hkq => ?_
    rw [hρ2, bindIx_of_not_mem, hρ1, bindIx_of_not_mem]
    · intro hkm
      obtain ⟨j, hj, rfl⟩ := List.mem_map.1 hkm
      have := (hbI.2.1 j hj).1
      omega
    · intro hkm
      obtain ⟨j, hj, rfl⟩ := List.mem_map.1 hkm
      rcases List.mem_append.1 hj with hj | hj
      · rcases hden.ids j hj with h | h
        · omega
        · exact hkq h
      · have := (hsI.2.1 j hj).1
        omega
  rw [hff]

theorem dualEval_tensor {b : Elem} {shape : List Nat} {tr : Bool}
    (hd : DualRuns D R (.tensorFE b shape tr)) {n : Nat} {bvs : List Nat}
    (hok : DualOK D R n (.tensorFE b shape tr)) (hnd : (quadIds R (.tensorFE b shape tr)).Nodup)
    (hbv : b.valueShape = .ok bvs)
    {fn : PSet K → M (Gem K)} {f : Env → List K → List Nat → K}
    (hf : ∀ ρ ρ', (∀ k < n, k ∉ quadIds R (.tensorFE b shape tr) → ρ k = ρ' k) → f ρ = f ρ')
    (hfn : ∀ r m, dualBasis D R (.tensorFE b shape tr) n = .ok (r, m) → n ≤ m → r.2.WF m →
      Runs (fn r.2) m fun t m' => m ≤ m' ∧
      Den r.2.Valid t (shape ++ bvs) fun ρ z => f ρ (r.2.pointAt ρ) z) :
    Runs (dualEvaluation D R (.tensorFE b shape tr) fn) n fun (r : Gem K × List Index) n' =>
      n ≤ n' ∧ Fresh n n' r.2 ∧ r.1.shape = [] ∧
        r.2.map Index.extent = b.indexShape ++ shape ∧ ∀ ρ i c, InB i b.indexShape → InB c shape →
          r.1.eval (bindIx ρ r.2 (i ++ c)) [] = dualValue (fiatDuals D R) b i fun x z => f ρ x (c ++ z) := by
  have hv : (Elem.tensorFE b shape tr).valueShape = .ok (shape ++ bvs) := by
    simp [Elem.valueShape, hbv, bind, Except.bind, pure, Except.pure]
  unfold dualEvaluation
  apply Runs.bind
  obtain ⟨⟨Q, ps⟩, n1, hrun, hn1, hden⟩ := hd n n _ hok (Nat.le_refl _) hnd hv
  refine ⟨(Q, ps), n1, hrun, ?_⟩
  obtain ⟨G, hQ, hc⟩ := hden.contract
  simp only at hden hQ hc ⊢
  apply Runs.bind
  refine (hfn (Q, ps) n1 hrun hn1 hden.wf).mono ?_
  rintro t n2 ⟨hn2, ht⟩
  apply Runs.bind
  refine Runs.liftE hv ?_
  apply Runs.bind
  refine Runs.assertM (by simp [ht.shape]) ?_
  apply Runs.bind
  refine Runs.liftE hbv ?_
  apply Runs.bind
  apply Runs.freshIndices
  intro sI n3 hsI esI
  apply Runs.bind
  apply Runs.freshIndices
  intro sV n4 hsV esV
  apply Runs.bind
  apply Runs.freshIndices
  intro tI n5 htI etI
  apply Runs.bind
  apply Runs.freshIndices
  intro tV n6 htV etV
  have h3 := hsI.2.2
  have h4 := hsV.2.2
  have h5 := htI.2.2
  have h6 := htV.2.2
  apply Runs.bind
  apply Runs.mkIndexed
  · rw [hQ.shape]
    simp only [Elem.indexShape]
    cases tr <;> exact fitsShape_free (by simp [esI, esV, etI, etV])
  intro x hx1 hx2
  apply Runs.bind
  apply Runs.mkIndexed
  · rw [ht.shape]; exact fitsShape_free (by simp [etI, esV])
  intro y hy1 hy2
  apply Runs.bind
  apply Runs.mkProduct hx1 hy1
  intro p hp1 hp2
  apply Runs.bind
  apply Runs.mkIndexSum hp1
  intro r hr1 hr2
  apply Runs.pure
  have hfr : Fresh n n6 (sI ++ tV) :=
    ((hsI.mono (by omega : n3 ≤ n5)).append htV).weaken (by omega)
  refine ⟨by omega, hfr, hr1, by simp [esI, etV], ?_⟩
  intro ρ i c hi hcs
  have hql := quadIds_lt hok
  have hps : ∀ j ∈ ps.indices, j.id < n1 := by
    intro j hj
    rcases hden.ids j hj with h | h
    · exact h.2
    · exact Nat.lt_of_lt_of_le (hql _ h) hn1
  have hst : Fresh n3 n5 (sV ++ tI) := hsV.append htI
  have hpn : ((ps.indices ++ (sV ++ tI)).map Index.id).Nodup := by
    rw [List.map_append, List.nodup_append]
    refine ⟨hden.nodup, hst.1, ?_⟩
    intro a ha b hb hab
    obtain ⟨j, hj, rfl⟩ := List.mem_map.1 ha
    obtain ⟨k, hk, rfl⟩ := List.mem_map.1 hb
    have := hps j hj
    have := (hst.2.1 k hk).1
    omega
  -- the functionals, with one component of the value selected
  have hsel : ∀ a, InB a shape →
      (lsum (ndindex (ps.indices.map Index.extent)) fun v => lsum (ndindex bvs) fun z =>
        G v ((if tr then a ++ i else i ++ a) ++ (c ++ z)) * f ρ (ps.at_ v) (a ++ z)) =
      if c = a then dualValue (fiatDuals D R) b i (fun x z => f ρ x (a ++ z)) else 0 := by
    intro a ha
    have hia : InB (if tr then a ++ i else i ++ a) (Elem.tensorFE b shape tr).indexShape := by
      simp only [Elem.indexShape]
      cases tr
      · exact InB.append hi ha
      · exact InB.append ha hi
    have hdv : ∀ g, dualValue (fiatDuals D R) (.tensorFE b shape tr) (if tr then a ++ i else i ++ a) g =
        dualValue (fiatDuals D R) b i fun x z => g x (a ++ z) := by
      intro g
      simp only [dualValue]
      have h1 := hi.length
      have h2 := ha.length
      cases tr
      · simp [← h1]
      · simp [← h2]
    have h := hc _ (fun x w => if c = w.take shape.length then f ρ x (a ++ w.drop shape.length) else 0) hia
    have h0 := hc _ (fun x w => 0) hia
    rw [hdv] at h h0
    have hz : dualValue (fiatDuals D R) b i (fun _ _ => 0) = 0 := by
      rw [← h0]
      exact lsum_zero fun v _ => lsum_zero fun z _ => mul_zero _
    have hl : ∀ v, (lsum (ndindex (shape ++ bvs)) fun z =>
        G v ((if tr then a ++ i else i ++ a) ++ z) *
          (if c = z.take shape.length then f ρ (ps.at_ v) (a ++ z.drop shape.length) else 0)) =
        lsum (ndindex bvs) fun z =>
          G v ((if tr then a ++ i else i ++ a) ++ (c ++ z)) * f ρ (ps.at_ v) (a ++ z) := by
      intro v
      rw [lsum_ndindex_append, lsum_congr (g := fun w => if c = w then lsum (ndindex bvs) fun z =>
        G v ((if tr then a ++ i else i ++ a) ++ (w ++ z)) * f ρ (ps.at_ v) (a ++ z) else 0)
        (fun w hw => ?_), lsum_delta (nodup_ndindex _) (mem_ndindex.2 hcs)]
      have hwl : w.length = shape.length := InB.length (mem_ndindex.1 hw)
      by_cases hcw : c = w
      · rw [if_pos hcw]
        exact lsum_congr fun z _ => by rw [List.take_left' hwl, List.drop_left' hwl, if_pos hcw]
      · rw [if_neg hcw]
        exact lsum_zero fun z _ => by rw [List.take_left' hwl, if_neg hcw, mul_zero]
    rw [lsum_congr (fun v _ => hl v)] at h
    rw [h]
    have hal : a.length = shape.length := ha.length
    by_cases hca : c = a
    · rw [if_pos hca]
      congr 1
      funext x z
      rw [List.take_left' hal, List.drop_left' hal, if_pos hca]
    · rw [if_neg hca]
      refine Eq.trans (congrArg _ ?_) hz
      funext x z
      rw [List.take_left' hal, if_neg hca]
  have hgoal : (lsum (ndindex shape) fun a => if c = a then
      dualValue (fiatDuals D R) b i (fun x z => f ρ x (a ++ z)) else 0) =
      dualValue (fiatDuals D R) b i fun x z => f ρ x (c ++ z) :=
    lsum_delta (nodup_ndindex _) (mem_ndindex.2 hcs) _
  rw [hr2, ← hgoal, ← lsum_congr (fun a ha => hsel a (mem_ndindex.1 ha)), lsum_comm]
  simp only [List.append_assoc, List.map_append, esV, etI]
  refine (lsum_ndindex_append _ _ _).trans (lsum_congr fun v hvm => ?_)
  refine (lsum_ndindex_append _ _ _).trans ?_
  rw [lsum_comm]
  refine lsum_congr fun a ha => lsum_congr fun z hz => ?_
  have hv : InB v _ := mem_ndindex.1 hvm
  have hz : InB z _ := mem_ndindex.1 hz
  have ha : InB a _ := mem_ndindex.1 ha
  rw [hp2, hx2, hy2, map_val_free, map_val_free]
  set ρ1 := bindIx ρ (sI ++ tV) (i ++ c) with hρ1
  have hvza : (v ++ (z ++ a)).length = (ps.indices ++ (sV ++ tI)).length := by
    simp only [List.length_append]
    rw [hv.length, hz.length, ha.length, ← esV, ← etI]; simp
  have hm := map_bindIx ρ1 hpn hvza
  set ρ2 := bindIx ρ1 (ps.indices ++ (sV ++ tI)) (v ++ (z ++ a)) with hρ2
  rw [List.map_append] at hm
  obtain ⟨m1, m2⟩ := List.append_inj hm (by rw [hv.length]; simp)
  rw [List.map_append] at m2
  obtain ⟨m2, m3⟩ := List.append_inj m2 (by rw [hz.length, ← esV]; simp)
  have mb : (sI ++ tV).map (fun j => ρ2 j.id) = i ++ c := by
    rw [hρ2, map_bindIx_other, hρ1, map_bindIx ρ hfr.1 (by
      simp only [List.length_append]; rw [hi.length, hcs.length, ← esI, ← etV]; simp)]
    intro a ha b hb
    rcases List.mem_append.1 ha with ha | ha
    · have := hsI.2.1 a ha
      rcases List.mem_append.1 hb with hb | hb
      · have := hps b hb; omega
      · have := (hst.2.1 b hb).1; omega
    · have := htV.2.1 a ha
      rcases List.mem_append.1 hb with hb | hb
      · have := hps b hb; omega
      · have := (hst.2.1 b hb).2; omega
  rw [List.map_append] at mb
  obtain ⟨m4, m5⟩ := List.append_inj mb (by rw [hi.length, ← esI]; simp)
  have hVal : ps.Valid ρ2 := by
    intro j hj
    exact PSet.valid_bindIx hpn ρ1 (by
      rw [List.map_append, List.map_append, esV, etI]
      exact InB.append hv (InB.append hz ha)) j (List.mem_append_left _ hj)
  have hff : f ρ2 = f ρ := by
    refine hf ρ2 ρ fun k hk hkq => ?_
    rw [hρ2, bindIx_of_not_mem, hρ1, bindIx_of_not_mem]
    · intro hkm
      obtain ⟨j, hj, rfl⟩ := List.mem_map.1 hkm
      have := (hfr.2.1 j hj).1
      omega
    · intro hkm
      obtain ⟨j, hj, rfl⟩ := List.mem_map.1 hkm
      rcases List.mem_append.1 hj with hj | hj
      · rcases hden.ids j hj with h | h
        · omega
        · exact hkq h
      · have := (hst.2.1 j hj).1
        omega
  have hord : (if tr then tI ++ sI ++ tV ++ sV else sI ++ tI ++ tV ++ sV).map (fun j => ρ2 j.id) =
      (if tr then a ++ i else i ++ a) ++ (c ++ z) := by
    cases tr <;> simp [m2, m3, m4, m5]
  have hin : InB ((if tr then a ++ i else i ++ a) ++ (c ++ z))
      ((Elem.tensorFE b shape tr).indexShape ++ (shape ++ bvs)) := by
    refine InB.append ?_ (InB.append hcs hz)
    simp only [Elem.indexShape]
    cases tr
    · exact InB.append hi ha
    · exact InB.append ha hi
  rw [hord, List.map_append, m2, m3, hQ.val ρ2 _ hVal hin, ht.val ρ2 _ hVal (InB.append ha hz), m1,
    PSet.at_eq hden.nodup m1, hff]

end FInAT
