import Verif.Lemmas.TabNode2
import Verif.Lemmas.ElemDofs
import Verif.Spec.Basis

/-!
# Tabulation of element trees
-/

namespace FInAT

open Spec Elem

variable {K : Type} [CommRing K] {P : Type}

/-- What is assumed about points and leaves: `at_ p ρ` is the point selected by the environment,
`valid p ρ` says that the values of the point indices are in range, `wf n p` that the point indices
were created before `n`. Leaves tabulate the values `φ`. -/
structure Sem (I : Interp K P) (φ : LeafVals K) where
  at_ : P → Env → List K
  valid : P → Env → Prop
  wf : Nat → P → Prop
  leafOK : Leaf → Nat → P → Dim × Nat → Prop
  quadOK : Nat → Cell → List Nat → Nat → P → Dim × Nat → Prop
  local_at : ∀ {n p ρ ρ'}, wf n p → Agree n ρ ρ' → at_ p ρ = at_ p ρ'
  local_valid : ∀ {n p}, wf n p → LocalV n (valid p)
  factor : ∀ {n p cs ds ps}, wf n p → (∀ m, I.factor cs ds p m = .ok (ps, m)) →
    (∀ q ∈ ps, wf n q) ∧ ∀ ρ, valid p ρ →
      (∀ q ∈ ps, valid q ρ) ∧ ps.map (fun q => at_ q ρ) = splitLens (ds.map Dim.total) (at_ p ρ)
  forget : ∀ {n p}, wf n p → wf n (I.forget p) ∧ ∀ ρ, valid p ρ →
    valid (I.forget p) ρ ∧ at_ (I.forget p) ρ = at_ p ρ
  factor_forget : ∀ cs ds p, I.factor cs ds (I.forget p) = I.factor cs ds p
  leaf : ∀ {n m p l order entity}, wf n p → n ≤ m →
    leafOK l order p (entity.getD (l.cell.dimension, 0)) →
    Runs (I.leafTab l order p entity) m fun T m' => m ≤ m' ∧
      TabDen (valid p) T l.cell.spatialDim order (l.fns.length :: l.valueShape) fun α ρ v =>
        φ.leaf l α (entity.getD (l.cell.dimension, 0)) (at_ p ρ) (v.take 1) (v.drop 1)
  quad : ∀ {n m p r c ext order entity}, wf n p → n ≤ m →
    quadOK r c ext order p (entity.getD (c.dimension, 0)) →
    Runs (I.quadTab r c ext order p entity) m fun T m' => m ≤ m' ∧
      TabDen (valid p) T c.spatialDim order ext fun _ ρ v => φ.quad r c ext (at_ p ρ) v

/-- Shape conditions established by the constructors (and by the classes: products and sums are not
empty, tensor shapes are not empty). -/
def Shaped : Elem → Prop
  | .leaf _ => True
  | .tensorProduct fs => fs ≠ [] ∧ ∀ f ∈ fs, Shaped f
  | .flattened p => Shaped p
  | .enriched es => ∀ e ∈ es, Shaped e
  | .mixedSub e size offset => Shaped e ∧ size ≠ 0 ∧
      ∃ vs, e.valueShape = .ok vs ∧ offset + vs.prod ≤ size
  | .discontinuous e => Shaped e
  | .tensorFE e shape _ => Shaped e ∧ shape ≠ []
  | .hdiv w => Shaped w ∧ ∃ comps vs c, selectHdiv w.factorsOf = .ok comps ∧ w.valueShape = .ok vs ∧
      w.cell = .ok c ∧ comps.length = c.spatialDim ∧ comps ≠ [] ∧
      ∀ neg ix, Comp.entry neg ix ∈ comps → InB ix vs
  | .hcurl w => Shaped w ∧ ∃ comps vs c, selectHcurl w.factorsOf = .ok comps ∧ w.valueShape = .ok vs ∧
      w.cell = .ok c ∧ comps.length = c.spatialDim ∧ comps ≠ [] ∧
      ∀ neg ix, Comp.entry neg ix ∈ comps → InB ix vs
  | .quadrature _ _ _ => True

variable {I : Interp K P} {φ : LeafVals K}

mutual
/-- The entity exists at every node and the points can be split at every tensor product. -/
def Admits (S : Sem I φ) (order : Nat) : Elem → P → Dim × Nat → Prop
  | .leaf l, p, ent => S.leafOK l order p ent
  | .tensorProduct fs, p, ent => ∃ cs ents ps, Elem.cellL fs = .ok cs ∧
      factorEntity cs (some ent) = .ok ents ∧
      (∀ m, I.factor cs (ents.map Prod.fst) p m = .ok (ps, m)) ∧ AdmitsZip S order fs ps ents
  | .flattened q, p, ent => ∃ ent', unflattenEntity q (some ent) = .ok ent' ∧
      Admits S order q (I.forget p) ent'
  | .enriched es, p, ent => AdmitsL S order es p ent
  | .mixedSub e _ _, p, ent => Admits S order e p ent
  | .discontinuous e, p, ent => Admits S order e p ent
  | .tensorFE e _ _, p, ent => Admits S order e p ent
  | .hdiv w, p, ent => Admits S order w (I.forget p) ent
  | .hcurl w, p, ent => Admits S order w (I.forget p) ent
  | .quadrature r c ext, p, ent => S.quadOK r c ext order p ent
/-- Factor by factor. -/
def AdmitsZip (S : Sem I φ) (order : Nat) : List Elem → List P → List (Dim × Nat) → Prop
  | [], [], [] => True
  | f :: fs, p :: ps, e :: es => Admits S order f p e ∧ AdmitsZip S order fs ps es
  | _, _, _ => False
/-- All elements at the same points. -/
def AdmitsL (S : Sem I φ) (order : Nat) : List Elem → P → Dim × Nat → Prop
  | [], _, _ => True
  | e :: es, p, ent => Admits S order e p ent ∧ AdmitsL S order es p ent
end

theorem sdim_eq {e : Elem} {c : Cell} (h : e.cell = .ok c) : sdim e = c.spatialDim := by
  simp [sdim, h]

theorem vshape_eq {e : Elem} {s : List Nat} (h : e.valueShape = .ok s) : vshape e = s := by
  simp [vshape, h]

theorem TabDen.congr {V : Env → Prop} {T : Tab K} {sd order : Nat} {s s' : List Nat}
    {F F' : List Nat → Env → List Nat → K} (h : TabDen V T sd order s F) (hs : s = s')
    (hF : ∀ α ρ v, V ρ → InB v s → α.length = sd → F α ρ v = F' α ρ v) : TabDen V T sd order s' F' := by
  subst hs
  refine ⟨h.nodup, h.keys, fun α t ht => ?_⟩
  have hd := h.den α t ht
  have hk : α ∈ T.keys := by rw [← Dict.get?_isSome_iff, ht]; rfl
  exact ⟨hd.shape, fun ρ v hV hv => by rw [hd.val ρ v hV hv, hF α ρ v hV hv ((h.keys α).1 hk).1]⟩

theorem TabDen.weaken {V V' : Env → Prop} {T : Tab K} {sd order : Nat} {s : List Nat}
    {F : List Nat → Env → List Nat → K} (h : TabDen V T sd order s F) (hV : ∀ ρ, V' ρ → V ρ) :
    TabDen V' T sd order s F :=
  ⟨h.nodup, h.keys, fun α t ht => ⟨(h.den α t ht).shape, fun ρ v hv hi => (h.den α t ht).val ρ v (hV ρ hv) hi⟩⟩

/-- The tabulated values of an element, as a function of environment and entry. -/
def elemF (S : Sem I φ) (e : Elem) (p : P) (ent : Dim × Nat) (α : List Nat) (ρ : Env) (v : List Nat) : K :=
  basisValue φ e α ent (S.at_ p ρ) (v.take e.indexShape.length) (v.drop e.indexShape.length)

theorem elemF_local (S : Sem I φ) {n : Nat} {p : P} (h : S.wf n p) (e : Elem) (ent : Dim × Nat)
    (α : List Nat) : LocalF n (elemF S e p ent α) := by
  intro ρ ρ' v ha
  simp only [elemF, S.local_at h ha]

/-- The claim proved by induction over the tree. -/
def EvalOK (S : Sem I φ) (e : Elem) : Prop :=
  ∀ order p entity c vs n m, S.wf n p → n ≤ m → e.cell = .ok c → e.valueShape = .ok vs →
    Admits S order e p (entity.getD (c.dimension, 0)) →
    Runs (evaluate I e order p entity) m fun T m' => m ≤ m' ∧
      TabDen (S.valid p) T c.spatialDim order (e.indexShape ++ vs)
        (elemF S e p (entity.getD (c.dimension, 0)))

/-- Dropping the coordinate mapping does not change the points. -/
theorem TabDen.forget (S : Sem I φ) {n : Nat} {p : P} (hp : S.wf n p) {T : Tab K} {sd order : Nat} {s : List Nat}
    {e : Elem} {ent : Dim × Nat} (h : TabDen (S.valid (I.forget p)) T sd order s (elemF S e (I.forget p) ent)) :
    TabDen (S.valid p) T sd order s (elemF S e p ent) := by
  refine (h.weaken fun ρ hρ => ((S.forget hp).2 ρ hρ).1).congr rfl ?_
  intro α ρ v hρ _ _
  simp only [elemF, ((S.forget hp).2 ρ hρ).2]

theorem prodValueShape_flatten {ss : List (List Nat)} {s : List Nat} (h : prodValueShape ss = .ok s) :
    s = ss.flatten := by
  have hfl : ss.flatten = (ss.filter fun s => decide (s ≠ [])).flatten := by
    clear h
    induction ss with
    | nil => rfl
    | cons a ss ih => by_cases ha : a = [] <;> simp_all
  rw [hfl]
  unfold prodValueShape at h
  split at h
  · next h' => cases h; rw [h']; rfl
  · next h' => cases h; rw [h']; simp
  · cases h

theorem evalOK_leaf (S : Sem I φ) (l : Leaf) : EvalOK S (.leaf l) := by
  intro order p entity c vs n m hp hm hc hv ha
  simp only [Elem.cell] at hc
  simp only [Elem.valueShape] at hv
  cases hc; cases hv
  unfold evaluate
  refine (S.leaf hp hm (by simpa [Admits] using ha)).mono ?_
  rintro T m' ⟨h1, h2⟩
  refine ⟨h1, h2.congr (by simp [Elem.indexShape]) ?_⟩
  intro α ρ v _ _ _
  simp [elemF, basisValue, Elem.indexShape]

theorem evalOK_quadrature (S : Sem I φ) (r : Nat) (c0 : Cell) (ext : List Nat) :
    EvalOK S (.quadrature r c0 ext) := by
  intro order p entity c vs n m hp hm hc hv ha
  simp only [Elem.cell] at hc
  simp only [Elem.valueShape] at hv
  cases hc; cases hv
  unfold evaluate
  refine (S.quad hp hm (by simpa [Admits] using ha)).mono ?_
  rintro T m' ⟨h1, h2⟩
  refine ⟨h1, h2.congr (by simp [Elem.indexShape]) ?_⟩
  intro α ρ v _ hv _
  have := hv.length
  simp [elemF, basisValue, Elem.indexShape, List.take_of_length_le (Nat.le_of_eq this)]

/-- Cells and value shapes of the factors, successful. -/
theorem cellL_cons {e : Elem} {es : List Elem} {cs : List Cell} (h : Elem.cellL (e :: es) = .ok cs) :
    ∃ c cs', e.cell = .ok c ∧ Elem.cellL es = .ok cs' ∧ cs = c :: cs' := by
  simp only [Elem.cellL] at h
  rw [bind_ok] at h
  obtain ⟨c, h1, h⟩ := h
  rw [bind_ok] at h
  obtain ⟨cs', h2, h⟩ := h
  cases h
  exact ⟨c, cs', h1, h2, rfl⟩

theorem valueShapeL_cons {e : Elem} {es : List Elem} {ss : List (List Nat)}
    (h : Elem.valueShapeL (e :: es) = .ok ss) :
    ∃ s ss', e.valueShape = .ok s ∧ Elem.valueShapeL es = .ok ss' ∧ ss = s :: ss' := by
  simp only [Elem.valueShapeL] at h
  rw [bind_ok] at h
  obtain ⟨c, h1, h⟩ := h
  rw [bind_ok] at h
  obtain ⟨cs', h2, h⟩ := h
  cases h
  exact ⟨c, cs', h1, h2, rfl⟩

/-- The factors, one by one. -/
theorem evaluateZip_spec (S : Sem I φ) {n : Nat} {V : Env → Prop} :
    ∀ (fs : List Elem) (ps : List P) (ents : List (Dim × Nat)) (cs : List Cell) (ss : List (List Nat))
      (order m : Nat),
      (∀ f ∈ fs, EvalOK S f) → (∀ q ∈ ps, S.wf n q) → (∀ q ∈ ps, ∀ ρ, V ρ → S.valid q ρ) → n ≤ m →
      Elem.cellL fs = .ok cs → Elem.valueShapeL fs = .ok ss → AdmitsZip S order fs ps ents →
      Runs (evaluateZip I fs order ps ents) m fun Ts m' => m ≤ m' ∧ ∃ L : List (TFac K),
        Ts = L.map TFac.tab ∧ L.map TFac.sd = cs.map Cell.spatialDim ∧
        L.map TFac.is = Elem.indexShapeL fs ∧ L.map TFac.vs = ss ∧
        (∀ x ∈ L, (∀ α, LocalF n (x.F α)) ∧ TabDen V x.tab x.sd order (x.is ++ x.vs) x.F) ∧
        ∀ α ρ X i z, ps.map (fun q => S.at_ q ρ) = splitLens (ents.map fun e => e.1.total) X →
          InB i (Elem.indexShapeL fs).flatten →
          prodTabVal L α ρ i z = prodValue φ fs α ents X i z
  | [], ps, ents, cs, ss, order, m, _, _, _, _, hc, hs, ha => by
    simp only [Elem.cellL] at hc
    simp only [Elem.valueShapeL] at hs
    cases hc; cases hs
    unfold evaluateZip
    refine Runs.pure ⟨Nat.le_refl _, [], rfl, rfl, rfl, rfl, by simp, ?_⟩
    intro α ρ X i z _ _
    simp [prodTabVal, prodValue]
  | f :: fs, [], _, _, _, _, _, _, _, _, _, _, _, ha => by simp [AdmitsZip] at ha
  | f :: fs, _ :: _, [], _, _, _, _, _, _, _, _, _, _, ha => by simp [AdmitsZip] at ha
  | f :: fs, p :: ps, ent :: ents, cs, ss, order, m, hok, hwf, hval, hm, hc, hs, ha => by
    obtain ⟨c, cs', hc1, hc2, rfl⟩ := cellL_cons hc
    obtain ⟨s, ss', hs1, hs2, rfl⟩ := valueShapeL_cons hs
    simp only [AdmitsZip] at ha
    have hrec := evaluateZip_spec S (n := n) (V := V) fs ps ents cs' ss' order
    unfold evaluateZip
    apply Runs.bind
    have hf := hok f List.mem_cons_self order p (some ent) c s n m
      (hwf p List.mem_cons_self) hm hc1 hs1 ha.1
    refine hf.mono ?_
    rintro T m1 ⟨h1, h2⟩
    apply Runs.bind
    refine (hrec m1 (fun g hg => hok g (List.mem_cons_of_mem _ hg))
      (fun q hq => hwf q (List.mem_cons_of_mem _ hq)) (fun q hq => hval q (List.mem_cons_of_mem _ hq))
      (Nat.le_trans hm h1) hc2 hs2 ha.2).mono ?_
    rintro Ts m2 ⟨h3, L, rfl, l1, l2, l3, l4, l5⟩
    refine Runs.pure ⟨Nat.le_trans h1 h3,
      ⟨c.spatialDim, f.indexShape, s, T, elemF S f p ent⟩ :: L, rfl, by simp [l1],
      by simp [l2, Elem.indexShapeL], by simp [l3], ?_, ?_⟩
    · intro x hx
      rcases List.mem_cons.1 hx with rfl | hx
      · exact ⟨elemF_local S (hwf p List.mem_cons_self) f ent,
          h2.weaken fun ρ hρ => hval p List.mem_cons_self ρ hρ⟩
      · exact l4 x hx
    · intro α ρ X i z hX hi
      simp only [List.map_cons, splitLens, List.cons.injEq] at hX
      simp only [Elem.indexShapeL, List.flatten_cons] at hi
      have hlen : (i.take f.indexShape.length).length = f.indexShape.length := hi.split.1.length
      simp only [prodTabVal, prodValue]
      rw [l5 _ ρ (X.drop ent.1.total) _ _ hX.2 hi.split.2, sdim_eq hc1, vshape_eq hs1]
      congr 1
      simp only [elemF]
      rw [hX.1]
      rw [List.take_left' hlen, List.drop_left' hlen]

theorem evalOK_tensorProduct (S : Sem I φ) {fs : List Elem} (hne : fs ≠ []) (hok : ∀ f ∈ fs, EvalOK S f) :
    EvalOK S (.tensorProduct fs) := by
  intro order p entity c vs n m hp hm hc hv ha
  simp only [Admits] at ha
  obtain ⟨cs, ents, ps, hcs, hents, hfac, hz⟩ := ha
  have hc' : c = .prod cs := by
    simp only [Elem.cell, hcs] at hc
    cases hc; rfl
  subst hc'
  simp only [Elem.valueShape] at hv
  rw [bind_ok] at hv
  obtain ⟨ss, hss, hpv⟩ := hv
  have hfl := prodValueShape_flatten hpv
  subst hfl
  obtain ⟨hwf, hval⟩ := S.factor hp hfac
  unfold evaluate
  apply Runs.bind
  refine Runs.liftE hcs ?_
  apply Runs.bind
  refine Runs.liftE (a := ents) ?_ ?_
  · rw [← hents]; cases entity <;> rfl
  apply Runs.bind
  refine ⟨ps, m, hfac m, ?_⟩
  apply Runs.bind
  refine (evaluateZip_spec S (V := S.valid p) fs ps ents cs ss order m hok hwf
    (fun q hq ρ hρ => (hval ρ hρ).1 q hq) hm hcs hss hz).mono ?_
  rintro Ts m1 ⟨h1, L, rfl, l1, l2, l3, l4, l5⟩
  apply Runs.bind
  refine Runs.liftE hss ?_
  have hLne : L ≠ [] := by
    intro h
    subst h
    cases fs with
    | nil => exact hne rfl
    | cons f fs => simp [Elem.indexShapeL] at l2
  have := mergeEvaluations_spec (n := m1) (Nat.le_trans hm h1) (S.local_valid hp) L hLne l4
  rw [l1, l2, l3] at this
  refine this.mono ?_
  rintro T m2 ⟨h2, h3⟩
  refine ⟨Nat.le_trans h1 h2, ?_⟩
  have hsd : (Cell.prod cs).spatialDim = (cs.map Cell.spatialDim).sum := by
    rw [Cell.spatialDim]
    clear h3 this l1 hfac hents hc hcs
    induction cs with
    | nil => rfl
    | cons c cs ih => simp [Cell.spatialDimL, ih]
  rw [hsd]
  refine h3.congr (by rw [Elem.indexShape]) ?_
  intro α ρ v hρ hvb _
  have hents' : factorEnts fs (entity.getD ((Cell.prod cs).dimension, 0)) = ents := by
    have : (Elem.cellL fs >>= fun cs => factorEntity cs (some (entity.getD ((Cell.prod cs).dimension, 0)))) = .ok ents := by
      rw [hcs]; exact hents
    unfold factorEnts
    have h' : (Elem.cellL fs >>= fun cs' => factorEntity cs' (some (entity.getD ((Cell.prod cs).dimension, 0)))) = .ok ents := by
      rw [hcs]; exact hents
    rw [h']
  rw [l5 α ρ (S.at_ p ρ) _ _ (by rw [(hval ρ hρ).2]; simp [List.map_map, Function.comp_def]) hvb.split.1]
  simp only [elemF, basisValue, hents', Elem.indexShape]

theorem evaluateL_spec (S : Sem I φ) {n : Nat} :
    ∀ (es : List Elem) (p : P) (entity : Option (Dim × Nat)) (c : Cell) (vs : List Nat) (order m : Nat),
      (∀ f ∈ es, EvalOK S f) → S.wf n p → n ≤ m → (∀ e ∈ es, e.cell = .ok c) →
      (∀ e ∈ es, e.valueShape = .ok vs) → AdmitsL S order es p (entity.getD (c.dimension, 0)) →
      Runs (evaluateL I es order p entity) m fun Ts m' => m ≤ m' ∧
        ∃ L : List ((List Nat × Tab K) × (List Nat → Env → List Nat → K)),
        Ts = L.map (fun x => x.1.2) ∧ L.map (fun x => x.1.1) = Elem.indexShapeL es ∧
        (∀ x ∈ L, (∀ α, LocalF n (x.2 α)) ∧ TabDen (S.valid p) x.1.2 c.spatialDim order (x.1.1 ++ vs) x.2) ∧
        ∀ α ρ k z, z.length = vs.length → blockVal (L.map fun x => (x.1.1, x.2 α)) ρ k z =
          sumValue φ es α (entity.getD (c.dimension, 0)) (S.at_ p ρ) k z
  | [], _, _, _, _, _, _, _, _, _, _, _, _ => by
    unfold evaluateL
    refine Runs.pure ⟨Nat.le_refl _, [], rfl, rfl, by simp, ?_⟩
    intro α ρ k z _
    simp [blockVal, sumValue]
  | e :: es, p, entity, c, vs, order, m, hok, hp, hm, hc, hv, ha => by
    have hrec := evaluateL_spec S (n := n) es p entity c vs order
    simp only [AdmitsL] at ha
    unfold evaluateL
    apply Runs.bind
    refine (hok e List.mem_cons_self order p entity c vs n m hp hm (hc e List.mem_cons_self)
      (hv e List.mem_cons_self) ha.1).mono ?_
    rintro T m1 ⟨h1, h2⟩
    apply Runs.bind
    refine (hrec m1 (fun g hg => hok g (List.mem_cons_of_mem _ hg)) hp (Nat.le_trans hm h1)
      (fun g hg => hc g (List.mem_cons_of_mem _ hg)) (fun g hg => hv g (List.mem_cons_of_mem _ hg)) ha.2).mono ?_
    rintro Ts m2 ⟨h3, L, rfl, l1, l2, l3⟩
    refine Runs.pure ⟨Nat.le_trans h1 h3,
      ((e.indexShape, T), elemF S e p (entity.getD (c.dimension, 0))) :: L, rfl,
      by simp [l1, Elem.indexShapeL], ?_, ?_⟩
    · intro x hx
      rcases List.mem_cons.1 hx with rfl | hx
      · exact ⟨elemF_local S hp e _, h2⟩
      · exact l2 x hx
    · intro α ρ k z hz
      simp only [List.map_cons, blockVal, sumValue, l3 α ρ _ z hz, Elem.indexShape_prod]
      split
      · next h =>
        have hlen : (unravel e.indexShape k).length = e.indexShape.length :=
          (unravel_bounds (by rw [Elem.indexShape_prod]; exact h)).length_eq
        simp only [elemF]
        rw [List.take_left' hlen, List.drop_left' hlen]
      · rfl

theorem uniqueOf_mem {α : Type} [DecidableEq α] {l : List α} {a : α} (h : uniqueOf l = .ok a) :
    l ≠ [] ∧ ∀ b ∈ l, b = a := by
  cases l with
  | nil => cases h
  | cons b l =>
    simp only [uniqueOf] at h
    split at h
    · next h' =>
      cases h
      simp only [List.all_eq_true, decide_eq_true_eq] at h'
      refine ⟨by simp, fun x hx => ?_⟩
      rcases List.mem_cons.1 hx with rfl | hx
      · rfl
      · exact h' x hx
    · cases h

theorem valueShapeL_mem : ∀ {es : List Elem} {ss : List (List Nat)}, Elem.valueShapeL es = .ok ss →
    ∀ e ∈ es, ∃ s ∈ ss, e.valueShape = .ok s
  | [], _, _, e, he => by simp at he
  | x :: es, ss, h, e, he => by
    obtain ⟨s, ss', h1, h2, rfl⟩ := valueShapeL_cons h
    rcases List.mem_cons.1 he with rfl | he
    · exact ⟨s, List.mem_cons_self, h1⟩
    · obtain ⟨t, ht, h3⟩ := valueShapeL_mem h2 e he
      exact ⟨t, List.mem_cons_of_mem _ ht, h3⟩

theorem evalOK_enriched (S : Sem I φ) {es : List Elem} (hok : ∀ f ∈ es, EvalOK S f) :
    EvalOK S (.enriched es) := by
  intro order p entity c vs n m hp hm hc hv ha
  obtain ⟨_, _, _, _, hcells⟩ := enriched_cells hc
  have hv0 := hv
  simp only [Elem.valueShape] at hv
  rw [bind_ok] at hv
  obtain ⟨ss, hss, hu⟩ := hv
  have hvs : ∀ e ∈ es, e.valueShape = .ok vs := by
    intro e he
    obtain ⟨s, hs, h1⟩ := valueShapeL_mem hss e he
    rw [h1, (uniqueOf_mem hu).2 s hs]
  have hne : es ≠ [] := by
    intro h
    subst h
    simp only [Elem.valueShapeL] at hss
    cases hss
    exact (uniqueOf_mem hu).1 rfl
  unfold evaluate
  apply Runs.bind
  refine (evaluateL_spec S es p entity c vs order m hok hp hm hcells hvs (by simpa [Admits] using ha)).mono ?_
  rintro Ts m1 ⟨h1, L, rfl, l1, l2, l3⟩
  apply Runs.bind
  refine Runs.liftE hv0 ?_
  have hLne : L ≠ [] := by
    intro h
    subst h
    cases es with
    | nil => exact hne rfl
    | cons e es => simp [Elem.indexShapeL] at l1
  have hsum : (L.map fun x => x.1.1.prod).sum = (Elem.spaceDimL es).sum := by
    have h := congrArg (List.map List.prod) l1
    rw [List.map_map] at h
    have h' : (L.map fun x => x.1.1.prod) = (Elem.indexShapeL es).map List.prod := h
    rw [h']
    clear * -
    induction es with
    | nil => rfl
    | cons e es ih => simp [Elem.indexShapeL, Elem.spaceDimL, Elem.indexShape_prod, ih]
  have := composeEnriched_spec (n := m1) (Nat.le_trans hm h1) (S.local_valid hp) L hLne vs l2
  rw [l1, hsum] at this
  refine this.mono ?_
  rintro T m2 ⟨h2, h3⟩
  refine ⟨Nat.le_trans h1 h2, h3.congr (by simp [Elem.indexShape]) ?_⟩
  intro α ρ v hρ hvb _
  cases hvb with
  | @cons k _ z _ hk hz =>
    simp only [List.headD_cons, List.drop_one, List.tail_cons]
    rw [l3 α ρ k z (InB.length hz)]
    simp [elemF, basisValue, Elem.indexShape]

theorem last_split {v is : List Nat} {k : Nat} (h : InB v (is ++ [k])) :
    v.take is.length = v.dropLast ∧ v.drop is.length = [v.getLastD 0] := by
  obtain ⟨h1, h2⟩ := h.split
  have hlen : v.length = is.length + 1 := by rw [h.length]; simp
  constructor
  · rw [List.dropLast_eq_take, hlen]; rfl
  · cases h2' : v.drop is.length with
    | nil => rw [h2'] at h2; cases h2
    | cons a t =>
      rw [h2'] at h2
      cases h2 with
      | cons _ ht =>
        cases ht
        have : v = v.take is.length ++ [a] := by rw [← h2', List.take_append_drop]
        rw [this]; simp

theorem evalOK_mixedSub (S : Sem I φ) {e : Elem} {size offset : Nat} (hok : EvalOK S e) (hsize : size ≠ 0)
    (hs : ∃ vs, e.valueShape = .ok vs ∧ offset + vs.prod ≤ size) : EvalOK S (.mixedSub e size offset) := by
  intro order p entity c vs' n m hp hm hc hv ha
  obtain ⟨vs, hvs, hs⟩ := hs
  simp only [Elem.cell] at hc
  simp only [Elem.valueShape] at hv
  cases hv
  unfold evaluate
  apply Runs.bind
  refine (hok order p entity c vs n m hp hm hc hvs (by simpa [Admits] using ha)).mono ?_
  rintro core m1 ⟨h1, h2⟩
  apply Runs.bind
  apply Runs.freshIndices
  intro beta m2 hb eb
  apply Runs.bind
  apply Runs.freshIndices
  intro zeta m3 hz ez
  apply Runs.bind
  refine Runs.liftE hvs ?_
  have hf := hb.append hz
  refine (mapTab_spec (n0 := n) (G := mixedVal vs offset) (s' := e.indexShape ++ [size]) h2
    (elemF_local S hp e _) ?_).mono ?_
  · intro t F0 ht hF0 n' hn'
    exact promoteMixed_spec (Nat.le_trans hm h1) (S.local_valid hp) hsize hs ht hF0 hf.2.2 hf eb ez
      n' hn'
  · rintro T m4 ⟨h3, h4⟩
    refine ⟨by have := hf.2.2; omega, h4.congr (by simp [Elem.indexShape]) ?_⟩
    intro α ρ v _ hvb _
    obtain ⟨e1, e2⟩ := last_split hvb
    simp only [mixedVal, elemF, basisValue, Elem.indexShape, vshape_eq hvs, e1, e2, List.headD_cons]
    split
    · have hlen : v.dropLast.length = e.indexShape.length := by
        rw [← e1]; exact (InB.split hvb).1.length
      rw [List.take_left' hlen, List.drop_left' hlen]
    · rfl

theorem compVal_eq (F : List Nat → K) (c : Comp) : compVal F c = compValue F c := by
  cases c with
  | zero => rfl
  | entry neg ix => cases neg <;> rfl

theorem evalOK_wrap (S : Sem I φ) {w : Elem} {e : Elem} (sel : Except Err (List Comp)) (hok : EvalOK S w)
    (heval : ∀ order p entity, evaluate I e order p entity = (do
      let core ← evaluate I w order (I.forget p) entity
      let comps ← liftE sel
      let c ← liftE w.cell
      let beta ← freshIndices w.indexShape
      let zeta ← freshIndices [c.spatialDim]
      mapTab (promoteWrapped comps beta zeta) core))
    (hval : ∀ α ent x i z, basisValue φ e α ent x i z =
      wrapValue sel (basisValue φ w α ent x i) (z.headD 0))
    (hidx : e.indexShape = w.indexShape) (hcell : e.cell = w.cell)
    (hvsh : ∀ c, w.cell = .ok c → e.valueShape = .ok [c.spatialDim])
    (hadm : ∀ order p ent, Admits S order e p ent → Admits S order w (I.forget p) ent)
    (hsel : ∃ comps vs c, sel = .ok comps ∧ w.valueShape = .ok vs ∧
      w.cell = .ok c ∧ comps.length = c.spatialDim ∧ comps ≠ [] ∧
      ∀ neg ix, Comp.entry neg ix ∈ comps → InB ix vs) : EvalOK S e := by
  obtain ⟨comps, vs, c, rfl, hvs, hwc, hlen, hcne, hin⟩ := hsel
  intro order p entity c' vs' n m hp hm hc hv ha
  rw [hcell, hwc] at hc
  cases hc
  rw [hvsh c hwc] at hv
  cases hv
  rw [heval]
  apply Runs.bind
  refine (hok order (I.forget p) entity c vs n m (S.forget hp).1 hm hwc hvs (hadm _ _ _ ha)).mono ?_
  rintro core m1 ⟨h1, h2⟩
  replace h2 := h2.forget S hp
  apply Runs.bind
  refine Runs.liftE rfl ?_
  apply Runs.bind
  refine Runs.liftE hwc ?_
  apply Runs.bind
  apply Runs.freshIndices
  intro beta m2 hb eb
  apply Runs.bind
  apply Runs.freshIndices
  intro zeta m3 hz ez
  have hf := hb.append hz
  refine (mapTab_spec (n0 := n) (G := wrapVal comps) (s' := w.indexShape ++ [comps.length]) h2
    (elemF_local S hp w _) ?_).mono ?_
  · intro t F0 ht hF0 n' hn'
    exact promoteWrapped_spec (Nat.le_trans hm h1) (S.local_valid hp) hcne hin ht hF0 hf.2.2 hf eb
      (by rw [ez, hlen]) n' hn'
  · rintro T m4 ⟨h3, h4⟩
    refine ⟨by have := hf.2.2; omega, h4.congr (by rw [hidx, hlen]) ?_⟩
    intro α ρ v _ hvb _
    obtain ⟨e1, e2⟩ := last_split hvb
    have hl : v.dropLast.length = w.indexShape.length := by
      rw [← e1]; exact (InB.split hvb).1.length
    simp only [wrapVal, elemF, hval, hidx, wrapValue, e1, e2, List.headD_cons]
    cases comps[v.getLastD 0]? with
    | none => rfl
    | some cc =>
      simp only [Option.map_some, Option.getD_some, compVal_eq]
      cases cc with
      | zero => rfl
      | entry neg ix =>
        cases neg <;> simp only [compValue, List.take_left' hl, List.drop_left' hl]

theorem evalOK_tensorFE (S : Sem I φ) {e : Elem} {shape : List Nat} (tr : Bool) (hok : EvalOK S e)
    (hsh : shape ≠ []) : EvalOK S (.tensorFE e shape tr) := by
  intro order p entity c vs' n m hp hm hc hv ha
  simp only [Elem.cell] at hc
  simp only [Elem.valueShape] at hv
  rw [bind_ok] at hv
  obtain ⟨vs, hvs, hv⟩ := hv
  cases hv
  unfold evaluate
  apply Runs.bind
  refine (hok order p entity c vs n m hp hm hc hvs (by simpa [Admits] using ha)).mono ?_
  rintro core m1 ⟨h1, h2⟩
  apply Runs.bind
  refine Runs.liftE hvs ?_
  refine (tensorise_spec (Nat.le_trans hm h1) (S.local_valid hp) hsh tr h2 (elemF_local S hp e _)).mono ?_
  rintro T m2 ⟨h3, h4⟩
  refine ⟨Nat.le_trans h1 h3, h4.congr (by simp [Elem.indexShape]) ?_⟩
  intro α ρ v _ hvb _
  have hvl := hvb.length
  obtain ⟨a1, a2⟩ := hvb.split
  have hl1 : (if tr then shape ++ e.indexShape else e.indexShape ++ shape).length =
      e.indexShape.length + shape.length := by cases tr <;> simp; omega
  simp only [tensorVal, elemF, basisValue, Elem.indexShape, hl1]
  have hcomp : (if tr = true then v.take shape.length else (v.drop e.indexShape.length).take shape.length) =
      (if tr = true then (v.take (e.indexShape.length + shape.length)).take shape.length
       else (v.take (e.indexShape.length + shape.length)).drop e.indexShape.length) := by
    cases tr
    · simp only [Bool.false_eq_true, if_false]
      rw [List.drop_take, Nat.add_sub_cancel_left]
    · simp only [if_true]
      rw [List.take_take, Nat.min_eq_left (by omega)]
  have hbase : (if tr = true then (v.drop shape.length).take e.indexShape.length else v.take e.indexShape.length) =
      (if tr = true then (v.take (e.indexShape.length + shape.length)).drop shape.length
       else (v.take (e.indexShape.length + shape.length)).take e.indexShape.length) := by
    cases tr
    · simp only [Bool.false_eq_true, if_false]
      rw [List.take_take, Nat.min_eq_left (by omega)]
    · simp only [if_true]
      rw [List.drop_take, Nat.add_sub_cancel_right]
  rw [hcomp, hbase]
  have hbl : (if tr = true then (v.take (e.indexShape.length + shape.length)).drop shape.length
       else (v.take (e.indexShape.length + shape.length)).take e.indexShape.length).length =
         e.indexShape.length := by
    rw [← hbase]
    simp only [List.length_append, hl1] at hvl
    cases tr <;> simp <;> omega
  rw [List.take_left' hbl, List.drop_left' hbl]

theorem evalOK_discontinuous (S : Sem I φ) {e : Elem} (hok : EvalOK S e) : EvalOK S (.discontinuous e) := by
  intro order p entity c vs n m hp hm hc hv ha
  simp only [Elem.cell] at hc
  simp only [Elem.valueShape] at hv
  unfold evaluate
  refine (hok order p entity c vs n m hp hm hc hv (by simpa [Admits] using ha)).mono ?_
  rintro T m' ⟨h1, h2⟩
  refine ⟨h1, h2.congr (by simp [Elem.indexShape]) ?_⟩
  intro α ρ v _ _ _
  simp [elemF, basisValue, Elem.indexShape]

theorem evalOK_flattened (S : Sem I φ) {q : Elem} (hok : EvalOK S q) : EvalOK S (.flattened q) := by
  intro order p entity c vs n m hp hm hc hv ha
  have hc0 := hc
  simp only [Elem.cell] at hc
  rw [bind_ok] at hc
  obtain ⟨cq, hcq, hc⟩ := hc
  simp only [Elem.valueShape] at hv
  simp only [Admits] at ha
  obtain ⟨ent', he, ha⟩ := ha
  have hun : unflattenEntity q entity = .ok ent' := by
    rw [← he]
    cases entity with
    | some e => rfl
    | none =>
      simp only [Option.getD_none]
      unfold unflattenEntity
      rw [hc0]
      split at hc
      · cases hc; rfl
      · split at hc
        · cases hc; rfl
        · cases hc
  have hsd : c.spatialDim = cq.spatialDim := by
    split at hc
    · next h => cases hc; rw [h]; rfl
    · split at hc
      · next h => cases hc; rw [h]; rfl
      · cases hc
  unfold evaluate
  apply Runs.bind
  refine Runs.liftE hun ?_
  refine (hok order (I.forget p) (some ent') cq vs n m (S.forget hp).1 hm hcq hv ha).mono ?_
  rintro T m' ⟨h1, h2⟩
  replace h2 := h2.forget S hp
  rw [hsd]
  refine ⟨h1, h2.congr (by simp [Elem.indexShape]) ?_⟩
  intro α ρ v _ _ _
  simp only [elemF, basisValue, Elem.indexShape, productEnt, he, Option.getD_some]

mutual
/-- Every well-shaped element is tabulated correctly. -/
theorem evaluate_ok (S : Sem I φ) : ∀ e : Elem, Shaped e → EvalOK S e
  | .leaf l, _ => evalOK_leaf S l
  | .tensorProduct fs, h => by
    simp only [Shaped] at h
    exact evalOK_tensorProduct S h.1 (evaluate_okL S fs h.2)
  | .flattened p, h => by
    simp only [Shaped] at h
    exact evalOK_flattened S (evaluate_ok S p h)
  | .enriched es, h => by
    simp only [Shaped] at h
    exact evalOK_enriched S (evaluate_okL S es h)
  | .mixedSub e size offset, h => by
    simp only [Shaped] at h
    exact evalOK_mixedSub S (evaluate_ok S e h.1) h.2.1 h.2.2
  | .discontinuous e, h => by
    simp only [Shaped] at h
    exact evalOK_discontinuous S (evaluate_ok S e h)
  | .tensorFE e shape tr, h => by
    simp only [Shaped] at h
    exact evalOK_tensorFE S tr (evaluate_ok S e h.1) h.2
  | .hdiv w, h => by
    simp only [Shaped] at h
    exact evalOK_wrap S (selectHdiv w.factorsOf) (evaluate_ok S w h.1)
      (fun _ _ _ => by rw [evaluate]) (fun _ _ _ _ _ => by simp only [basisValue])
      (by simp only [Elem.indexShape]) (by simp only [Elem.cell])
      (fun c hc => by simp only [Elem.valueShape, hc]; rfl)
      (fun _ _ _ h => by simpa only [Admits] using h) h.2
  | .hcurl w, h => by
    simp only [Shaped] at h
    exact evalOK_wrap S (selectHcurl w.factorsOf) (evaluate_ok S w h.1)
      (fun _ _ _ => by rw [evaluate]) (fun _ _ _ _ _ => by simp only [basisValue])
      (by simp only [Elem.indexShape]) (by simp only [Elem.cell])
      (fun c hc => by simp only [Elem.valueShape, hc]; rfl)
      (fun _ _ _ h => by simpa only [Admits] using h) h.2
  | .quadrature r c ext, _ => evalOK_quadrature S r c ext
/-- ... and every element of a list. -/
theorem evaluate_okL (S : Sem I φ) : ∀ es : List Elem, (∀ e ∈ es, Shaped e) → ∀ e ∈ es, EvalOK S e
  | [], _, e, he => by simp at he
  | x :: es, h, e, he => by
    have h1 := evaluate_ok S x (h x List.mem_cons_self)
    have h2 := evaluate_okL S es (fun y hy => h y (List.mem_cons_of_mem _ hy))
    rcases List.mem_cons.1 he with rfl | he
    · exact h1
    · exact h2 e he
end

end FInAT
