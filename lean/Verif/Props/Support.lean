import Verif.Lemmas.SupportDeg
import Verif.Lemmas.Support2
import Verif.Lemmas.PolyFiat
import Verif.Props.Dofs

/-!
# C70: the support of basis functions
-/

set_option linter.unusedSectionVars false

namespace FInAT.Props

open FInAT Spec

variable {K : Type} [Field K] [LinearOrder K] [IsStrictOrderedRing K]

mutual
/-- C70, composite elements. If `entity_support_dofs` is right for the parts at which it integrates, it is right
for the whole tree: tensor products, flattened products, enriched and mixed elements, H(div) and H(curl) wrappers.
Right means: it lists for every entity exactly the dofs whose basis functions do not vanish identically there. -/
theorem C70_tree {φ : LeafVals K} {F : FiatQuad K} {I : Interp K (PSet K)} : ∀ (e : Elem) (c : Cell) (vs : List Nat),
    Composed (fun b => ∀ c, b.cell = .ok c → ∀ m, Yields (baseSupport F I b) m (SupportOf φ b c)) e →
    e.cell = .ok c → e.valueShape = .ok vs → ∀ m, Yields (supportDofs F I e) m (SupportOf φ e c)
  | .leaf l, c, vs, h, hc, _, m => by
    rw [Composed] at h
    rw [supportDofs]
    exact h c hc m
  | .tensorProduct fs, c, vs, h, hc, hv, m => by
    rw [Composed] at h
    have hc' := hc
    simp only [Elem.cell, bind_ok] at hc'
    obtain ⟨cs, hcs, hce⟩ := hc'
    cases hce
    have hv' := hv
    simp only [Elem.valueShape, bind_ok] at hv'
    obtain ⟨ss, hss, _⟩ := hv'
    obtain ⟨L, m', h1, rfl, rfl, h2⟩ := C70_list fs cs ss h hcs hss m
    obtain ⟨d, h3, h4⟩ := support_tensorProduct h2 hv
    have hr : Runs (supportDofs F I (.tensorProduct (L.map SFac.e))) m fun d _ =>
        SupportOf φ (.tensorProduct (L.map SFac.e)) (.prod (L.map SFac.c)) d := by
      rw [supportDofs]
      apply Runs.bind
      apply Runs.liftE hcs
      apply Runs.bind
      exact ⟨_, _, h1, Runs.liftE h3 h4⟩
    exact hr
  | .flattened p, c, vs, h, hc, hv, m => by
    rw [Composed] at h
    have hc' := hc
    simp only [Elem.cell, bind_ok] at hc'
    obtain ⟨cp, hcp, _⟩ := hc'
    simp only [Elem.valueShape] at hv
    obtain ⟨d, m', h1, h2⟩ := C70_tree p cp vs h.1 hcp hv m
    have hr : Runs (supportDofs F I (.flattened p)) m fun d _ => SupportOf φ (.flattened p) c d := by
      rw [supportDofs]
      apply Runs.bind
      exact ⟨d, m', h1, Runs.pure (support_flattened h2 (h.2 cp hcp) hcp hc)⟩
    exact hr
  | .enriched es, c, vs, h, hc, hv, m => by
    rw [Composed] at h
    obtain ⟨_, cs, hcs, _, hall⟩ := enriched_cells hc
    have hv' := hv
    simp only [Elem.valueShape, bind_ok] at hv'
    obtain ⟨ss, hss, hu⟩ := hv'
    obtain ⟨L, m', h1, rfl, rfl, h2⟩ := C70_list es cs ss h hcs hss m
    have hcc : ∀ s ∈ L, s.c = c := by
      intro s hs
      have := hall s.e (List.mem_map_of_mem hs)
      rw [(h2 s hs).cell] at this
      exact Except.ok.inj this
    have hvv : ∀ s ∈ L, s.e.valueShape = .ok vs := by
      have hall2 := (uniqueOf_ok.1 hu).2
      have : ∀ (L : List SFac) (ss : List (List Nat)), Elem.valueShapeL (L.map SFac.e) = .ok ss → (∀ s ∈ ss, s = vs) →
          ∀ s ∈ L, s.e.valueShape = .ok vs := by
        intro L
        induction L with
        | nil => intro ss _ _ s hs; simp at hs
        | cons a L ih =>
          intro ss hss hall s hs
          obtain ⟨s', ss', g1, g2, rfl⟩ := valueShapeL_cons hss
          rcases List.mem_cons.1 hs with rfl | hs
          · rw [g1, hall s' List.mem_cons_self]
          · exact ih ss' g2 (fun t ht => hall t (List.mem_cons_of_mem s' ht)) s hs
      exact this L ss hss hall2
    obtain ⟨d, h3, h4⟩ := support_enriched h2 hcc hvv hv
    have hr : Runs (supportDofs F I (.enriched (L.map SFac.e))) m fun d _ =>
        SupportOf φ (.enriched (L.map SFac.e)) c d := by
      rw [supportDofs]
      apply Runs.bind
      apply Runs.liftE hc
      apply Runs.bind
      exact ⟨_, _, h1, Runs.liftE h3 h4⟩
    exact hr
  | .mixedSub e size offset, c, vs, h, hc, hv, m => by
    rw [Composed] at h
    obtain ⟨h1, ws, hws, hfit⟩ := h
    obtain ⟨d, m', h3, h4⟩ := C70_tree e c ws h1 hc hws m
    rw [supportDofs]
    exact ⟨d, m', h3, h4.transfer rfl fun ent j _ => nonvanishing_mixedSub hws hfit c ent j⟩
  | .discontinuous e, c, vs, h, hc, _, m => by
    rw [Composed] at h
    rw [supportDofs]
    exact h c hc m
  | .tensorFE e shape tr, c, vs, h, hc, _, m => by
    rw [Composed] at h
    rw [supportDofs]
    exact h c hc m
  | .hdiv w, c, vs, h, hc, hv, m => by
    rw [Composed] at h
    obtain ⟨h1, ws, comps, hws, hsel, hlen, hin, hall⟩ := h
    obtain ⟨d, m', h3, h4⟩ := C70_tree w c ws h1 hc hws m
    rw [supportDofs]
    refine ⟨d, m', h3, h4.transfer rfl fun ent j _ => ?_⟩
    refine nonvanishing_wrap (e := .hdiv w) (w := w) _ hsel (fun α ent x i z => ?_) rfl ?_ hws hin hall ent j
    · simp only [basisValue]
    · rw [vshape_eq hlen]
  | .hcurl w, c, vs, h, hc, hv, m => by
    rw [Composed] at h
    obtain ⟨h1, ws, comps, hws, hsel, hlen, hin, hall⟩ := h
    obtain ⟨d, m', h3, h4⟩ := C70_tree w c ws h1 hc hws m
    rw [supportDofs]
    refine ⟨d, m', h3, h4.transfer rfl fun ent j _ => ?_⟩
    refine nonvanishing_wrap (e := .hcurl w) (w := w) _ hsel (fun α ent x i z => ?_) rfl ?_ hws hin hall ent j
    · simp only [basisValue]
    · rw [vshape_eq hlen]
  | .quadrature r c' ext, c, vs, h, hc, _, m => by
    rw [Composed] at h
    rw [supportDofs]
    exact h c hc m
/-- The parts of a composite element. -/
theorem C70_list {φ : LeafVals K} {F : FiatQuad K} {I : Interp K (PSet K)} : ∀ (es : List Elem) (cs : List Cell)
    (ss : List (List Nat)),
    ComposedL (fun b => ∀ c, b.cell = .ok c → ∀ m, Yields (baseSupport F I b) m (SupportOf φ b c)) es →
    Elem.cellL es = .ok cs → Elem.valueShapeL es = .ok ss → ∀ m, ∃ (L : List SFac) (m' : Nat),
      supportDofsL F I es m = .ok (L.map SFac.d, m') ∧ es = L.map SFac.e ∧ cs = L.map SFac.c ∧ ∀ s ∈ L, s.OK φ
  | [], cs, ss, _, hcs, _, m => by
    simp only [Elem.cellL, Except.ok.injEq] at hcs
    subst hcs
    exact ⟨[], m, by rw [supportDofsL]; rfl, rfl, rfl, by simp⟩
  | e :: es, cs, ss, h, hcs, hss, m => by
    rw [ComposedL] at h
    simp only [Elem.cellL, bind_ok] at hcs
    obtain ⟨c, hc, cs', hcs', hce⟩ := hcs
    cases hce
    obtain ⟨s', ss', g1, g2, rfl⟩ := valueShapeL_cons hss
    obtain ⟨d, m1, h1, h2⟩ := C70_tree e c s' h.1 hc g1 m
    obtain ⟨L, m2, h3, rfl, rfl, h4⟩ := C70_list es cs' ss' h.2 hcs' g2 m1
    refine ⟨⟨e, c, d⟩ :: L, m2, ?_, rfl, rfl, ?_⟩
    · have hr : Runs (supportDofsL F I (e :: L.map SFac.e)) m fun l n => l = d :: L.map SFac.d ∧ n = m2 := by
        rw [supportDofsL]
        apply Runs.bind
        refine ⟨d, m1, h1, ?_⟩
        apply Runs.bind
        exact ⟨_, m2, h3, Runs.pure ⟨rfl, rfl⟩⟩
      obtain ⟨l, n, g3, rfl, rfl⟩ := hr
      exact g3
    · intro s hs
      rcases List.mem_cons.1 hs with rfl | hs
      · exact ⟨hc, h2⟩
      · exact h4 s hs
end

/-- C70, integration. For elements that are integrated, if FIAT's rules are exact and the squares of the basis functions
are polynomials of the doubled degree on the entities: exactly the dofs are listed, in increasing order, for which
the integral over the entity of the squared function exceeds the threshold. -/
theorem C70_listed {FF : Fiat K} {R : Rules K} {F : FiatQuad K} {D : Nat} {e : Elem} {c : Cell} {deg2 : Degree}
    {sub : Dim → Cell} {ts : Dim → Nat → Nat → List (K × List Nat)}
    (h : Integrable (basisSem FF R) F D e c deg2 sub) (hp : SquarePoly (leafVals FF R) e c deg2 sub ts) (m : Nat) :
    Yields (baseSupport F (basisInterp FF R) e) m fun d => Covers d c.topology ∧
      ∀ dim n, (dim, n) ∈ c.topology → ∀ k < n, dofsOn d dim k =
        (List.range e.spaceDim).filter fun j => decide (1 / 10 ^ 8 < polyInt (sub dim) (ts dim k j)) := by
  obtain ⟨d, m', h1, _, h2, h3⟩ := baseSupport_spec (basisSem FF R) (fun _ _ => rfl) (fun _ _ => Iff.rfl)
    (fun _ _ => Iff.rfl) h hp m
  exact ⟨d, m', h1, h2, fun dim n hd k hk => h3 (dim, n) hd k hk⟩

/-- C70, soundness. Every listed dof has a basis function that does not vanish on the entity. -/
theorem C70_sound {FF : Fiat K} {R : Rules K} {F : FiatQuad K} {D : Nat} {e : Elem} {c : Cell} {deg2 : Degree}
    {sub : Dim → Cell} {ts : Dim → Nat → Nat → List (K × List Nat)}
    (h : Integrable (basisSem FF R) F D e c deg2 sub) (hp : SquarePoly (leafVals FF R) e c deg2 sub ts) (m : Nat) :
    Yields (baseSupport F (basisInterp FF R) e) m fun d =>
      ∀ dim n, (dim, n) ∈ c.topology → ∀ k < n, ∀ j ∈ dofsOn d dim k,
        j < e.spaceDim ∧ NonVanishing (leafVals FF R) e c (dim, k) j := by
  obtain ⟨d, m', h1, h2, h3⟩ := C70_listed h hp m
  refine ⟨d, m', h1, fun dim n hd k hk j hj => ?_⟩
  rw [h3 dim n hd k hk, List.mem_filter, List.mem_range, decide_eq_true_eq] at hj
  refine ⟨hj.1, ?_⟩
  by_contra hnv
  have hlen := subelement_dim (h.entity (dim, n) hd)
  have hz : polyInt (sub dim) (ts dim k j) = 0 := by
    refine polyInt_entity hd (fun t ht => ((hp.within dim n hd k hk j hj.1 t ht).1.trans hlen)) fun x hx => ?_
    rw [← hp.value dim n hd k hk j hj.1 x ((inEntity_length hx).trans hlen.symm), squareSum_eq_zero]
    intro z hz
    by_contra hne
    exact hnv ⟨x, z, hx, hz, hne⟩
  rw [hz] at hj
  have : (0 : K) ≤ 1 / 10 ^ 8 := by positivity
  exact absurd hj.2 (not_lt.2 this)

/-- C70 for elements that are integrated. Missing: the code compares the integral with `1e-8`, so the claim holds only
if every basis function that does not vanish on an entity has a larger integral there (hypothesis `hgap`);
`C70_small_function` shows that this cannot be dropped. -/
theorem C70_base_partial {FF : Fiat K} {R : Rules K} {F : FiatQuad K} {D : Nat} {e : Elem} {c : Cell} {deg2 : Degree}
    {sub : Dim → Cell} {ts : Dim → Nat → Nat → List (K × List Nat)}
    (h : Integrable (basisSem FF R) F D e c deg2 sub) (hp : SquarePoly (leafVals FF R) e c deg2 sub ts)
    (hgap : ∀ dim n, (dim, n) ∈ c.topology → ∀ k < n, ∀ j < e.spaceDim,
      NonVanishing (leafVals FF R) e c (dim, k) j → 1 / 10 ^ 8 < polyInt (sub dim) (ts dim k j)) (m : Nat) :
    Yields (baseSupport F (basisInterp FF R) e) m (SupportOf (leafVals FF R) e c) := by
  obtain ⟨d, m', h1, h2, h3⟩ := C70_listed h hp m
  obtain ⟨d', m'', h1', h4⟩ := C70_sound h hp m
  rw [h1] at h1'
  cases h1'
  refine ⟨d, m', h1, h2, fun dim n hd k hk => ?_, fun dim n hd k hk j => ⟨fun hj => h4 dim n hd k hk j hj, ?_⟩⟩
  · rw [h3 dim n hd k hk]
    exact List.nodup_range.filter _
  · rintro ⟨hj, hnv⟩
    rw [h3 dim n hd k hk, List.mem_filter, List.mem_range, decide_eq_true_eq]
    exact ⟨hj, hgap dim n hd k hk j hj hnv⟩

/-- **C70**, elements whose functions are polynomials of the degree of the element: the rule that is chosen integrates
their squares exactly, and a function is listed iff the integral of the sum of the squared components exceeds the
threshold. -/
theorem C70_degree {FF : Fiat K} {R : Rules K} {F : FiatQuad K} {D : Nat} {e : Elem} {c : Cell} {t : DegTree}
    {deg2 : Degree} {sub : Dim → Cell} {ps : Dim → Nat → Nat → List Nat → List (K × List Nat)}
    (h : Integrable (basisSem FF R) F D e c deg2 sub) (hd : e.degree = .ok t)
    (hp : DegreePoly (leafVals FF R) e c t sub ps) (m : Nat) :
    ∃ ts : Dim → Nat → Nat → List (K × List Nat),
      (∀ dim n, (dim, n) ∈ c.topology → ∀ k < n, ∀ j < e.spaceDim, ∀ x, x.length = (sub dim).spatialDim →
        squareSum (leafVals FF R) e c (dim, k) (unravel e.indexShape j) x = polyVal (ts dim k j) x) ∧
      Yields (baseSupport F (basisInterp FF R) e) m fun d => Covers d c.topology ∧
        ∀ dim n, (dim, n) ∈ c.topology → ∀ k < n, dofsOn d dim k =
          (List.range e.spaceDim).filter fun j => decide (1 / 10 ^ 8 < polyInt (sub dim) (ts dim k j)) := by
  obtain ⟨t', ht', h2⟩ := h.degree
  rw [hd] at ht'
  cases ht'
  have hs := squarePoly hp h2
  exact ⟨_, hs.value, C70_listed h hs m⟩

end FInAT.Props
