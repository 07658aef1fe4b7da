import Verif.Lemmas.Ufl.Sobolev
import Verif.Model.Ufl.Constant
import Verif.Spec.UflConstant

/-!
# Lemmas on cellwise constant elements and on pullbacks
-/

namespace FInAT.Ufl

open UElem

/-! ## The degrees of composed elements -/

theorem npMaximum_ok {a b c : Deg} (h : npMaximum a b = .ok c) : c ≠ .none ∧
    ∀ r, c = .int r → ∃ x y, a = .int x ∧ b = .int y ∧ r = max x y := by
  match a, b with
  | .int x, .int y => rw [npMaximum] at h; cases h; exact ⟨by simp, fun r hr => ⟨x, y, rfl, rfl, by cases hr; rfl⟩⟩
  | .int x, .tuple ds =>
    rw [npMaximum] at h
    obtain ⟨_, -, h⟩ := bind_ok h
    cases h
    exact ⟨by simp, fun r hr => by cases hr⟩
  | .tuple ds, .int y =>
    rw [npMaximum] at h
    obtain ⟨_, -, h⟩ := bind_ok h
    cases h
    exact ⟨by simp, fun r hr => by cases hr⟩
  | .tuple ds, .tuple es =>
    rw [npMaximum] at h
    obtain ⟨_, -, h⟩ := bind_ok h
    obtain ⟨_, -, h⟩ := bind_ok h
    split at h
    · cases h; exact ⟨by simp, fun r hr => by cases hr⟩
    · cases h; exact ⟨by simp, fun r hr => by cases hr⟩
    · split at h
      · cases h; exact ⟨by simp, fun r hr => by cases hr⟩
      · cases h
  | .none, _ => simp [npMaximum] at h
  | .int _, .none => simp [npMaximum] at h
  | .tuple _, .none => simp [npMaximum] at h

theorem maxDegreeFrom_ok : ∀ {ds : List Deg} {m c : Deg}, maxDegreeFrom m ds = .ok c →
    m ≠ .none → c ≠ .none ∧ ∀ r, c = .int r → (∃ x, m = .int x ∧ x ≤ r) ∧
      (∀ d ∈ ds, ∃ k, d = .int k ∧ k ≤ r) ∧ c ∈ m :: ds
  | [], m, c, h, hm => by
    unfold maxDegreeFrom at h
    cases m with
    | none => exact absurd rfl hm
    | int x =>
      cases h
      exact ⟨by simp, fun r hr => ⟨⟨x, rfl, by cases hr; exact Int.le_refl _⟩, by simp, by simp⟩⟩
    | tuple l =>
      obtain ⟨_, -, h⟩ := bind_ok h
      cases h
      exact ⟨by simp, fun r hr => by cases hr⟩
  | d :: ds, m, c, h, hm => by
    rw [maxDegreeFrom] at h
    obtain ⟨m', hm', h⟩ := bind_ok h
    obtain ⟨hne, hint⟩ := npMaximum_ok hm'
    obtain ⟨h1, h2⟩ := maxDegreeFrom_ok h hne
    refine ⟨h1, fun r hr => ?_⟩
    obtain ⟨⟨x, hx, hxr⟩, h3, h4⟩ := h2 r hr
    obtain ⟨a, b, rfl, rfl, rfl⟩ := hint x hx
    refine ⟨⟨a, rfl, by omega⟩, ?_, ?_⟩
    · intro d' hd'
      rcases List.mem_cons.1 hd' with rfl | hd'
      · exact ⟨b, rfl, by omega⟩
      · exact h3 d' hd'
    · rcases List.mem_cons.1 h4 with h4 | h4
      · rw [h4, hx]
        by_cases he : a ≤ b
        · rw [Int.max_eq_right he]; simp
        · rw [Int.max_eq_left (by omega)]; simp
      · simp [h4]

theorem mixedDegree_none {ds : List Deg} (h : mixedDegree ds = .ok .none) :
    ∀ d ∈ ds, d = .none := by
  unfold mixedDegree at h
  split at h
  · next hf =>
    intro d hd
    have := (List.filter_eq_nil_iff.1 hf) d hd
    cases d <;> simp [Deg.isNone] at this ⊢
  · next d ds' hf =>
    have hm : d ∈ ds.filter (fun d => !d.isNone) := by rw [hf]; simp
    have hd : d ≠ .none := by
      rintro rfl
      simpa [Deg.isNone] using (List.mem_filter.1 hm).2
    exact absurd rfl (maxDegreeFrom_ok h hd).1

theorem mixedDegree_int {ds : List Deg} {r : Int} (h : mixedDegree ds = .ok (.int r)) :
    (∀ d ∈ ds, d = .none ∨ ∃ k, d = .int k ∧ k ≤ r) ∧ .int r ∈ ds := by
  unfold mixedDegree at h
  split at h
  · cases h
  · next d ds' hf =>
    have hm : d ∈ ds.filter (fun d => !d.isNone) := by rw [hf]; simp
    have hd : d ≠ .none := by
      rintro rfl
      simpa [Deg.isNone] using (List.mem_filter.1 hm).2
    obtain ⟨⟨x, hx, hxr⟩, h2, h3⟩ := (maxDegreeFrom_ok h hd).2 r rfl
    refine ⟨fun d' hd' => ?_, ?_⟩
    · cases hc : d' with
      | none => exact .inl rfl
      | int k =>
        have hm' : d' ∈ ds.filter (fun d => !d.isNone) :=
          List.mem_filter.2 ⟨hd', by rw [hc]; rfl⟩
        rw [hf] at hm'
        rcases List.mem_cons.1 hm' with h' | h'
        · rw [hc, hx] at h'; cases h'; exact .inr ⟨_, rfl, hxr⟩
        · obtain ⟨k', hk, hle⟩ := h2 d' h'
          rw [hc] at hk; cases hk; exact .inr ⟨_, rfl, hle⟩
      | tuple l =>
        exfalso
        have hm' : d' ∈ ds.filter (fun d => !d.isNone) :=
          List.mem_filter.2 ⟨hd', by rw [hc]; rfl⟩
        rw [hf] at hm'
        rcases List.mem_cons.1 hm' with h' | h'
        · rw [hc, hx] at h'; cases h'
        · obtain ⟨k', hk, -⟩ := h2 d' h'
          rw [hc] at hk; cases hk
    · rw [← hf] at h3
      exact (List.mem_filter.1 h3).1

theorem enrichedDegree_ok {ds : List Deg} {c : Deg} (h : enrichedDegree ds = .ok c) :
    c ≠ .none ∧ ∀ r, c = .int r → ∀ d ∈ ds, d = .none ∨ ∃ k, d = .int k ∧ k ≤ r := by
  unfold enrichedDegree at h
  split at h
  · next x ds' =>
    split at h
    · next hf => simp [Deg.isNone] at hf
    · next l hne =>
      rw [List.filter_cons_of_pos (by rfl)] at h
      have hb := le_pyMax h
      obtain ⟨⟨r, hr⟩, hall⟩ := pyMax_int_all h ⟨x, rfl⟩
      refine ⟨by rw [hr]; simp, fun r' hr' d hd => ?_⟩
      cases hc : d with
      | none => exact .inl rfl
      | int k =>
        refine .inr ⟨k, rfl, ?_⟩
        rw [← Deg.le_int, ← hr', ← hc]
        apply hb.1
        rw [← List.filter_cons_of_pos (p := fun d : Deg => !d.isNone) (a := .int x) (by rfl)]
        exact List.mem_filter.2 ⟨hd, by rw [hc]; rfl⟩
      | tuple l =>
        exfalso
        rcases List.mem_cons.1 hd with rfl | hd
        · cases hc
        · obtain ⟨a, ha⟩ := hall d (List.mem_filter.2 ⟨hd, by rw [hc]; rfl⟩)
          rw [hc] at ha; cases ha
  · obtain ⟨_, -, h⟩ := bind_ok h
    obtain ⟨_, -, h⟩ := bind_ok h
    cases h
    exact ⟨by simp, fun r hr => by cases hr⟩

/-! ## What the constructors store -/

theorem mixed_degree {b : Base} {subs : List UElem} (h : Good (.mixed b subs)) :
    mixedDegree (subs.map UElem.degree) = .ok b.degree := by
  have hf := h.fixed
  unfold Fixed at hf
  rw [reconstruct, reconstructs_fixed (fun s hs => (h.sub s (by simpa [children] using hs)).fixed)]
    at hf
  obtain ⟨b', hb, he⟩ := mkMixed_ok (e := .mixed b subs) hf
  cases he
  unfold mixedBase at hb
  obtain ⟨_, -, hb⟩ := bind_ok hb
  obtain ⟨_, -, hb⟩ := bind_ok hb
  obtain ⟨_, -, hb⟩ := bind_ok hb
  obtain ⟨d, hd, hb⟩ := bind_ok hb
  cases hb
  exact hd

theorem vector_degree {b : Base} {s : UElem} {dim : Nat} {v : Option String}
    (h : Good (.vector b s dim v)) : b.degree = s.degree := by
  have hf := h.fixed
  unfold Fixed at hf
  rw [reconstruct, (h.sub s (by simp [children])).fixed] at hf
  obtain ⟨n, sh, he, -⟩ := mkVectorOf_ok (s := s) (dim := some dim) (v := s.variant)
    (e := .vector b s dim v) hf
  cases he
  rfl

theorem tensor_degree {b : Base} {s : UElem} {shape : List Nat} {sym : Symmetry}
    {number : Dict (List Nat) Nat} {count : Nat} {m : String} {v : Option String}
    (h : Good (.tensor b s shape sym number count m v)) :
    b.degree = s.degree ∧ m = (if sym.isEmpty then s.mapping else "symmetries") := by
  have hf := h.fixed
  unfold Fixed at hf
  rw [reconstruct, (h.sub s (by simp [children])).fixed] at hf
  have hf' : mkTensorOf s (some shape) (.dict sym) s.variant =
    .ok (.tensor b s shape sym number count m v) := hf
  unfold mkTensorOf at hf'
  obtain ⟨_, h1, hf'⟩ := bind_ok hf'
  cases h1
  obtain ⟨_, h1, hf'⟩ := bind_ok hf'
  cases h1
  obtain ⟨_, -, hf'⟩ := bind_ok hf'
  obtain ⟨_, -, hf'⟩ := bind_ok hf'
  obtain ⟨_, -, hf'⟩ := bind_ok hf'
  obtain ⟨_, -, hf'⟩ := bind_ok hf'
  obtain ⟨_, -, hf'⟩ := bind_ok hf'
  cases hf'
  exact ⟨rfl, rfl⟩

theorem wrapBase_degree {b : Base} {s : UElem} (h : wrapBase s = .ok b) : b.degree = s.degree := by
  unfold wrapBase at h
  split at h
  · cases h
  · cases h; rfl

theorem hdiv_degree {b : Base} {s : UElem} (h : Good (.hdiv b s)) : b.degree = s.degree := by
  have hf := h.fixed
  unfold Fixed at hf
  rw [reconstruct, (h.sub s (by simp [children])).fixed] at hf
  obtain ⟨b', hb, he⟩ := mkHDiv_ok (s := s) (e := .hdiv b s) hf
  cases he
  exact wrapBase_degree hb

theorem hcurl_degree {b : Base} {s : UElem} (h : Good (.hcurl b s)) : b.degree = s.degree := by
  have hf := h.fixed
  unfold Fixed at hf
  rw [reconstruct, (h.sub s (by simp [children])).fixed] at hf
  obtain ⟨b', hb, he⟩ := mkHCurl_ok (s := s) (e := .hcurl b s) hf
  cases he
  exact wrapBase_degree hb

theorem restricted_degree {b : Base} {s : UElem} {d : String} (h : Good (.restricted b s d)) :
    b.degree = s.degree := by
  have hf := h.fixed
  unfold Fixed at hf
  rw [reconstruct, (h.sub s (by simp [children])).fixed] at hf
  obtain ⟨-, sh, -, he⟩ := mkRestricted_ok (s := s) (d := d) (e := .restricted b s d) hf
  cases he
  rfl

theorem broken_degree {b : Base} {s : UElem} (h : Good (.broken b s)) : b.degree = s.degree := by
  have hf := h.fixed
  unfold Fixed at hf
  rw [reconstruct, (h.sub s (by simp [children])).fixed] at hf
  obtain ⟨sh, -, he⟩ := mkBroken_ok (s := s) (e := .broken b s) hf
  cases he
  rfl

/-! ## Simple elements -/

theorem graded_kmin : ∀ e ∈ registrations, e.family ≠ "Bernardi-Raugel Bubble" →
    e.family ≠ "Guzman-Neilan Bubble" →
    (match e.kmin with
      | some k => decide (0 ≤ k) && (decide (0 < k) ||
        !(infixOf "Guzman-Neilan" e.family || infixOf "Bernardi-Raugel" e.family))
      | none => false) = true := by
  decide +kernel

theorem fe_desc {b : Base} {o : Order} {so : Sobolev} {m : String} {v : Option String}
    {emb : Order} (h : Good (.fe b o so m v emb)) :
    ∃ d : Desc, ∃ f o' k, canonicalElementDescription f b.cell o' k = .ok d ∧ b.family = d.family ∧
      b.degree = d.order.toDeg ∧ o = d.order ∧ m = d.mapping ∧ emb = d.embedded := by
  have hf := h.fixed
  unfold Fixed at hf
  rw [reconstruct] at hf
  obtain ⟨d, hd', he⟩ := newFe_fe hf
  have h' := UElem.fe.inj he
  refine ⟨d, _, _, _, hd', ?_, ?_, h'.2.1, h'.2.2.2.1, h'.2.2.2.2.2⟩
  · rw [h'.1]
  · rw [h'.1]

theorem embeddedOf_plain {t : Option Nat} {f : String} {o : Order}
    (h : (infixOf "Guzman-Neilan" f || infixOf "Bernardi-Raugel" f) = false) :
    embeddedOf t f o = o := by
  unfold embeddedOf
  rw [h]; rfl

theorem fe_zero {b : Base} {o : Order} {so : Sobolev} {m : String} {v : Option String}
    {emb : Order} (h : Good (.fe b o so m v emb)) (hg : Graded (.fe b o so m v emb)) {r : Int}
    (hr : b.degree = .int r) (hr0 : r ≤ 0) :
    r = 0 ∧ embeddedSuper (.fe b o so m v emb) = .ok (.int 0) := by
  obtain ⟨d, f, o', k, hd, hfam, hdeg, ho, -, hemb⟩ := fe_desc h
  have ho' : d.order = .int r := by
    cases hdo : d.order with
    | none => rw [hdeg, hdo] at hr; cases hr
    | int x => rw [hdeg, hdo] at hr; cases hr; rfl
    | tuple xs => rw [hdeg, hdo] at hr; cases hr
  obtain ⟨e, hreg, hef, -, hrange, -⟩ := Props.C50_sound hd
  obtain ⟨-, hg1, hg2⟩ := hg
  have hfam' : e.family = (UElem.fe b o so m v emb).family := by rw [hef, ← hfam]; rfl
  have hk := graded_kmin e hreg (by rw [hfam']; exact hg1) (by rw [hfam']; exact hg2)
  split at hk
  · next k hkm =>
    have h1 := (hrange r (by rw [ho']; simp [Order.parts])).1 k hkm
    simp only [Bool.and_eq_true, Bool.or_eq_true, decide_eq_true_eq] at hk
    obtain ⟨hk0, hk1⟩ := hk
    have hr' : r = 0 := by omega
    subst hr'
    refine ⟨rfl, ?_⟩
    rcases hk1 with hk1 | hk1
    · omega
    · have hk1' : (infixOf "Guzman-Neilan" d.family || infixOf "Bernardi-Raugel" d.family) = false := by
        rw [← hef]; simpa using hk1
      have he : d.embedded = .int 0 := by
        obtain ⟨_, _, -, -, -, -, -, -, -, hs, -, -, hem⟩ := canonical_ok hd
        rw [hem, ← hs, embeddedOf_plain hk1', ho']
      rw [he] at hemb
      rw [ho'] at ho
      subst ho hemb
      rfl
  · cases hk

/-! ## Composed elements -/

theorem mem_simplePartss {l : UElem} : ∀ {es : List UElem},
    l ∈ simplePartss es ↔ ∃ e ∈ es, l ∈ simpleParts e
  | [] => by simp [simplePartss]
  | e :: es => by simp [simplePartss, mem_simplePartss (es := es)]

theorem areConstant_iff : ∀ {es : List UElem}, areConstant es = true ↔ ∀ e ∈ es, isConstant e = true
  | [] => by simp [areConstant]
  | e :: es => by simp [areConstant, areConstant_iff (es := es)]

theorem isZero_iff {d : Deg} : d.isZero = true ↔ d = .int 0 := Deg.beq_iff

/-- An element whose degree is zero, or less, is made of elements of degree zero. -/
theorem degree_parts {e : UElem} (h : Good e) : (∀ l ∈ simpleParts e, Graded l) →
    (e.degree = .none → simpleParts e = []) ∧
    ∀ r : Int, e.degree = .int r → r ≤ 0 →
      ∀ l ∈ simpleParts e, embeddedSuper l = .ok (.int 0) := by
  induction h with
  | @intro e fixed sub ih =>
  have hg : Good e := .intro fixed sub
  intro hgr
  have nil_of : ∀ {es : List UElem}, (∀ x ∈ es, simpleParts x = []) → simplePartss es = [] := by
    intro es hes
    refine List.eq_nil_iff_forall_not_mem.2 fun l hl => ?_
    obtain ⟨x, hx, hl⟩ := mem_simplePartss.1 hl
    rw [hes x hx] at hl
    simp at hl
  match e, hg, ih, hgr with
  | .fe b o so m v emb, hg, ih, hgr =>
    have hgr' := hgr (.fe b o so m v emb) (by simp [simpleParts])
    refine ⟨fun hn => absurd hn hgr'.1, fun r hr h0 l hl => ?_⟩
    simp only [simpleParts, List.mem_singleton] at hl
    subst hl
    exact (fe_zero hg hgr' hr h0).2
  | .mixed b subs, hg, ih, hgr =>
    rw [simpleParts] at hgr ⊢
    have hd := mixed_degree hg
    have ih' := fun (s : UElem) (hs : s ∈ subs) => ih s (by simpa [children] using hs)
      (fun l hl => hgr l (mem_simplePartss.2 ⟨s, hs, hl⟩))
    constructor
    · intro hn
      have hn' : b.degree = .none := hn
      rw [hn'] at hd
      exact nil_of fun x hx => (ih' x hx).1
        (mixedDegree_none hd _ (List.mem_map_of_mem hx))
    · intro r hr h0 l hl
      have hr' : b.degree = .int r := hr
      rw [hr'] at hd
      obtain ⟨s, hs, hl⟩ := mem_simplePartss.1 hl
      rcases (mixedDegree_int hd).1 _ (List.mem_map_of_mem (f := UElem.degree) hs) with hn | ⟨k, hk, hle⟩
      · rw [(ih' s hs).1 hn] at hl; simp at hl
      · exact (ih' s hs).2 k hk (by omega) l hl
  | .vector b s dim v, hg, ih, hgr =>
    rw [simpleParts] at hgr ⊢
    have hd : (UElem.vector b s dim v).degree = s.degree := vector_degree hg
    by_cases h0 : dim = 0
    · simp [h0]
    · rw [if_neg h0] at hgr ⊢
      rw [hd]
      exact ih s (by simp [children]) hgr
  | .tensor b s shape sym number count m v, hg, ih, hgr =>
    rw [simpleParts] at hgr ⊢
    have hd : (UElem.tensor b s shape sym number count m v).degree = s.degree :=
      (tensor_degree hg).1
    by_cases h0 : count = 0
    · simp [h0]
    · rw [if_neg h0] at hgr ⊢
      rw [hd]
      exact ih s (by simp [children]) hgr
  | .product b subs, hg, ih, hgr =>
    have hd := (product_facts hg).1
    constructor
    · intro hn
      have hn' : b.degree = .none := hn
      rw [hd] at hn'; cases hn'
    · intro r hr
      have hr' : b.degree = .int r := hr
      rw [hd] at hr'; cases hr'
  | .enriched b n subs, hg, ih, hgr =>
    rw [simpleParts] at hgr ⊢
    obtain ⟨_, _, -, -, -, hd, -⟩ := enriched_facts hg
    obtain ⟨h1, h2⟩ := enrichedDegree_ok hd
    refine ⟨fun hn => absurd hn h1, fun r hr h0 l hl => ?_⟩
    obtain ⟨s, hs, hl⟩ := mem_simplePartss.1 hl
    have ih' := ih s (by simpa [children] using hs)
      (fun l hl => hgr l (mem_simplePartss.2 ⟨s, hs, hl⟩))
    rcases h2 r hr _ (List.mem_map_of_mem (f := UElem.degree) hs) with hn | ⟨k, hk, hle⟩
    · rw [ih'.1 hn] at hl; simp at hl
    · exact ih'.2 k hk (by omega) l hl
  | .hdiv b s, hg, ih, hgr =>
    rw [simpleParts] at hgr ⊢
    have hd : (UElem.hdiv b s).degree = s.degree := hdiv_degree hg
    rw [hd]
    exact ih s (by simp [children]) hgr
  | .hcurl b s, hg, ih, hgr =>
    rw [simpleParts] at hgr ⊢
    have hd : (UElem.hcurl b s).degree = s.degree := hcurl_degree hg
    rw [hd]
    exact ih s (by simp [children]) hgr
  | .withMapping s m, hg, ih, hgr =>
    rw [simpleParts] at hgr ⊢
    exact ih s (by simp [children]) hgr
  | .restricted b s d, hg, ih, hgr =>
    rw [simpleParts] at hgr ⊢
    have hd : (UElem.restricted b s d).degree = s.degree := restricted_degree hg
    rw [hd]
    exact ih s (by simp [children]) hgr
  | .broken b s, hg, ih, hgr =>
    rw [simpleParts] at hgr ⊢
    have hd : (UElem.broken b s).degree = s.degree := broken_degree hg
    rw [hd]
    exact ih s (by simp [children]) hgr

/-- An element that says it is constant on cells is made of such elements. -/
theorem constant_parts {e : UElem} (h : Good e) : (∀ l ∈ simpleParts e, Graded l) →
    isConstant e = true → ∀ l ∈ simpleParts e, ConstantPart l := by
  induction h with
  | @intro e fixed sub ih =>
  have hg : Good e := .intro fixed sub
  intro hgr hc
  have byDegree : e.degree.isZero = true → ∀ l ∈ simpleParts e, ConstantPart l := fun hz l hl =>
    .inr ((degree_parts hg hgr).2 0 (isZero_iff.1 hz) (Int.le_refl _) l hl)
  match e, hg, ih, hgr, hc, byDegree with
  | .fe b o so m v emb, hg, ih, hgr, hc, byDegree =>
    rw [isConstant, Bool.or_eq_true] at hc
    rcases hc with hc | hc
    · intro l hl
      simp only [simpleParts, List.mem_singleton] at hl
      subst hl
      exact .inl (eq_of_beq hc)
    · exact byDegree hc
  | .mixed b subs, hg, ih, hgr, hc, _ =>
    rw [isConstant, areConstant_iff] at hc
    rw [simpleParts] at hgr ⊢
    intro l hl
    obtain ⟨s, hs, hl⟩ := mem_simplePartss.1 hl
    exact ih s (by simpa [children] using hs)
      (fun l hl => hgr l (mem_simplePartss.2 ⟨s, hs, hl⟩)) (hc s hs) l hl
  | .vector b s dim v, hg, ih, hgr, hc, _ =>
    rw [isConstant, Bool.or_eq_true] at hc
    rw [simpleParts] at hgr ⊢
    by_cases h0 : dim = 0
    · simp [h0]
    · rw [if_neg h0] at hgr ⊢
      exact ih s (by simp [children]) hgr (hc.resolve_left (by simpa using h0))
  | .tensor b s shape sym number count m v, hg, ih, hgr, hc, _ =>
    rw [isConstant, Bool.or_eq_true] at hc
    rw [simpleParts] at hgr ⊢
    by_cases h0 : count = 0
    · simp [h0]
    · rw [if_neg h0] at hgr ⊢
      exact ih s (by simp [children]) hgr (hc.resolve_left (by simpa using h0))
  | .product b subs, hg, ih, hgr, hc, byDegree => exact byDegree (by rw [isConstant] at hc; exact hc)
  | .enriched b n subs, hg, ih, hgr, hc, _ =>
    cases n with
    | true => simp [isConstant] at hc
    | false =>
      rw [isConstant, if_neg (by simp), areConstant_iff] at hc
      rw [simpleParts] at hgr ⊢
      intro l hl
      obtain ⟨s, hs, hl⟩ := mem_simplePartss.1 hl
      exact ih s (by simpa [children] using hs)
        (fun l hl => hgr l (mem_simplePartss.2 ⟨s, hs, hl⟩)) (hc s hs) l hl
  | .hdiv b s, hg, ih, hgr, hc, byDegree => exact byDegree (by rw [isConstant] at hc; exact hc)
  | .hcurl b s, hg, ih, hgr, hc, byDegree => exact byDegree (by rw [isConstant] at hc; exact hc)
  | .withMapping s m, hg, ih, hgr, hc, byDegree => exact byDegree (by rw [isConstant] at hc; exact hc)
  | .restricted b s d, hg, ih, hgr, hc, _ =>
    rw [isConstant] at hc
    rw [simpleParts] at hgr ⊢
    exact ih s (by simp [children]) hgr hc
  | .broken b s, hg, ih, hgr, hc, byDegree => exact byDegree (by rw [isConstant] at hc; exact hc)

theorem maxDegreeFrom_zeros : ∀ {ds : List Deg}, (∀ d ∈ ds, d = .int 0) →
    maxDegreeFrom (.int 0) ds = .ok (.int 0)
  | [], _ => rfl
  | d :: ds, h => by
    rw [maxDegreeFrom, h d (by simp)]
    exact maxDegreeFrom_zeros fun x hx => h x (by simp [hx])

theorem pyMaxFrom_zeros : ∀ {ds : List Deg}, (∀ d ∈ ds, d = .int 0) →
    pyMaxFrom (.int 0) ds = .ok (.int 0)
  | [], _ => rfl
  | d :: ds, h => by
    rw [pyMaxFrom, h d (by simp)]
    exact pyMaxFrom_zeros fun x hx => h x (by simp [hx])

theorem filter_given {ds : List Deg} (h : ∀ d ∈ ds, d = .int 0) :
    ds.filter (fun d => !d.isNone) = ds :=
  List.filter_eq_self.2 fun d hd => by rw [h d hd]; rfl

theorem mixedDegree_zeros {ds : List Deg} (hne : ds ≠ []) (h : ∀ d ∈ ds, d = .int 0) :
    mixedDegree ds = .ok (.int 0) := by
  unfold mixedDegree
  rw [filter_given h]
  cases ds with
  | nil => exact absurd rfl hne
  | cons d ds =>
    simp only
    rw [h d (by simp)]
    exact maxDegreeFrom_zeros fun x hx => h x (by simp [hx])

theorem enrichedDegree_zeros {ds : List Deg} (hne : ds ≠ []) (h : ∀ d ∈ ds, d = .int 0) :
    enrichedDegree ds = .ok (.int 0) := by
  cases ds with
  | nil => exact absurd rfl hne
  | cons d ds =>
    have hd := h d (by simp)
    subst hd
    unfold enrichedDegree
    simp only
    rw [filter_given h]
    exact pyMaxFrom_zeros fun x hx => h x (by simp [hx])

theorem unfactoreds_iff : ∀ {es : List UElem}, Unfactoreds es ↔ ∀ e ∈ es, Unfactored e
  | [] => by simp [Unfactoreds]
  | e :: es => by simp [Unfactoreds, unfactoreds_iff (es := es)]

/-- An element made of elements of degree zero, without products, has degree zero and says
that it is constant on cells. -/
theorem zero_constant {e : UElem} (h : Good e) : Unfactored e →
    (∀ l ∈ simpleParts e, l.degree = .int 0) → e.degree = .int 0 ∧ isConstant e = true := by
  induction h with
  | @intro e fixed sub ih =>
  have hg : Good e := .intro fixed sub
  intro hu hz
  match e, hg, ih, hu, hz with
  | .fe b o so m v emb, hg, ih, hu, hz =>
    have h0 : b.degree = .int 0 := hz (.fe b o so m v emb) (by simp [simpleParts])
    refine ⟨h0, ?_⟩
    rw [isConstant, isZero_iff.2 h0, Bool.or_true]
  | .mixed b subs, hg, ih, hu, hz =>
    rw [Unfactored, unfactoreds_iff] at hu
    rw [simpleParts] at hz
    have ih' := fun (s : UElem) (hs : s ∈ subs) => ih s (by simpa [children] using hs) (hu.2 s hs)
      (fun l hl => hz l (mem_simplePartss.2 ⟨s, hs, hl⟩))
    constructor
    · have hd := mixed_degree hg
      rw [mixedDegree_zeros (by simpa using hu.1) (by
        intro d hd
        obtain ⟨s, hs, rfl⟩ := List.mem_map.1 hd
        exact (ih' s hs).1)] at hd
      exact (Except.ok.inj hd).symm
    · rw [isConstant, areConstant_iff]
      exact fun s hs => (ih' s hs).2
  | .vector b s dim v, hg, ih, hu, hz =>
    rw [Unfactored] at hu
    rw [simpleParts, if_neg (by omega)] at hz
    have ih' := ih s (by simp [children]) hu.2 hz
    refine ⟨Eq.trans (vector_degree hg) ih'.1, ?_⟩
    rw [isConstant, ih'.2, Bool.or_true]
  | .tensor b s shape sym number count m v, hg, ih, hu, hz =>
    rw [Unfactored] at hu
    rw [simpleParts, if_neg (by omega)] at hz
    have ih' := ih s (by simp [children]) hu.2 hz
    refine ⟨Eq.trans (tensor_degree hg).1 ih'.1, ?_⟩
    rw [isConstant, ih'.2, Bool.or_true]
  | .product b subs, hg, ih, hu, hz => exact absurd hu (by rw [Unfactored]; exact id)
  | .enriched b n subs, hg, ih, hu, hz =>
    rw [Unfactored, unfactoreds_iff] at hu
    rw [simpleParts] at hz
    have ih' := fun (s : UElem) (hs : s ∈ subs) => ih s (by simpa [children] using hs) (hu.2 s hs)
      (fun l hl => hz l (mem_simplePartss.2 ⟨s, hs, hl⟩))
    constructor
    · obtain ⟨e0, es, hsub, -, -, hd, -⟩ := enriched_facts hg
      rw [enrichedDegree_zeros (by simp [hsub]) (by
        intro d hd
        obtain ⟨s, hs, rfl⟩ := List.mem_map.1 hd
        exact (ih' s hs).1)] at hd
      exact (Except.ok.inj hd).symm
    · rw [hu.1, isConstant, if_neg (by simp), areConstant_iff]
      exact fun s hs => (ih' s hs).2
  | .hdiv b s, hg, ih, hu, hz =>
    rw [Unfactored] at hu
    rw [simpleParts] at hz
    have h0 : b.degree = .int 0 := (hdiv_degree hg).trans (ih s (by simp [children]) hu hz).1
    exact ⟨h0, by rw [isConstant, isZero_iff.2 h0]⟩
  | .hcurl b s, hg, ih, hu, hz =>
    rw [Unfactored] at hu
    rw [simpleParts] at hz
    have h0 : b.degree = .int 0 := (hcurl_degree hg).trans (ih s (by simp [children]) hu hz).1
    exact ⟨h0, by rw [isConstant, isZero_iff.2 h0]⟩
  | .withMapping s m, hg, ih, hu, hz =>
    rw [Unfactored] at hu
    rw [simpleParts] at hz
    have h0 := (ih s (by simp [children]) hu hz).1
    exact ⟨h0, by rw [isConstant, isZero_iff.2 h0]⟩
  | .restricted b s d, hg, ih, hu, hz =>
    rw [Unfactored] at hu
    rw [simpleParts] at hz
    have h0 := ih s (by simp [children]) hu hz
    exact ⟨(restricted_degree hg).trans h0.1, by rw [isConstant]; exact h0.2⟩
  | .broken b s, hg, ih, hu, hz =>
    rw [Unfactored] at hu
    rw [simpleParts] at hz
    have h0 : b.degree = .int 0 := (broken_degree hg).trans (ih s (by simp [children]) hu hz).1
    exact ⟨h0, by rw [isConstant, isZero_iff.2 h0]⟩

/-! ## Pullbacks -/

theorem pullbackOf_iff {m : String} {p : Pull} : pullbackOf m = .ok p ↔ p.name = some m := by
  constructor
  · intro h
    unfold pullbackOf at h
    repeat' split at h
    all_goals first
      | (cases h; subst_vars; rfl)
      | cases h
  · intro h
    cases p <;> simp only [Pull.name, Option.some.injEq, reduceCtorEq] at h
    all_goals (subst h; rfl)

theorem pullbackOf_error {m : String} {x : Err} (h : pullbackOf m = .error x) : x = .valueError := by
  unfold pullbackOf at h
  repeat' split at h
  all_goals cases h
  rfl

theorem registered_pullback : ∀ e ∈ registrations,
    (match pullbackOf e.mapping with | .ok _ => true | .error _ => false) = true := by
  decide +kernel

theorem registered_mapping {e : Entry} (he : e ∈ registrations) :
    ∃ p, pullbackOf e.mapping = .ok p := by
  have := registered_pullback e he
  split at this
  · next p hp => exact ⟨p, hp⟩
  · cases this

theorem mem_mappedPartss {l : UElem} : ∀ {es : List UElem},
    l ∈ mappedPartss es ↔ ∃ e ∈ es, l ∈ mappedParts e
  | [] => by simp [mappedPartss]
  | e :: es => by simp [mappedPartss, mem_mappedPartss (es := es)]

theorem mem_mappings {m : String} : ∀ {es : List UElem},
    m ∈ mappings es ↔ ∃ e ∈ es, e.mapping = m
  | [] => by simp [mappings]
  | e :: es => by simp [mappings, mem_mappings (es := es), eq_comm]

theorem allAre_iff {m : String} {es : List UElem} :
    allAre m (mappings es) = true ↔ ∀ e ∈ es, e.mapping = m := by
  simp only [allAre, List.all_eq_true, beq_iff_eq]
  exact ⟨fun h e he => h _ (mem_mappings.2 ⟨e, he, rfl⟩), fun h x hx => by
    obtain ⟨e, he, rfl⟩ := mem_mappings.1 hx; exact h e he⟩

theorem sumsAgrees_iff : ∀ {es : List UElem}, SumsAgrees es ↔ ∀ e ∈ es, SumsAgree e
  | [] => by simp [SumsAgrees]
  | e :: es => by simp [SumsAgrees, sumsAgrees_iff (es := es)]

theorem noRemaps_iff : ∀ {es : List UElem}, NoRemaps es ↔ ∀ e ∈ es, NoRemap e
  | [] => by simp [NoRemaps]
  | e :: es => by simp [NoRemaps, noRemaps_iff (es := es)]

theorem enriched_mapping {b : Base} {n : Bool} {e0 : UElem} {es : List UElem} :
    (UElem.enriched b n (e0 :: es)).mapping = e0.mapping := by
  rw [UElem.mapping, mappings]; rfl

/-- A mapping that names a pullback is the mapping of all parts. -/
theorem mapping_parts {e : UElem} (h : Good e) : SumsAgree e → ∀ {m : String}, e.mapping = m →
    m ≠ "undefined" → m ≠ "symmetries" → ∀ l ∈ mappedParts e, l.mapping = m := by
  induction h with
  | @intro e fixed sub ih =>
  have hg : Good e := .intro fixed sub
  intro ha m hm h1 h2
  match e, hg, ih, ha, hm with
  | .fe b o so m v emb, hg, ih, ha, hm =>
    intro l hl
    simp only [mappedParts, List.mem_singleton] at hl
    subst hl
    exact hm
  | .mixed b subs, hg, ih, ha, hm =>
    rw [SumsAgree, sumsAgrees_iff] at ha
    rw [UElem.mapping] at hm
    split at hm
    · next hi =>
      rw [allAre_iff] at hi
      intro l hl
      rw [mappedParts] at hl
      obtain ⟨s, hs, hl⟩ := mem_mappedPartss.1 hl
      exact ih s (by simpa [children] using hs) (ha s hs) ((hi s hs).trans hm) h1 h2 l hl
    · exact absurd hm.symm h1
  | .vector b s dim v, hg, ih, ha, hm =>
    rw [SumsAgree] at ha
    rw [UElem.mapping] at hm
    rw [mappedParts]
    exact ih s (by simp [children]) ha hm h1 h2
  | .tensor b s shape sym number count mp v, hg, ih, ha, hm =>
    rw [SumsAgree] at ha
    rw [UElem.mapping, (tensor_degree hg).2] at hm
    rw [mappedParts]
    split at hm
    · exact ih s (by simp [children]) ha hm h1 h2
    · exact absurd hm.symm h2
  | .product b subs, hg, ih, ha, hm =>
    rw [SumsAgree, sumsAgrees_iff] at ha
    rw [UElem.mapping] at hm
    intro l hl
    rw [mappedParts] at hl
    obtain ⟨s, hs, hl⟩ := mem_mappedPartss.1 hl
    split at hm
    · next hi =>
      rw [allAre_iff] at hi
      exact ih s (by simpa [children] using hs) (ha s hs) ((hi s hs).trans hm) h1 h2 l hl
    · split at hm
      · next hi =>
        rw [allAre_iff] at hi
        exact ih s (by simpa [children] using hs) (ha s hs) ((hi s hs).trans hm) h1 h2 l hl
      · exact absurd hm.symm h1
  | .enriched b n subs, hg, ih, ha, hm =>
    rw [SumsAgree, sumsAgrees_iff] at ha
    obtain ⟨e0, es, rfl, -⟩ := enriched_facts hg
    rw [enriched_mapping] at hm
    intro l hl
    rw [mappedParts] at hl
    obtain ⟨s, hs, hl⟩ := mem_mappedPartss.1 hl
    exact ih s (by simpa [children] using hs) (ha.2 s hs)
      ((ha.1 s hs e0 (by simp)).trans hm) h1 h2 l hl
  | .hdiv b s, hg, ih, ha, hm =>
    intro l hl
    simp only [mappedParts, List.mem_singleton] at hl
    subst hl
    exact hm
  | .hcurl b s, hg, ih, ha, hm =>
    intro l hl
    simp only [mappedParts, List.mem_singleton] at hl
    subst hl
    exact hm
  | .withMapping s mp, hg, ih, ha, hm =>
    intro l hl
    simp only [mappedParts, List.mem_singleton] at hl
    subst hl
    exact hm
  | .restricted b s d, hg, ih, ha, hm =>
    rw [SumsAgree] at ha
    rw [UElem.mapping] at hm
    rw [mappedParts]
    exact ih s (by simp [children]) ha hm h1 h2
  | .broken b s, hg, ih, ha, hm =>
    rw [SumsAgree] at ha
    rw [UElem.mapping] at hm
    rw [mappedParts]
    exact ih s (by simp [children]) ha hm h1 h2

/-- The mapping of an element in which none is replaced. -/
theorem mapping_known {e : UElem} (h : Good e) : NoRemap e →
    (∃ p, pullbackOf e.mapping = .ok p) ∨ e.mapping = "undefined" ∨ e.mapping = "symmetries" := by
  induction h with
  | @intro e fixed sub ih =>
  have hg : Good e := .intro fixed sub
  intro hn
  match e, hg, ih, hn with
  | .fe b o so m v emb, hg, ih, hn =>
    obtain ⟨d, f, o', k, hd, -, -, -, hm, -⟩ := fe_desc hg
    obtain ⟨e, hreg, -, -, -, -, -, -, hmap⟩ := Props.C50_sound hd
    rw [UElem.mapping, hm, hmap]
    exact .inl (registered_mapping hreg)
  | .mixed b subs, hg, ih, hn =>
    rw [UElem.mapping]
    split
    · exact .inl ⟨_, rfl⟩
    · exact .inr (.inl rfl)
  | .vector b s dim v, hg, ih, hn =>
    rw [UElem.mapping]
    rw [NoRemap] at hn
    exact ih s (by simp [children]) hn
  | .tensor b s shape sym number count mp v, hg, ih, hn =>
    rw [UElem.mapping, (tensor_degree hg).2]
    rw [NoRemap] at hn
    split
    · exact ih s (by simp [children]) hn
    · exact .inr (.inr rfl)
  | .product b subs, hg, ih, hn =>
    rw [UElem.mapping]
    split
    · exact .inl ⟨_, rfl⟩
    · split
      · exact .inl ⟨_, rfl⟩
      · exact .inr (.inl rfl)
  | .enriched b n subs, hg, ih, hn =>
    rw [NoRemap, noRemaps_iff] at hn
    obtain ⟨e0, es, rfl, -⟩ := enriched_facts hg
    rw [enriched_mapping]
    exact ih e0 (by simp [children]) (hn e0 (by simp))
  | .hdiv b s, hg, ih, hn => exact .inl ⟨_, rfl⟩
  | .hcurl b s, hg, ih, hn => exact .inl ⟨_, rfl⟩
  | .withMapping s mp, hg, ih, hn => exact absurd hn (by rw [NoRemap]; exact id)
  | .restricted b s d, hg, ih, hn =>
    rw [UElem.mapping]
    rw [NoRemap] at hn
    exact ih s (by simp [children]) hn
  | .broken b s, hg, ih, hn =>
    rw [UElem.mapping]
    rw [NoRemap] at hn
    exact ih s (by simp [children]) hn

mutual
/-- The parts with a mapping of their own have the pullback that it names. -/
theorem mappedParts_own {l : UElem} : ∀ {e : UElem}, l ∈ mappedParts e →
    pullback l = pullbackOf l.mapping
  | .fe .., h => by
    simp only [mappedParts, List.mem_singleton] at h
    subst h; rfl
  | .mixed _ subs, h => mappedPartss_own (by rw [mappedParts] at h; exact h)
  | .vector _ s _ _, h => mappedParts_own (e := s) (by rw [mappedParts] at h; exact h)
  | .tensor _ s _ _ _ _ _ _, h => mappedParts_own (e := s) (by rw [mappedParts] at h; exact h)
  | .product _ subs, h => mappedPartss_own (by rw [mappedParts] at h; exact h)
  | .enriched _ _ subs, h => mappedPartss_own (by rw [mappedParts] at h; exact h)
  | .hdiv .., h => by
    simp only [mappedParts, List.mem_singleton] at h
    subst h; rfl
  | .hcurl .., h => by
    simp only [mappedParts, List.mem_singleton] at h
    subst h; rfl
  | .withMapping .., h => by
    simp only [mappedParts, List.mem_singleton] at h
    subst h; rfl
  | .restricted _ s _, h => mappedParts_own (e := s) (by rw [mappedParts] at h; exact h)
  | .broken _ s, h => mappedParts_own (e := s) (by rw [mappedParts] at h; exact h)
theorem mappedPartss_own {l : UElem} : ∀ {es : List UElem}, l ∈ mappedPartss es →
    pullback l = pullbackOf l.mapping
  | [], h => by simp [mappedPartss] at h
  | e :: es, h => by
    rw [mappedPartss, List.mem_append] at h
    rcases h with h | h
    · exact mappedParts_own h
    · exact mappedPartss_own h
end

end FInAT.Ufl
