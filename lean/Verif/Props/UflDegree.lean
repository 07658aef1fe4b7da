import Verif.Lemmas.Ufl.Sobolev
import Verif.Props.UflTree
import Verif.Props.UflProduct

/-!
# C56, C57, C65: degrees and Sobolev spaces of UFL elements
-/

namespace FInAT.Props

open FInAT.Ufl

/-! ## C56: embedded degrees are ordered -/

/-- **C56**. For every element that the constructors can build, the embedded subdegree is
at most the embedded superdegree whenever both are given. -/
theorem C56_ordered {e : UElem} (h : Built e) {a b : Deg} (ha : embeddedSub e = .ok a)
    (hb : embeddedSuper e = .ok b) : a.le b := h.good.ordered a b ha hb

/-- **C56** (numbers). -/
theorem C56_ordered_int {e : UElem} (h : Built e) {a b : Int}
    (ha : embeddedSub e = .ok (.int a)) (hb : embeddedSuper e = .ok (.int b)) : a ≤ b :=
  Deg.le_int.1 (C56_ordered h ha hb)

/-- **C56** (limit). An element built without a degree has neither: both raise
`TypeError`. -/
theorem C56_no_degree (b : Base) (s : Sobolev) (m : String) (v : Option String) (emb : Order) :
    embeddedSub (.fe b .none s m v emb) = .error .typeError ∧
    embeddedSuper (.fe b .none s m v emb) = .error .typeError := ⟨rfl, rfl⟩

/-- **C56** (limit). A product with a factor that is itself a product has no embedded
superdegree: summing its degrees raises `TypeError`. -/
theorem C56_nested_product {b : Base} {subs : List UElem} (h : Built (.product b subs))
    {s : UElem} (hs : s ∈ subs) {ds : List Deg} (hd : s.degree = .tuple ds) :
    embeddedSuper (.product b subs) = .error .typeError := by
  rw [embeddedSuper, (product_facts h.good).1]
  simp only
  have hmem : Deg.tuple ds ∈ subs.map UElem.degree := List.mem_map.2 ⟨s, hs, hd⟩
  generalize subs.map UElem.degree = l at hmem
  have herr : ∀ l : List Deg, (∃ r : Int, pySum l = .ok (.int r)) ∨ pySum l = .error .typeError := by
    intro l
    induction l with
    | nil => exact .inl ⟨0, rfl⟩
    | cons x xs ih =>
      rw [pySum]
      rcases ih with ⟨r, hr⟩ | hr
      · rw [hr]
        cases x with
        | int a => exact .inl ⟨a + r, rfl⟩
        | none => exact .inr rfl
        | tuple => exact .inr rfl
      · rw [hr]; exact .inr rfl
  induction l with
  | nil => simp at hmem
  | cons x xs ih =>
    rw [pySum]
    rcases List.mem_cons.1 hmem with h | h
    · subst h
      rcases herr xs with ⟨r, hr⟩ | hr <;> rw [hr] <;> rfl
    · rw [ih h]; rfl

/-! ## C57: enriched elements -/

/-- **C57** (Sobolev space). The space of an enriched element is the smallest one that
contains the spaces of all sub-elements. In particular the computation succeeds. -/
theorem C57_space {b : Base} {n : Bool} {subs : List UElem} (h : Built (.enriched b n subs))
    (hs : ∀ e ∈ subs, ∃ s, sobolev e = some s) :
    ∃ r, sobolev (.enriched b n subs) = some r ∧
      (∀ e ∈ subs, ∀ s, sobolev e = some s → s.Sub r) ∧
      ∀ t : Sobolev, (∀ e ∈ subs, ∀ s, sobolev e = some s → s.Sub t) → r.Sub t := by
  obtain ⟨e0, es, rfl, -⟩ := enriched_facts h.good
  obtain ⟨ss, hss⟩ := sobolevs_of hs
  obtain ⟨m1, m2⟩ := sobolevs_mem hss
  cases hf : ss with
  | nil =>
    obtain ⟨s, hs, -⟩ := m1 e0 (by simp)
    rw [hf] at hs; simp at hs
  | cons s ss' =>
    subst hf
    refine ⟨Sobolev.joins s ss', ?_, ?_, ?_⟩
    · rw [sobolev, hss]
      change (enrichedSobolev (s :: ss')).toOption = _
      rw [enrichedSobolev_eq]; rfl
    · intro e he t ht
      obtain ⟨t', ht', h'⟩ := m1 e he
      rw [ht] at h'
      cases h'
      have hj := (Sobolev.joins_iff ss' s _).1 (Sobolev.sub_refl _)
      rcases List.mem_cons.1 ht' with rfl | ht'
      · exact Sobolev.sub_iff.1 hj.1
      · exact Sobolev.sub_iff.1 (hj.2 t ht')
    · intro t ht
      rw [← Sobolev.sub_iff, Sobolev.joins_iff]
      have key : ∀ u ∈ s :: ss', u.sub t = true := by
        intro u hu
        obtain ⟨e, he, h'⟩ := m2 u hu
        exact Sobolev.sub_iff.2 (ht e he u h')
      exact ⟨key s (by simp), fun u hu => key u (by simp [hu])⟩

/-- **C57** (degree, numbers). When the first sub-element has a number as degree, then the
others have numbers or nothing, and the degree of the enriched element is the largest. -/
theorem C57_degree {b : Base} {n : Bool} {e0 : UElem} {es : List UElem}
    (h : Built (.enriched b n (e0 :: es))) {d : Int} (hd : e0.degree = .int d) :
    ∃ r : Int, b.degree = .int r ∧
      (∀ e ∈ e0 :: es, e.degree = .none ∨ ∃ k : Int, e.degree = .int k ∧ k ≤ r) ∧
      ∃ e ∈ e0 :: es, e.degree = .int r := by
  obtain ⟨e0', es', heq, -, -, hdeg, -⟩ := enriched_facts h.good
  cases heq
  simp only [List.map_cons, hd] at hdeg
  unfold enrichedDegree at hdeg
  simp only at hdeg
  rw [List.filter_cons_of_pos (by rfl)] at hdeg
  simp only at hdeg
  have hb := le_pyMax hdeg
  have hi := pyMax_int_all (xs := (es.map UElem.degree).filter (fun d => !d.isNone))
    (m := .int d) hdeg ⟨d, rfl⟩
  obtain ⟨⟨r, hr⟩, hall⟩ := hi
  refine ⟨r, hr, fun e he => ?_, ?_⟩
  · cases hc : e.degree with
    | none => exact .inl rfl
    | int k =>
      refine .inr ⟨k, rfl, ?_⟩
      rw [← Deg.le_int, ← hr]
      apply hb.1
      rcases List.mem_cons.1 he with rfl | he
      · rw [hd] at hc; cases hc; simp
      · exact List.mem_cons_of_mem _ (List.mem_filter.2 ⟨List.mem_map.2 ⟨e, he, hc⟩, rfl⟩)
    | tuple ds =>
      exfalso
      rcases List.mem_cons.1 he with rfl | he
      · rw [hd] at hc; cases hc
      · obtain ⟨a, ha⟩ := hall (.tuple ds) (List.mem_filter.2 ⟨List.mem_map.2 ⟨e, he, hc⟩, rfl⟩)
        cases ha
  · have hm := hb.2
    rw [hr] at hm
    rcases List.mem_cons.1 hm with hm | hm
    · exact ⟨e0, by simp, by rw [hd, hm]⟩
    · obtain ⟨e, he, h'⟩ := List.mem_map.1 (List.mem_filter.1 hm).1
      exact ⟨e, by simp [he], h'⟩

/-- **C57** (degree, tuples). When the first sub-element has a tuple as degree, then all
have; the degree of the enriched element is a tuple as long as the shortest, and each of
its entries is the largest of those at this place. -/
theorem C57_degree_tuple {b : Base} {n : Bool} {e0 : UElem} {es : List UElem}
    (h : Built (.enriched b n (e0 :: es))) {d : List Deg} (hd : e0.degree = .tuple d) :
    ∃ ms : List Deg, b.degree = .tuple ms ∧
      (∀ e ∈ e0 :: es, ∃ ds, e.degree = .tuple ds ∧ ms.length ≤ ds.length ∧
        ∀ (i : Nat) m, ms[i]? = some m → ∃ x : Deg, ds[i]? = some x ∧ x.le m) ∧
      (∃ e ∈ e0 :: es, ∃ ds, e.degree = .tuple ds ∧ ds.length = ms.length) ∧
      ∀ (i : Nat) m, ms[i]? = some m → ∃ e ∈ e0 :: es, ∃ ds, e.degree = .tuple ds ∧ ds[i]? = some m := by
  obtain ⟨e0', es', heq, -, -, hdeg, -⟩ := enriched_facts h.good
  cases heq
  simp only [List.map_cons, hd] at hdeg
  unfold enrichedDegree at hdeg
  simp only at hdeg
  obtain ⟨rows, hrows, hdeg⟩ := bind_ok hdeg
  obtain ⟨ms, hcols, hdeg⟩ := bind_ok hdeg
  have hmap := asTuples_ok hrows
  have hb : b.degree = .tuple ms := (Except.ok.inj hdeg).symm
  cases hrow : rows with
  | nil => rw [hrow] at hmap; simp at hmap
  | cons r rs =>
    subst hrow
    simp only [List.map_cons, List.cons.injEq, Deg.tuple.injEq] at hmap
    obtain ⟨rfl, hes⟩ := hmap
    obtain ⟨z1, z2, z3⟩ := pyZip_spec d rs
    obtain ⟨c1, c2⟩ := maxColumns_ok hcols
    have hfull : (e0 :: es).map UElem.degree = (d :: rs).map .tuple := by
      simp [hd, hes]
    have rowOf : ∀ e ∈ e0 :: es, ∃ ds ∈ d :: rs, e.degree = .tuple ds := by
      intro e he
      have : e.degree ∈ (d :: rs).map Deg.tuple := by
        rw [← hfull]; exact List.mem_map_of_mem he
      obtain ⟨ds, hds, h'⟩ := List.mem_map.1 this
      exact ⟨ds, hds, h'.symm⟩
    have elemOf : ∀ ds ∈ d :: rs, ∃ e ∈ e0 :: es, e.degree = .tuple ds := by
      intro ds hds
      have : Deg.tuple ds ∈ (e0 :: es).map UElem.degree := by
        rw [hfull]; exact List.mem_map_of_mem hds
      obtain ⟨e, he, h'⟩ := List.mem_map.1 this
      exact ⟨e, he, h'⟩
    have f2 : ∀ {l : List (List Deg)} {col : List Deg} {i : Nat},
        List.Forall₂ (fun row x => row[i]? = some x) l col →
        (∀ row ∈ l, ∃ x ∈ col, row[i]? = some x) ∧ ∀ x ∈ col, ∃ row ∈ l, row[i]? = some x := by
      intro l col i hf
      induction hf with
      | nil => simp
      | @cons row x l col h1 _ ih =>
        refine ⟨fun y hy => ?_, fun y hy => ?_⟩
        · rcases List.mem_cons.1 hy with rfl | hy
          · exact ⟨x, by simp, h1⟩
          · obtain ⟨z, hz, h⟩ := ih.1 y hy; exact ⟨z, by simp [hz], h⟩
        · rcases List.mem_cons.1 hy with rfl | hy
          · exact ⟨row, by simp, h1⟩
          · obtain ⟨z, hz, h⟩ := ih.2 y hy; exact ⟨z, by simp [hz], h⟩
    refine ⟨ms, hb, fun e he => ?_, ?_, fun i m hm => ?_⟩
    · obtain ⟨ds, hds, h'⟩ := rowOf e he
      refine ⟨ds, h', by rw [c1]; exact z1 ds hds, fun i m hm => ?_⟩
      obtain ⟨col, hcol, hmax⟩ := c2 i m hm
      obtain ⟨x, hx, hxi⟩ := (f2 (z3 i col hcol)).1 ds hds
      exact ⟨x, hxi, (le_pyMax hmax).1 x hx⟩
    · obtain ⟨row, hrow, hl⟩ := z2
      obtain ⟨e, he, h'⟩ := elemOf row hrow
      exact ⟨e, he, row, h', by rw [c1, hl]⟩
    · obtain ⟨col, hcol, hmax⟩ := c2 i m hm
      obtain ⟨row, hrow, hri⟩ := (f2 (z3 i col hcol)).2 m (le_pyMax hmax).2
      obtain ⟨e, he, h'⟩ := elemOf row hrow
      exact ⟨e, he, row, h', hri⟩

/-! ## C65: mixed elements -/

/-- **C65** (partial: only when of any two spaces of sub-elements one contains the other).
The Sobolev space of a mixed element is the largest of those of its sub-elements. -/
theorem C65_mixed_partial {b : Base} {subs : List UElem} (hne : subs ≠ [])
    (hs : ∀ e ∈ subs, ∃ s, sobolev e = some s)
    (hc : ∀ e ∈ subs, ∀ e' ∈ subs, ∀ s s', sobolev e = some s → sobolev e' = some s' →
      s.Sub s' ∨ s'.Sub s) :
    ∃ r, sobolev (.mixed b subs) = some r ∧ (∃ e ∈ subs, sobolev e = some r) ∧
      ∀ e ∈ subs, ∀ s, sobolev e = some s → s.Sub r := by
  obtain ⟨ss, hss⟩ := sobolevs_of hs
  obtain ⟨m1, m2⟩ := sobolevs_mem hss
  cases hf : ss with
  | nil =>
    obtain ⟨e, he⟩ := List.exists_mem_of_ne_nil _ hne
    obtain ⟨s, hs, -⟩ := m1 e he
    rw [hf] at hs; simp at hs
  | cons s ss' =>
    subst hf
    obtain ⟨h1, h2, h3⟩ := spaceMax_chain ss' s (by
      intro a ha a' ha'
      obtain ⟨e, he, h⟩ := m2 a ha
      obtain ⟨e', he', h'⟩ := m2 a' ha'
      rw [Sobolev.sub_iff, Sobolev.sub_iff]
      exact hc e he e' he' a a' h h')
    refine ⟨spaceMaxFrom s ss', ?_, m2 _ h3, ?_⟩
    · rw [sobolev, hss]; rfl
    · intro e he t ht
      obtain ⟨t', ht', h'⟩ := m1 e he
      rw [ht] at h'; cases h'
      rcases List.mem_cons.1 ht' with rfl | ht'
      · exact Sobolev.sub_iff.1 h1
      · exact Sobolev.sub_iff.1 (h2 t ht')

/-- **C65** (vectors). A vector element has the space of its sub-element. -/
theorem C65_vector (b : Base) (e : UElem) (dim : Nat) (v : Option String) (hd : 0 < dim)
    {s : Sobolev} (hs : sobolev e = some s) : sobolev (.vector b e dim v) = some s := by
  have key : ∀ n, spaceMaxFrom s (List.replicate n s) = s := by
    intro n
    induction n with
    | zero => rfl
    | succ n ih =>
      rw [List.replicate_succ, spaceMaxFrom, show s.gt s = false by simp [Sobolev.gt]]
      exact ih
  cases dim with
  | zero => omega
  | succ n =>
    rw [sobolev, if_neg (by omega), hs]
    change (mixedSobolev (List.replicate (n + 1) s)).toOption = _
    rw [List.replicate_succ, mixedSobolev, key]; rfl

/-- **C65** (limit). Otherwise the space depends on the order of the sub-elements and need
not contain the other spaces: H(div) and H(curl) elements together get H(curl), or H(div)
when listed the other way round, though neither contains the other. -/
theorem C65_order_matters :
    mixedSobolev [.hDiv, .hCurl] = .ok .hCurl ∧ mixedSobolev [.hCurl, .hDiv] = .ok .hDiv ∧
      ¬ Sobolev.Sub .hDiv .hCurl ∧ ¬ Sobolev.Sub .hCurl .hDiv := by
  refine ⟨by decide, by decide, ?_, ?_⟩ <;> rw [← Sobolev.sub_iff] <;> decide

/-! ## Concrete cases -/

namespace UflDegreeCases

open UflTreeCases UflProductCases

/-- The Taylor-Hood element has embedded degrees one and two. -/
example : embeddedSub taylorHood = .ok (.int 1) ∧ embeddedSuper taylorHood = .ok (.int 2) := by
  constructor <;> rfl
example : (1 : Int) ≤ 2 := C56_ordered_int th_built (by rfl) (by rfl)

theorem rtcf_built (r : Int) (hr : 1 ≤ r) : Built (rtcf r none) :=
  .fe (C59_rtcf hr none none none)

/-- RTCF of degree two: products of degrees two and one. -/
example : embeddedSub (rtcf 2 none) = .ok (.int 1) ∧ embeddedSuper (rtcf 2 none) = .ok (.int 3) := by
  constructor <;> rfl
example := C56_ordered (rtcf_built 2 (by decide)) (a := .int 1) (b := .int 3) (by rfl) (by rfl)

/-- A product with a factor that is a product. -/
example : embeddedSuper (scalarTree continuousFamily 2 none (.tensor nested)) =
    .error .typeError := by
  have hb : Built (scalarTree continuousFamily 2 none (.tensor nested)) :=
    .fe (C59_continuous (.inl rfl) (r := 2) (by decide) none none none
      (nested_leaves (fun _ => true) rfl rfl rfl))
  rw [scalarTree] at hb ⊢
  refine C56_nested_product (s := scalarTree continuousFamily 2 none
    (.tensor [.named .triangle, .named .interval])) hb ?_ (ds := [.int 2, .int 2]) ?_
  · simp [nested, scalarTrees]
  · rw [scalarTree]
    simp [UElem.degree, UElem.base, degreeTree, degreeTrees]

/-- Both parts of RTCF are in H(div). -/
example : ∃ r, sobolev (rtcf 1 none) = some r ∧ r = .hDiv := by
  exact ⟨.hDiv, by rfl, rfl⟩
example := C57_space (b := _) (n := false) (rtcf_built 1 (by decide)) (by
  intro e he
  simp only [List.mem_cons, List.not_mem_nil, or_false] at he
  rcases he with rfl | rfl
  · exact ⟨.hDiv, by rw [sobolev]⟩
  · exact ⟨.hDiv, by rw [sobolev]⟩)

/-- Continuous elements enriched with something broken are only in L2. -/
theorem mixed_continuity : ∃ e, mkEnriched false [lag 2, .broken
    ⟨"BrokenElement", some (.named .triangle), .int 1, none, []⟩ (lag 1)] = .ok e ∧ Built e ∧
    sobolev e = some .l2 ∧ e.degree = .int 2 := by
  refine ⟨_, rfl, ?_, by rfl, rfl⟩
  refine .enriched (n := false) (subs := [lag 2, .broken
    ⟨"BrokenElement", some (.named .triangle), .int 1, none, []⟩ (lag 1)]) ?_ rfl
  intro s hs
  simp only [List.mem_cons, List.not_mem_nil, or_false] at hs
  rcases hs with rfl | rfl
  · exact lag_built 2 (.inr rfl)
  · exact .broken (lag_built 1 (.inl rfl)) rfl

/-- H(div) and H(curl) elements have L2 in common. -/
example : enrichedSobolev [.hDiv, .hCurl] = .ok .l2 := by decide +kernel
example : enrichedSobolev [.h2, .h1, .hInf] = .ok .h1 := by decide +kernel

example := C57_degree_tuple (rtcf_built 3 (by decide)) (d := [.int 3, .int 2]) rfl

/-- A mixed element of Lagrange elements. -/
example := C65_mixed_partial (b := ⟨"Mixed", none, .int 2, none, [2]⟩) (subs := [lag 2, lag 1])
  (by simp) (by
    intro e he
    simp only [List.mem_cons, List.not_mem_nil, or_false] at he
    rcases he with rfl | rfl
    · exact ⟨.h1, by rw [lag, sobolev]⟩
    · exact ⟨.h1, by rw [lag, sobolev]⟩) (by
    intro e he e' he' s s' hs hs'
    simp only [List.mem_cons, List.not_mem_nil, or_false] at he he'
    have h : ∀ r, sobolev (lag r) = some .h1 := fun r => by rw [lag, sobolev]
    rcases he with rfl | rfl <;> rcases he' with rfl | rfl <;> rw [h] at hs hs' <;>
      cases hs <;> cases hs' <;> exact .inl (.refl _))

end UflDegreeCases

end FInAT.Props
