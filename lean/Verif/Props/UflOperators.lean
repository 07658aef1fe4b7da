import Verif.Model.Ufl.Operators
import Verif.Model.Ufl.Sobolev
import Verif.Lemmas.Ufl.Degree
import Verif.Props.UflComponent

/-!
# C90: the operators `*`, `+` and `[]` of UFL elements
-/

namespace FInAT.Ufl

theorem ok_of_bind {α β : Type} {x : Except Err α} {f : α → Except Err β} {a : α} (hx : x = .ok a) :
    (x >>= f) = f a := by rw [hx]; rfl

mutual
theorem Deg.lt_defined : ∀ {a b : Deg} {r : Bool}, a.lt b = .ok r → ∃ r', b.lt a = .ok r'
  | .int _, .int _, _, _ => ⟨_, rfl⟩
  | .tuple as, .tuple bs, r, h => by
    simp only [Deg.lt] at h ⊢
    exact Deg.lts_defined h
  | .none, .none, _, h => by simp [Deg.lt] at h
  | .none, .int _, _, h => by simp [Deg.lt] at h
  | .none, .tuple _, _, h => by simp [Deg.lt] at h
  | .int _, .none, _, h => by simp [Deg.lt] at h
  | .int _, .tuple _, _, h => by simp [Deg.lt] at h
  | .tuple _, .none, _, h => by simp [Deg.lt] at h
  | .tuple _, .int _, _, h => by simp [Deg.lt] at h
theorem Deg.lts_defined : ∀ {as bs : List Deg} {r : Bool}, Deg.lts as bs = .ok r → ∃ r', Deg.lts bs as = .ok r'
  | [], [], _, _ => ⟨_, rfl⟩
  | [], _ :: _, _, _ => ⟨_, rfl⟩
  | _ :: _, [], _, _ => ⟨_, rfl⟩
  | a :: as, b :: bs, r, h => by
    rw [Deg.lts] at h ⊢
    by_cases hab : a.beq b = true
    · rw [if_pos hab] at h
      rw [Deg.eq_of_beq hab, if_pos (Deg.beq_refl b)]
      exact Deg.lts_defined h
    · rw [if_neg hab] at h
      rw [if_neg fun hba => hab (by rw [Deg.eq_of_beq hba]; exact Deg.beq_refl a)]
      exact Deg.lt_defined h
end

theorem Deg.lt_asymm {a b : Deg} (h : a.lt b = .ok true) (h' : b.lt a = .ok true) : False := by
  have := Deg.lt_trans h h'
  rcases Deg.lt_irrefl a with hi | ⟨e, hi⟩ <;> rw [hi] at this <;> cases this

theorem pyMax_comm {a b m : Deg} (h : pyMax [a, b] = .ok m) : pyMax [b, a] = .ok m := by
  simp only [pyMax, pyMaxFrom] at h ⊢
  obtain ⟨r, hr, h⟩ := bind_ok h
  obtain ⟨r', hr'⟩ := Deg.lt_defined hr
  rw [hr']
  cases h
  show Except.ok _ = Except.ok _
  cases r <;> cases r' <;> simp
  · rcases Deg.lt_flip hr with h | h
    · exact h
    · rw [hr'] at h; cases h
  · exact (Deg.lt_asymm hr hr').elim

theorem maxColumns_comm : ∀ {as bs ms : List Deg}, maxColumns (pyZip [as, bs]) = .ok ms →
    maxColumns (pyZip [bs, as]) = .ok ms
  | [], bs, ms, h => by
    simp only [pyZip, List.zipWith_nil_left] at h
    cases bs <;> simpa [pyZip] using h
  | a :: as, [], ms, h => by
    simp only [pyZip, List.map_nil, List.zipWith_nil_right] at h
    simpa [pyZip] using h
  | a :: as, b :: bs, ms, h => by
    simp only [pyZip, List.map_cons, List.zipWith_cons_cons, maxColumns] at h ⊢
    obtain ⟨m, hm, h⟩ := bind_ok h
    obtain ⟨ms', hms, h⟩ := bind_ok h
    rw [pyMax_comm hm]
    have := maxColumns_comm (as := as) (bs := bs) (ms := ms') (by simpa [pyZip] using hms)
    simp only [pyZip] at this
    rw [show (List.zipWith (fun x c => x :: c) bs (as.map fun x => [x])) =
      List.zipWith (fun x c => x :: c) bs (as.map fun x => [x]) from rfl] at this
    show (maxColumns _ >>= _) = _
    rw [this]
    exact h

theorem enrichedDegree_comm {a b d : Deg} (hb : b ≠ .none) (h : enrichedDegree [a, b] = .ok d) :
    enrichedDegree [b, a] = .ok d := by
  cases a with
  | none => simp [enrichedDegree, asTuples] at h; cases h
  | int r =>
    cases b with
    | none => exact absurd rfl hb
    | int s =>
      simp only [enrichedDegree, Deg.isNone, Bool.not_false, List.filter_cons_of_pos, List.filter_nil] at h ⊢
      exact pyMax_comm h
    | tuple bs =>
      simp [enrichedDegree, Deg.isNone, pyMax, pyMaxFrom, Deg.lt] at h
      cases h
  | tuple as =>
    cases b with
    | none => exact absurd rfl hb
    | int s => simp [enrichedDegree, asTuples] at h; cases h
    | tuple bs =>
      simp only [enrichedDegree, asTuples] at h ⊢
      obtain ⟨ts, hts, h⟩ := bind_ok h
      cases hts
      obtain ⟨ms, hms, h⟩ := bind_ok h
      show (maxColumns (pyZip [bs, as]) >>= _) = _
      rw [maxColumns_comm hms]
      exact h

theorem enrichedSobolev_comm (s t : Sobolev) :
    (enrichedSobolev [s, t]).toOption = (enrichedSobolev [t, s]).toOption := by
  cases s <;> cases t <;> decide

end FInAT.Ufl

namespace FInAT.Props

open Ufl

/-- **C90** `a * b` consists of `a` and `b`: these are its sub-elements, and its components are those of `a`
followed by those of `b`. -/
theorem C90_mul {a b e : UElem} (ha : Built a) (hb : Built b) (h1 : OneIndex a) (h2 : OneIndex b)
    (h : mul a (.element b) = .ok e) :
    subElementsOf e = [a, b] ∧ Built e ∧ OneIndex e ∧ leafComponents e = leafComponents a ++ leafComponents b ∧
      ∀ i : Int, 0 ≤ i → ∀ p, (leafComponents a ++ leafComponents b)[i.toNat]? = some p → extractRef e [i] = .ok p := by
  have hB : Built e := .mixed (subs := [a, b]) (by simpa using ⟨ha, hb⟩) h
  obtain ⟨b', -, h⟩ := bind_ok h
  cases h
  have h1' : OneIndex (.mixed b' [a, b]) := by simp [OneIndex, OneIndexs, h1, h2]
  have hl : leafComponents (.mixed b' [a, b]) = leafComponents a ++ leafComponents b := by
    rw [leafComponents, leafComponentss, leafComponentss, leafComponentss, List.append_nil]
  refine ⟨rfl, hB, h1', hl, ?_⟩
  intro i hi p hp
  rw [← hl] at hp
  have hlt : i < (leafComponents (.mixed b' [a, b])).length := by
    have := (List.getElem?_eq_some_iff.1 hp).1
    omega
  obtain ⟨q, hq, hx⟩ := (C54_leaves hB h1' trivial i).1 hi hlt
  rw [hp] at hq
  cases hq
  exact hx

/-- **C90** The grouping of `*` does not matter to components: the same index means the same component of the same
element, and the same indices are refused. -/
theorem C90_mul_assoc {a b c ab bc e e' : UElem} (ha : Built a) (hb : Built b) (hc : Built c) (h1 : OneIndex a)
    (h2 : OneIndex b) (h3 : OneIndex c) (hab : mul a (.element b) = .ok ab) (he : mul ab (.element c) = .ok e)
    (hbc : mul b (.element c) = .ok bc) (he' : mul a (.element bc) = .ok e') (i : Int) :
    extractRef e [i] = extractRef e' [i] := by
  obtain ⟨-, b1, o1, l1, -⟩ := C90_mul ha hb h1 h2 hab
  obtain ⟨-, b2, o2, l2, -⟩ := C90_mul b1 hc o1 h3 he
  obtain ⟨-, b3, o3, l3, -⟩ := C90_mul hb hc h2 h3 hbc
  obtain ⟨-, b4, o4, l4, -⟩ := C90_mul ha b3 h1 o3 he'
  have hl : leafComponents e = leafComponents e' := by rw [l2, l4, l1, l3, List.append_assoc]
  have hs : ∀ {x y z : UElem}, mul x (.element y) = .ok z → HasSubs z := by
    intro x y z h
    obtain ⟨_, -, h⟩ := bind_ok h
    cases h
    trivial
  have g1 := C54_leaves b2 o2 (hs he) i
  have g2 := C54_leaves b4 o4 (hs he') i
  by_cases hi : 0 ≤ i ∧ i < (leafComponents e).length
  · obtain ⟨p, hp, hx⟩ := g1.1 hi.1 hi.2
    obtain ⟨q, hq, hy⟩ := g2.1 hi.1 (hl ▸ hi.2)
    rw [hl, hq] at hp
    cases hp
    rw [hx, hy]
  · have : i < 0 ∨ ((leafComponents e).length : Int) ≤ i := by omega
    rw [g1.2 this, g2.2 (hl ▸ this)]

/-- **C90** (order of sums). When `a + b` exists and `b` has a degree, `b + a` exists and has the same cell,
degree, quadrature scheme, value shape and Sobolev space. Missing: summands without a degree, see
`C90_no_degree`. -/
theorem C90_add_comm_partial {a b e : UElem} (hb : b.degree ≠ .none) (h : add a (.element b) = .ok e) :
    ∃ e', add b (.element a) = .ok e' ∧ e'.cell = e.cell ∧ e'.degree = e.degree ∧
      e'.quadScheme = e.quadScheme ∧ e'.shape = e.shape ∧ sobolev e' = sobolev e := by
  simp only [add, mkEnriched] at h ⊢
  split at h
  · cases h
  rename_i hcell
  have hcell : b.cell = a.cell := by simpa using hcell
  obtain ⟨d, hd, h⟩ := bind_ok h
  have hd' := enrichedDegree_comm hb hd
  split at h
  · cases h
  rename_i hq
  obtain ⟨s, hs, h⟩ := bind_ok h
  obtain ⟨ss, hss, h⟩ := bind_ok h
  split at h
  · cases h
  rename_i hsh
  cases h
  have hbs : b.shape = .ok s := by
    simp only [UElem.shapes] at hss
    obtain ⟨t, ht, hss⟩ := bind_ok hss
    cases hss
    have : t = s := by simpa using hsh
    rw [ht, this]
  have hqq : ([b, a].map UElem.quadScheme |>.filterMap id).head? = ([a, b].map UElem.quadScheme |>.filterMap id).head? ∧
      ([b, a].map UElem.quadScheme |>.filterMap id).all
        (fun q => some q == ([b, a].map UElem.quadScheme |>.filterMap id).head?) = true := by
    cases ha' : a.quadScheme <;> cases hb' : b.quadScheme <;> simp [ha', hb'] at hq ⊢
    exact ⟨hq, hq.symm⟩
  have h1 : (!([a].all fun x => x.cell == b.cell)) = false := by simp [hcell]
  refine ⟨.enriched ⟨"EnrichedElement", b.cell, d, ([b, a].map UElem.quadScheme |>.filterMap id).head?, s⟩ false
    [b, a], ?_, hcell, rfl, ?_, rfl, ?_⟩
  · rw [h1]
    simp only [Bool.false_eq_true, if_false]
    rw [show enrichedDegree ([b, a].map UElem.degree) = .ok d from hd', show UElem.shapes [a] = .ok [s] by simp only [UElem.shapes]; rw [hs]; rfl, hbs]
    simp only [bind, Except.bind]
    rw [hqq.2]
    simp
  · exact hqq.1
  · rw [sobolev, sobolev]
    simp only [sobolevs]
    cases ha' : sobolev a <;> cases hb' : sobolev b <;> try rfl
    exact enrichedSobolev_comm _ _

/-- **C90** (violated). A sum that starts with an element without a degree always raises, also where the sum in the
other order exists. -/
theorem C90_no_degree {a b : UElem} (hb : b.degree = .none) (hc : a.cell = b.cell) :
    add b (.element a) = .error .typeError := by
  simp only [add, mkEnriched, List.all_cons, List.all_nil, hc, beq_self_eq_true]
  simp [enrichedDegree, hb, asTuples]
  rfl

/-- **C90** `e[domain]` restricts to a named domain and leaves cell, degree and components alone; every other index
raises `KeyError`. Products, sums with something that is not an element raise `ValueError`, and elements are not
iterable. -/
theorem C90_others (e : UElem) :
    (∀ d : String, d ∈ ["interior", "facet", "face", "edge", "vertex", "reduced"] → ∀ s, e.shape = .ok s →
      ∃ r, getItem e (some d) = .ok (.restricted r e d) ∧ r.cell = e.cell ∧ r.degree = e.degree ∧ r.shape = s) ∧
    (∀ d : String, d ∉ ["interior", "facet", "face", "edge", "vertex", "reduced"] →
      getItem e (some d) = .error .keyError) ∧
    getItem e none = .error .keyError ∧ add e .other = .error .valueError ∧ mul e .other = .error .valueError ∧
    iterElement e = .error .typeError := by
  refine ⟨?_, ?_, rfl, rfl, rfl, rfl⟩
  · intro d hd s hs
    have hd' : restrictionDomains.contains d = true := by simpa [restrictionDomains] using hd
    refine ⟨⟨"RestrictedElement", e.cell, e.degree, e.quadScheme, s⟩, ?_, rfl, rfl, rfl⟩
    simp only [getItem, mkRestricted, hd', if_true, Bool.not_true, Bool.false_eq_true, if_false]
    rw [hs]
    rfl
  · intro d hd
    have hd' : restrictionDomains.contains d = false := by
      simpa [restrictionDomains] using hd
    simp only [getItem, hd']
    rfl

/-- **C90** `num_sub_elements` counts `sub_elements`. -/
theorem C90_count (e : UElem) : numSubElements e = (subElementsOf e).length := by
  induction e using UElem.rec (motive_2 := fun _ => True) <;> simp_all [numSubElements, subElementsOf]

/-- **C90** (violated). The sub-elements of a restricted element are those of the element itself, not restricted:
splitting a restricted mixed element loses the restriction. -/
theorem C90_restricted_parts {e r : UElem} {d : String} (h : getItem e (some d) = .ok r) :
    subElementsOf r = subElementsOf e := by
  simp only [getItem] at h
  split at h
  · simp only [mkRestricted] at h
    split at h
    · cases h
    · obtain ⟨_, -, h⟩ := bind_ok h
      cases h
      rfl
  · cases h

namespace UflOperatorsCases

open UflListCases UflTreeCases

/-- Bernardi-Raugel bubbles, which have no degree unless one is given. -/
def brb : UElem :=
  .fe ⟨"Bernardi-Raugel Bubble", some (.named .triangle), .none, none, [2]⟩ .none .h1 "contravariant Piola" none (.int 2)

theorem brb_built : Built brb := by
  have h : canonicalElementDescription "BRB" (some (.named .triangle)) .none none
      = .ok ⟨"Bernardi-Raugel Bubble", some "BRB", .none, [2], .h1, "contravariant Piola", .int 2⟩ := by
    rw [canonical_eq_fast]; decide +kernel
  refine .fe (f := "BRB") (o := .none) (k := none) (q := none) (v := none) (c := some (.named .triangle)) ?_
  rw [newFe, newFeOn, mkFe, h]
  rfl

/-- Linear vectors enriched by them exist, in this order only. -/
theorem br_order : (∃ e, add vec (.element brb) = .ok e) ∧ add brb (.element vec) = .error .typeError :=
  ⟨⟨_, rfl⟩, C90_no_degree rfl rfl⟩

example : ∃ e', add (lag 2) (.element (lag 1)) = .ok e' ∧ e'.degree = .int 2 := by
  obtain ⟨e', h, -, hd, -⟩ := C90_add_comm_partial (a := lag 1) (b := lag 2) (by simp [lag, UElem.degree, UElem.base])
    (e := .enriched ⟨"EnrichedElement", some (.named .triangle), .int 2, none, []⟩ false [lag 1, lag 2]) (by rfl)
  exact ⟨e', h, hd⟩

/-- Velocity, pressure and temperature, grouped in both ways. -/
example : ∃ e e', mul (.mixed ⟨"Mixed", some (.named .triangle), .int 2, none, [3]⟩ [vec, lag 1]) (.element (lag 2)) = .ok e ∧
    mul vec (.element (.mixed ⟨"Mixed", some (.named .triangle), .int 2, none, [2]⟩ [lag 1, lag 2])) = .ok e' ∧
    ∀ i, extractRef e [i] = extractRef e' [i] :=
  ⟨_, _, by rfl, by rfl, C90_mul_assoc vec_built (lag_built 1 (.inl rfl)) (lag_built 2 (.inr rfl))
    (by simp [vec, lag, OneIndex, UElem.shape, UElem.base]) (by simp [lag, OneIndex]) (by simp [lag, OneIndex])
    (by rfl) (by rfl) (by rfl) (by rfl)⟩

example : ∃ r, getItem taylorHood (some "facet") = .ok r ∧ subElementsOf r = [vec, lag 1] :=
  ⟨_, by rfl, C90_restricted_parts (e := taylorHood) (d := "facet") (by rfl)⟩

end UflOperatorsCases

end FInAT.Props
