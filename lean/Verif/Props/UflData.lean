import Verif.Model.Ufl.Space
import Verif.Model.Ufl.Pullback
import Verif.Lemmas.Ufl.Sobolev
import Verif.Lemmas.Ufl.Product
import Verif.Props.UflTree
import Mathlib.Order.Lattice
import Mathlib.Data.Int.Order.Basic

/-!
# C92: what a UFL composite reports is that of its parts

The cell, the quadrature scheme, the degree, the value shape and the mapping of mixed elements,
products and wrapped elements, for every element that can be made.
-/

namespace FInAT.Ufl

/-- The degree of a whole covers the degree of a part: no number of the part is larger than the number of the
whole for the same direction. A number stands for every direction. -/
def Deg.Covers (whole part : Deg) : Prop :=
  part = .none ∨
  (∃ r k : Int, whole = .int r ∧ part = .int k ∧ k ≤ r) ∨
  (∃ (rs : List Int) (k : Int), whole = .tuple (rs.map .int) ∧ (part = .int k ∨ part = .tuple [.int k]) ∧
    ∀ r ∈ rs, k ≤ r) ∨
  (∃ rs ks : List Int, whole = .tuple (rs.map .int) ∧ part = .tuple (ks.map .int) ∧ ks.length = rs.length ∧
    ∀ i (hi : i < rs.length) (hk : i < ks.length), ks[i] ≤ rs[i])

/-- The degree is the one given: nothing, a number, or one number per direction in the same order. -/
def Deg.Is (d : Deg) : Order → Prop
  | .none => d = .none
  | .int k => d = .int k
  | .tuple ks => ∃ ds, d = .tuple ds ∧ ds.length = ks.length ∧
    ∀ i (hi : i < ds.length) (hk : i < ks.length), ds[i] = .int ks[i]

/-- The value shape that a mapping gives to fields in that many dimensions; none for mappings that take the
shape of the wrapped element. -/
def shapeOfMapping (tdim : Nat) : List (String × List Nat) :=
  [("covariant Piola", [tdim]), ("contravariant Piola", [tdim]),
   ("double covariant Piola", [tdim, tdim]), ("double contravariant Piola", [tdim, tdim])]

end FInAT.Ufl

namespace FInAT.Ufl.Data

open UElem

theorem asInts_eq : ∀ {ds : List Deg} {is : List Int}, asInts ds = .ok is → ds = is.map .int
  | [], is, h => by cases h; rfl
  | .int a :: ds, is, h => by
    obtain ⟨js, hj, h⟩ := bind_ok h
    cases h
    rw [asInts_eq hj]; rfl
  | .none :: ds, is, h => by cases h
  | .tuple _ :: ds, is, h => by cases h

theorem int_inj : Function.Injective Deg.int := fun a b h => by cases h; rfl

theorem int_ne (r : Int) : Deg.int r ≠ .none := by intro h; cases h

theorem npTuples_covers {as bs : List Int} {m : Deg} (h : (match as, bs with
    | [a], bs => Except.ok (Deg.tuple (bs.map (fun b => .int (max a b))))
    | as, [b] => .ok (.tuple (as.map (fun a => .int (max a b))))
    | as, bs =>
      if as.length = bs.length then
        .ok (.tuple (List.zipWith (fun a b => .int (max a b)) as bs))
      else .error Err.valueError) = .ok m) :
    m.Covers (.tuple (as.map .int)) ∧ m.Covers (.tuple (bs.map .int)) := by
  split at h
  · rename_i a
    cases h
    refine ⟨.inr (.inr (.inl ⟨bs.map (max a), a, by simp, .inr rfl, ?_⟩)),
      .inr (.inr (.inr ⟨bs.map (max a), bs, by simp, rfl, by simp, ?_⟩))⟩
    · intro r hr; obtain ⟨x, _, rfl⟩ := List.mem_map.mp hr; exact le_max_left _ _
    · intro i h1 h2; simp
  · rename_i b _
    cases h
    refine ⟨.inr (.inr (.inr ⟨as.map (max · b), as, by simp, rfl, by simp, ?_⟩)),
      .inr (.inr (.inl ⟨as.map (max · b), b, by simp, .inr rfl, ?_⟩))⟩
    · intro i h1 h2; simp
    · intro r hr; obtain ⟨x, _, rfl⟩ := List.mem_map.mp hr; exact le_max_right _ _
  · split at h
    · rename_i hl
      cases h
      have hm : List.zipWith (fun a b : Int => Deg.int (max a b)) as bs = (List.zipWith max as bs).map .int := by
        rw [List.map_zipWith]
      refine ⟨.inr (.inr (.inr ⟨List.zipWith max as bs, as, by rw [hm], rfl, by simp [hl], ?_⟩)),
        .inr (.inr (.inr ⟨List.zipWith max as bs, bs, by rw [hm], rfl, by simp [hl], ?_⟩))⟩
      · intro i h1 h2; simp
      · intro i h1 h2; simp
    · cases h

/-- The larger of two degrees covers both. -/
theorem npMaximum_covers {a b m : Deg} (h : npMaximum a b = .ok m) : m.Covers a ∧ m.Covers b := by
  cases a with
  | none => cases b <;> cases h
  | int a =>
    cases b with
    | none => cases h
    | int b =>
      cases h
      exact ⟨.inr (.inl ⟨_, a, rfl, rfl, le_max_left _ _⟩), .inr (.inl ⟨_, b, rfl, rfl, le_max_right _ _⟩)⟩
    | tuple ds =>
      obtain ⟨is, hi, h⟩ := bind_ok h
      cases h
      rw [asInts_eq hi]
      refine ⟨.inr (.inr (.inl ⟨is.map (max a), a, by simp, .inl rfl, ?_⟩)),
        .inr (.inr (.inr ⟨is.map (max a), is, by simp, rfl, by simp, ?_⟩))⟩
      · intro r hr; obtain ⟨x, _, rfl⟩ := List.mem_map.mp hr; exact le_max_left _ _
      · intro i h1 h2; simp
  | tuple ds =>
    cases b with
    | none => cases h
    | int b =>
      obtain ⟨is, hi, h⟩ := bind_ok h
      cases h
      rw [asInts_eq hi]
      refine ⟨.inr (.inr (.inr ⟨is.map (max · b), is, by simp, rfl, by simp, ?_⟩)),
        .inr (.inr (.inl ⟨is.map (max · b), b, by simp, .inl rfl, ?_⟩))⟩
      · intro i h1 h2; simp
      · intro r hr; obtain ⟨x, _, rfl⟩ := List.mem_map.mp hr; exact le_max_right _ _
    | tuple es =>
      obtain ⟨as, ha, h⟩ := bind_ok h
      obtain ⟨bs, hb, h⟩ := bind_ok h
      rw [asInts_eq ha, asInts_eq hb]
      exact npTuples_covers h

theorem map_int_inj {a b : List Int} (h : a.map Deg.int = b.map Deg.int) : a = b :=
  List.map_injective_iff.mpr int_inj h

/-- What covers the larger covers the smaller. -/
theorem Covers.trans {a b c : Deg} (hb : b ≠ .none) (h : a.Covers b) (h' : b.Covers c) : a.Covers c := by
  rcases h' with h' | ⟨r', k', hb', hc, hk'⟩ | ⟨rs', k', hb', hc, hk'⟩ | ⟨rs', ks', hb', hc, hl', hk'⟩
  · exact .inl h'
  · -- the middle is a number
    rcases h with h | ⟨r, k, ha, hb2, hk⟩ | ⟨rs, k, ha, hb2, hk⟩ | ⟨rs, ks, ha, hb2, hl, hk⟩
    · exact absurd h hb
    · rw [hb'] at hb2; cases hb2
      exact .inr (.inl ⟨r, k', ha, hc, le_trans hk' hk⟩)
    · rcases hb2 with hb2 | hb2 <;> rw [hb'] at hb2 <;> cases hb2
      exact .inr (.inr (.inl ⟨rs, k', ha, .inl hc, fun x hx => le_trans hk' (hk x hx)⟩))
    · rw [hb'] at hb2; cases hb2
  · -- the middle is a tuple, the part one number
    rcases h with h | ⟨r, k, ha, hb2, hk⟩ | ⟨rs, k, ha, hb2, hk⟩ | ⟨rs, ks, ha, hb2, hl, hk⟩
    · exact absurd h hb
    · rw [hb'] at hb2; cases hb2
    · rcases hb2 with hb2 | hb2
      · rw [hb'] at hb2; cases hb2
      · rw [hb'] at hb2
        have hr : rs' = [k] := map_int_inj (by simpa using hb2)
        subst hr
        exact .inr (.inr (.inl ⟨rs, k', ha, hc, fun x hx => le_trans (hk' k (by simp)) (hk x hx)⟩))
    · rw [hb'] at hb2
      have hr : rs' = ks := map_int_inj (by simpa using hb2)
      subst hr
      refine .inr (.inr (.inl ⟨rs, k', ha, hc, fun x hx => ?_⟩))
      obtain ⟨i, hi, rfl⟩ := List.getElem_of_mem hx
      exact le_trans (hk' _ (List.getElem_mem (hl ▸ hi))) (hk i hi (hl ▸ hi))
  · rcases h with h | ⟨r, k, ha, hb2, hk⟩ | ⟨rs, k, ha, hb2, hk⟩ | ⟨rs, ks, ha, hb2, hl, hk⟩
    · exact absurd h hb
    · rw [hb'] at hb2; cases hb2
    · rcases hb2 with hb2 | hb2
      · rw [hb'] at hb2; cases hb2
      · rw [hb'] at hb2
        have hr : rs' = [k] := map_int_inj (by simpa using hb2)
        subst hr
        obtain ⟨x, rfl⟩ := List.length_eq_one_iff.mp (by simpa using hl')
        refine .inr (.inr (.inl ⟨rs, x, ha, .inr (by simpa using hc), fun y hy => ?_⟩))
        exact le_trans (hk' 0 (by simp) (by simp)) (hk y hy)
    · rw [hb'] at hb2
      have hr : rs' = ks := map_int_inj (by simpa using hb2)
      subst hr
      refine .inr (.inr (.inr ⟨rs, ks', ha, hc, hl'.trans hl, fun i hi hk2 => ?_⟩))
      exact le_trans (hk' i (hl ▸ hi) hk2) (hk i hi (hl ▸ hi))

theorem npMaximum_ne {a b m : Deg} (h : npMaximum a b = .ok m) : m ≠ .none := by
  rcases npMaximum_covers h with ⟨h1, _⟩
  rcases h1 with h1 | ⟨r, k, ha, _⟩ | ⟨rs, k, ha, _⟩ | ⟨rs, ks, ha, _⟩
  · subst h1; cases b <;> cases h
  all_goals (rw [ha]; intro h; cases h)

/-- A degree of numbers covers itself. -/
theorem covers_self {m : Deg} (h : maxDegreeFrom m [] = .ok m) : m.Covers m := by
  cases m with
  | none => exact .inl rfl
  | int r => exact .inr (.inl ⟨r, r, rfl, rfl, le_refl _⟩)
  | tuple ds =>
    obtain ⟨is, hi, _⟩ := bind_ok (show (asInts ds >>= fun _ => Except.ok (Deg.tuple ds)) = .ok (.tuple ds) from h)
    rw [asInts_eq hi]
    exact .inr (.inr (.inr ⟨is, is, rfl, rfl, rfl, fun i _ _ => le_refl _⟩))

theorem maxDegreeFrom_nil {m r : Deg} (h : maxDegreeFrom m [] = .ok r) : r = m := by
  cases m with
  | none => cases h; rfl
  | int r => cases h; rfl
  | tuple ds =>
    obtain ⟨is, _, h⟩ := bind_ok (show (asInts ds >>= fun _ => Except.ok (Deg.tuple ds)) = .ok r from h)
    cases h; rfl

theorem maxDegreeFrom_covers : ∀ {ds : List Deg} {m r : Deg}, m ≠ .none → maxDegreeFrom m ds = .ok r →
    r.Covers m ∧ ∀ d ∈ ds, r.Covers d
  | [], m, r, _, h => by
    obtain rfl := maxDegreeFrom_nil h
    exact ⟨covers_self h, fun d hd => by simp at hd⟩
  | x :: xs, m, r, hm, h => by
    rw [maxDegreeFrom] at h
    obtain ⟨n, hn, h⟩ := bind_ok h
    obtain ⟨h1, h2⟩ := maxDegreeFrom_covers (npMaximum_ne hn) h
    obtain ⟨h3, h4⟩ := npMaximum_covers hn
    refine ⟨Covers.trans (npMaximum_ne hn) h1 h3, fun d hd => ?_⟩
    rcases List.mem_cons.mp hd with rfl | hd
    · exact Covers.trans (npMaximum_ne hn) h1 h4
    · exact h2 d hd

theorem mixedDegree_covers {ds : List Deg} {r : Deg} (h : mixedDegree ds = .ok r) : ∀ d ∈ ds, r.Covers d := by
  intro d hd
  cases hn : d.isNone with
  | true => cases d <;> first | exact .inl rfl | cases hn
  | false =>
    have hmem : d ∈ ds.filter (fun d => !d.isNone) := List.mem_filter.mpr ⟨hd, by rw [hn]; rfl⟩
    unfold mixedDegree at h
    split at h
    · rename_i he; rw [he] at hmem; simp at hmem
    · rename_i x xs he
      have hx : x ≠ .none := by
        have : x ∈ ds.filter (fun d => !d.isNone) := by rw [he]; simp
        have := (List.mem_filter.mp this).2
        rintro rfl; simp [Deg.isNone] at this
      obtain ⟨h1, h2⟩ := maxDegreeFrom_covers hx h
      rw [he] at hmem
      rcases List.mem_cons.mp hmem with rfl | hm
      · exact h1
      · exact h2 d hm

/-- All numbers: the largest. -/
theorem maxDegreeFrom_int : ∀ {is : List Int} {m : Int}, ∃ r : Int, maxDegreeFrom (.int m) (is.map .int) = .ok (.int r) ∧
    (r = m ∨ r ∈ is)
  | [], m => ⟨m, rfl, .inl rfl⟩
  | i :: is, m => by
    obtain ⟨r, hr, h⟩ := maxDegreeFrom_int (is := is) (m := max m i)
    refine ⟨r, ?_, ?_⟩
    · rw [List.map_cons, maxDegreeFrom]; exact hr
    · rcases h with rfl | h
      · rcases le_total m i with h | h
        · right; rw [max_eq_right h]; simp
        · left; rw [max_eq_left h]
      · exact .inr (by simp [h])

theorem cellsOf_eq : ∀ {subs : List UElem} {cs : List UCell}, cellsOf subs = .ok cs →
    subs.map UElem.cell = cs.map some
  | [], cs, h => by cases h; rfl
  | e :: es, cs, h => by
    rw [cellsOf] at h
    cases hc : e.cell with
    | none => rw [hc] at h; cases h
    | some c =>
      rw [hc] at h
      obtain ⟨ds, hd, h⟩ := bind_ok h
      cases h
      rw [List.map_cons, List.map_cons, cellsOf_eq hd, hc]

theorem shapes_get : ∀ {subs : List UElem} {ss : List (List Nat)}, shapes subs = .ok ss →
    subs.map UElem.shape = ss.map .ok
  | [], ss, h => by cases h; rfl
  | e :: es, ss, h => by
    rw [shapes] at h
    obtain ⟨s, hs, h⟩ := bind_ok h
    obtain ⟨ts, ht, h⟩ := bind_ok h
    cases h
    rw [List.map_cons, List.map_cons, shapes_get ht, hs]

end FInAT.Ufl.Data

namespace FInAT.Props

open FInAT.Ufl FInAT.Ufl.UElem FInAT.Ufl.Data

/-- **C92** (simple elements). An element of a registered family, given its own name, has the cell, the scheme, the
variant and the degree that it was made with: nothing, a number, or one number per direction in the same order. The
cell may be missing (`None`). -/
theorem C92_simple {r : Entry} (hr : r ∈ registrations) (n : Option CellName) (o : Order) (q v : Option String) {e : UElem}
    (h : newFe r.family o none q v (n.map .named) = .ok e) :
    e.cell = n.map .named ∧ e.quadScheme = q ∧ e.variant = v ∧
    e.degree.Is o := by
  have h : mkFe r.family (n.map .named) o none q v = .ok e := by
    cases n with
    | none => rwa [Option.map_none, newFe] at h
    | some n => rwa [Option.map_some, newFe, newFeOn] at h
  rw [mkFe] at h
  obtain ⟨d, hd, h⟩ := bind_ok h
  cases h
  refine ⟨rfl, rfl, rfl, ?_⟩
  have ho : d.order = o := by
    obtain ⟨hget, ha⟩ := registered_facts r hr
    have hc : catchFeec (tdimOf (n.map .named)) none (r.family, o) = .ok (r.family, o) := rfl
    unfold canonicalElementDescription describe at hd
    rw [hc] at hd
    obtain ⟨s, hs, hd⟩ := bind_ok hd
    cases hs
    rw [resolve_of_not_alias (s := (r.family, o)) ha] at hd
    obtain ⟨s, hs, hd⟩ := bind_ok hd
    cases hs
    simp only at hd
    rw [hget] at hd
    obtain ⟨_, _, hd⟩ := bind_ok hd
    split at hd
    · cases hd
    · split at hd
      · cases hd
      · obtain ⟨_, _, hd⟩ := bind_ok hd
        cases hd
        rfl
  show d.order.toDeg.Is o
  rw [ho]
  cases o with
  | none => rfl
  | int k => rfl
  | tuple ks => exact ⟨_, rfl, by simp, fun i hi hk => by simp⟩

/-- **C92** (mixed elements). A mixed element is on the one cell of its parts, uses the one quadrature scheme
of its parts, has as many values as its parts together, and a degree that covers the degree of every part. -/
theorem C92_mixed {subs : List UElem} {e : UElem} (h : Ufl.mkMixed subs = .ok e) :
    (∀ s ∈ subs, s.cell = none ∨ s.cell = e.cell) ∧
    (∀ s ∈ subs, s.quadScheme = e.quadScheme) ∧
    (∃ ss : List (List Nat), subs.map UElem.shape = ss.map .ok ∧ e.shape = .ok [(ss.map List.prod).sum]) ∧
    ∀ s ∈ subs, e.degree.Covers s.degree := by
  obtain ⟨b, hb, h⟩ := bind_ok (show (mixedBase subs none >>= fun b => Except.ok (UElem.mixed b subs)) = .ok e from h)
  cases h
  unfold mixedBase at hb
  obtain ⟨c, hc, hb⟩ := bind_ok hb
  obtain ⟨q, hq, hb⟩ := bind_ok hb
  obtain ⟨ss, hss, hb⟩ := bind_ok hb
  obtain ⟨d, hd, hb⟩ := bind_ok hb
  cases hb
  refine ⟨fun s hs => ?_, fun s hs => ?_, ⟨ss, shapes_get hss, ?_⟩, fun s hs => ?_⟩
  · show s.cell = none ∨ s.cell = c
    cases hsc : s.cell with
    | none => exact .inl rfl
    | some x =>
      right
      have hx : x ∈ (subs.map UElem.cell).filterMap id :=
        List.mem_filterMap.mpr ⟨some x, List.mem_map.mpr ⟨s, hs, hsc⟩, rfl⟩
      unfold mixedCell at hc
      split at hc
      · rename_i he; rw [he] at hx; simp at hx
      · rename_i y ys he
        split at hc
        · rename_i hall
          cases hc
          rw [he] at hx
          rcases List.mem_cons.mp hx with rfl | hx
          · rfl
          · rw [eq_of_beq (List.all_eq_true.mp hall x hx)]
        · cases hc
  · show s.quadScheme = q
    have hx : s.quadScheme ∈ subs.map UElem.quadScheme := List.mem_map.mpr ⟨s, hs, rfl⟩
    unfold mixedQuad at hq
    split at hq
    · rename_i he; rw [he] at hx; simp at hx
    · rename_i y ys he
      split at hq
      · rename_i hall
        cases hq
        rw [he] at hx
        rcases List.mem_cons.mp hx with hx | hx
        · exact hx
        · exact eq_of_beq (List.all_eq_true.mp hall _ hx)
      · cases hq
  · show Except.ok [(ss.map prodNat).sum] = _
    have : (prodNat : List Nat → Nat) = List.prod := by
      funext l; simp [prodNat, List.prod]
    rw [this]
  · exact mixedDegree_covers hd _ (List.mem_map.mpr ⟨s, hs, rfl⟩)

/-- **C92** (mixed elements of different cells). Parts on different cells, or with different quadrature schemes,
make no mixed element: a `ValueError`. -/
theorem C92_conflict (subs : List UElem) {s s' : UElem} (hs : s ∈ subs) (hs' : s' ∈ subs)
    {c c' : UCell} (hc : s.cell = some c) (hc' : s'.cell = some c') (hne : c ≠ c') :
    Ufl.mkMixed subs = .error .valueError := by
  have hx : c ∈ (subs.map UElem.cell).filterMap id :=
    List.mem_filterMap.mpr ⟨some c, List.mem_map.mpr ⟨s, hs, hc⟩, rfl⟩
  have hx' : c' ∈ (subs.map UElem.cell).filterMap id :=
    List.mem_filterMap.mpr ⟨some c', List.mem_map.mpr ⟨s', hs', hc'⟩, rfl⟩
  have : mixedCell (subs.map UElem.cell) = .error .valueError := by
    unfold mixedCell
    split
    · rename_i he; rw [he] at hx; simp at hx
    · rename_i y ys he
      rw [if_neg]
      intro hall
      rw [he] at hx hx'
      have hy : ∀ z ∈ y :: ys, z = y := by
        intro z hz
        rcases List.mem_cons.mp hz with rfl | hz
        · rfl
        · exact eq_of_beq (List.all_eq_true.mp hall z hz)
      exact hne ((hy c hx).trans (hy c' hx').symm)
  unfold Ufl.mkMixed mixedBase
  rw [this]
  rfl

/-- **C92** (the degree is reached). Parts whose degrees are numbers make a mixed element of the largest of them. -/
theorem C92_degree_reached {subs : List UElem} {e : UElem} (h : Ufl.mkMixed subs = .ok e)
    (hd : ∀ s ∈ subs, s.degree = .none ∨ ∃ k : Int, s.degree = .int k) (hne : ∃ s ∈ subs, s.degree ≠ .none) :
    ∃ s ∈ subs, e.degree = s.degree ∧ ∃ r : Int, e.degree = .int r := by
  obtain ⟨b, hb, h⟩ := bind_ok (show (mixedBase subs none >>= fun b => Except.ok (UElem.mixed b subs)) = .ok e from h)
  cases h
  unfold mixedBase at hb
  obtain ⟨c, hc, hb⟩ := bind_ok hb
  obtain ⟨q, hq, hb⟩ := bind_ok hb
  obtain ⟨ss, hss, hb⟩ := bind_ok hb
  obtain ⟨d, hdd, hb⟩ := bind_ok hb
  cases hb
  have hall : ∀ x ∈ (subs.map UElem.degree).filter (fun d => !d.isNone), ∃ k : Int, x = .int k := by
    intro x hx
    obtain ⟨hx, hn⟩ := List.mem_filter.mp hx
    obtain ⟨s, hs, rfl⟩ := List.mem_map.mp hx
    rcases hd s hs with h | h
    · rw [h] at hn; cases hn
    · exact h
  have hints : ∀ l : List Deg, (∀ x ∈ l, ∃ k : Int, x = .int k) → ∃ is : List Int, l = is.map .int := by
    intro l
    induction l with
    | nil => exact fun _ => ⟨[], rfl⟩
    | cons x xs ih =>
      intro hl
      obtain ⟨k, rfl⟩ := hl x (by simp)
      obtain ⟨is, his⟩ := ih (fun y hy => hl y (by simp [hy]))
      exact ⟨k :: is, by rw [his]; rfl⟩
  obtain ⟨is, his⟩ := hints _ hall
  have hmem : ∀ i ∈ is, ∃ s ∈ subs, s.degree = .int i := by
    intro i hi
    have : Deg.int i ∈ (subs.map UElem.degree).filter (fun d => !d.isNone) := by
      rw [his]; exact List.mem_map.mpr ⟨i, hi, rfl⟩
    obtain ⟨s, hs, h⟩ := List.mem_map.mp (List.mem_filter.mp this).1
    exact ⟨s, hs, h⟩
  show ∃ s ∈ subs, d = s.degree ∧ ∃ r : Int, d = .int r
  unfold mixedDegree at hdd
  rw [his] at hdd
  cases is with
  | nil =>
    obtain ⟨s, hs, hn⟩ := hne
    have : s.degree ∈ (subs.map UElem.degree).filter (fun d => !d.isNone) := by
      refine List.mem_filter.mpr ⟨List.mem_map.mpr ⟨s, hs, rfl⟩, ?_⟩
      rcases hd s hs with h | ⟨k, h⟩
      · exact absurd h hn
      · rw [h]; rfl
    rw [his] at this; simp at this
  | cons i is =>
    obtain ⟨r, hr, hri⟩ := maxDegreeFrom_int (is := is) (m := i)
    have : d = .int r := by
      have := hdd.symm.trans hr
      cases this; rfl
    obtain ⟨s, hs, h⟩ := hmem r (by rcases hri with rfl | h <;> simp [*])
    exact ⟨s, hs, this.trans h.symm, r, this⟩

/-- **C92** (products). A product without a cell is on the product of the cells of its factors, in their order,
its degree lists the degrees of the factors in the same order, and its value shape is that of its one factor
that is not scalar. -/
theorem C92_product {subs : List UElem} {e : UElem} (h : Ufl.mkProduct subs none = .ok e) :
    (∃ cs : List UCell, e.cell = some (.tensor cs) ∧ subs.map UElem.cell = cs.map some) ∧
    e.degree = .tuple (subs.map UElem.degree) ∧
    ∃ ss : List (List Nat), subs.map UElem.shape = ss.map .ok ∧ e.shape = .ok ss.flatten ∧ ss.flatten.length ≤ 1 := by
  unfold Ufl.mkProduct at h
  split at h
  · cases h
  · obtain ⟨c, hc, h⟩ := bind_ok h
    obtain ⟨ss, hss, h⟩ := bind_ok h
    obtain ⟨cs, hcs, hc⟩ := bind_ok hc
    cases hc
    simp only at h
    split at h
    · cases h
    · rename_i hl
      cases h
      exact ⟨⟨cs, rfl, cellsOf_eq hcs⟩, rfl, ss, shapes_get hss, rfl, by omega⟩

/-- **C92** (products on a given cell). A product is on the cell that is given. -/
theorem C92_product_cell {subs : List UElem} {c : UCell} {e : UElem} (h : Ufl.mkProduct subs (some c) = .ok e) :
    e.cell = some c ∧ e.degree = .tuple (subs.map UElem.degree) := by
  unfold Ufl.mkProduct at h
  split at h
  · cases h
  · obtain ⟨c', hc, h⟩ := bind_ok h
    obtain ⟨ss, hss, h⟩ := bind_ok h
    cases hc
    simp only at h
    split at h
    · cases h
    · cases h; exact ⟨rfl, rfl⟩

/-- **C92** (H(div) and H(curl)). An element made div-conforming is a vector field on the cell of the wrapped
element, of its degree and scheme, mapped by the contravariant Piola map; made curl-conforming, by the covariant
one. -/
theorem C92_hdiv_hcurl {s e : UElem} :
    (Ufl.mkHDiv s = .ok e → e.mapping = "contravariant Piola" ∧ space e = some (.plain .hDiv) ∧
      pullback e = .ok .contravariantPiola) ∧
    (Ufl.mkHCurl s = .ok e → e.mapping = "covariant Piola" ∧ space e = some (.plain .hCurl) ∧
      pullback e = .ok .covariantPiola) ∧
    (Ufl.mkHDiv s = .ok e ∨ Ufl.mkHCurl s = .ok e → e.cell = s.cell ∧ e.degree = s.degree ∧
      e.quadScheme = s.quadScheme ∧ ∃ c, s.cell = some c ∧ e.shape = .ok [c.tdim]) := by
  have hw : ∀ {b : Base}, wrapBase s = .ok b → b.cell = s.cell ∧ b.degree = s.degree ∧
      b.quadScheme = s.quadScheme ∧ ∃ c, s.cell = some c ∧ b.shape = [c.tdim] := by
    intro b hb
    unfold wrapBase at hb
    cases hc : s.cell with
    | none => rw [hc] at hb; cases hb
    | some c => rw [hc] at hb; cases hb; exact ⟨rfl, rfl, rfl, c, rfl, rfl⟩
  refine ⟨fun h => ?_, fun h => ?_, fun h => ?_⟩
  · obtain ⟨b, hb, h⟩ := bind_ok h
    cases h
    exact ⟨rfl, by rw [space], rfl⟩
  · obtain ⟨b, hb, h⟩ := bind_ok h
    cases h
    exact ⟨rfl, by rw [space], rfl⟩
  · rcases h with h | h
    all_goals
      obtain ⟨b, hb, h⟩ := bind_ok h
      cases h
      obtain ⟨h1, h2, h3, c, h4, h5⟩ := hw hb
      exact ⟨h1, h2, h3, c, h4, by show Except.ok b.shape = _; rw [h5]⟩

/-- **C92** (another mapping). An element given another mapping has that mapping and the pullback of it, stays
on its cell with its degree and scheme, and has the value shape of fields mapped so: a vector or a matrix for the
Piola maps, the shape of the wrapped element otherwise. No element is given the mapping `symmetries`. -/
theorem C92_withMapping {s e : UElem} {m : String} (h : Ufl.mkWithMapping s m = .ok e) :
    m ≠ "symmetries" ∧ e.mapping = m ∧ e.cell = s.cell ∧ e.degree = s.degree ∧ e.quadScheme = s.quadScheme ∧
    ∀ c, s.cell = some c →
      (∀ sh, (m, sh) ∈ shapeOfMapping c.tdim → e.shape = .ok sh) ∧
      ((∀ sh, (m, sh) ∉ shapeOfMapping c.tdim) → e.shape = s.shape) := by
  unfold Ufl.mkWithMapping at h
  split at h
  · cases h
  · rename_i hm
    cases h
    refine ⟨hm, rfl, rfl, rfl, rfl, fun c hc => ?_⟩
    have hc' : s.base.cell = some c := hc
    have key : (UElem.withMapping s m).shape =
        if m = "covariant Piola" ∨ m = "contravariant Piola" then .ok [c.tdim]
        else if m = "double covariant Piola" ∨ m = "double contravariant Piola" then .ok [c.tdim, c.tdim]
        else s.shape := by
      rw [UElem.shape, hc']
    constructor
    · intro sh hsh
      simp only [shapeOfMapping, List.mem_cons, Prod.mk.injEq, List.not_mem_nil, or_false] at hsh
      rw [key]
      rcases hsh with ⟨rfl, rfl⟩ | ⟨rfl, rfl⟩ | ⟨rfl, rfl⟩ | ⟨rfl, rfl⟩ <;> rfl
    · intro hn
      rw [key, if_neg, if_neg]
      · rintro (rfl | rfl)
        · exact hn [c.tdim, c.tdim] (by simp [shapeOfMapping])
        · exact hn [c.tdim, c.tdim] (by simp [shapeOfMapping])
      · rintro (rfl | rfl)
        · exact hn [c.tdim] (by simp [shapeOfMapping])
        · exact hn [c.tdim] (by simp [shapeOfMapping])

/-- **C92** (restricted and broken elements). Restricting an element to part of its cell, or breaking it, changes
neither cell, degree, scheme, value shape nor mapping. -/
theorem C92_restricted_broken {s e : UElem} (h : (∃ d, Ufl.mkRestricted s d = .ok e) ∨ Ufl.mkBroken s = .ok e) :
    e.cell = s.cell ∧ e.degree = s.degree ∧ e.quadScheme = s.quadScheme ∧ e.shape = s.shape ∧
      e.mapping = s.mapping := by
  rcases h with ⟨d, h⟩ | h
  · unfold Ufl.mkRestricted at h
    split at h
    · cases h
    · obtain ⟨sh, hs, h⟩ := bind_ok h
      cases h
      exact ⟨rfl, rfl, rfl, hs.symm, by rw [UElem.mapping]⟩
  · unfold Ufl.mkBroken at h
    obtain ⟨sh, hs, h⟩ := bind_ok h
    cases h
    exact ⟨rfl, rfl, rfl, hs.symm, by rw [UElem.mapping]⟩

/-! ## Concrete cases -/

namespace UflDataCases

open UflTreeCases

/- Taylor-Hood: a mixed element on triangles of degree two. -/
example := C92_mixed (subs := [vec, lag 1]) (e := taylorHood) rfl
example := C92_degree_reached (subs := [vec, lag 1]) (e := taylorHood) rfl
  (by
    intro s hs
    simp only [List.mem_cons, List.not_mem_nil, or_false] at hs
    rcases hs with rfl | rfl
    · exact .inr ⟨2, rfl⟩
    · exact .inr ⟨1, rfl⟩)
  ⟨lag 1, by simp, by intro h; cases h⟩

/-- A linear element on intervals. -/
def line : UElem := .fe ⟨"Lagrange", some (.named .interval), .int 1, none, []⟩ (.int 1) .h1 "identity" none (.int 1)

theorem line_ok : newFe "Lagrange" (.int 1) none none none (some (.named .interval)) = .ok line := by
  have h : canonicalElementDescription "Lagrange" (some (.named .interval)) (.int 1) none
      = .ok ⟨"Lagrange", some "CG", .int 1, [], .h1, "identity", .int 1⟩ := by
    rw [UflListCases.canonical_eq_fast]
    decide +kernel
  rw [newFe, newFeOn, mkFe, h]
  rfl

/- A linear element on intervals. -/
example : line.degree = .int 1 :=
  (C92_simple (r := ⟨"Lagrange", some "CG", 0, .h1, "identity", some 1, none, .names anyCell⟩) (by decide +kernel)
    (some .interval) (.int 1) none none line_ok).2.2.2

/-- A linear element with a quadrature scheme that is not on a cell. -/
def nowhere : UElem := .fe ⟨"Lagrange", none, .int 1, some "KMV", []⟩ (.int 1) .h1 "identity" none (.int 1)

theorem nowhere_ok : newFe "Lagrange" (.int 1) none (some "KMV") none none = .ok nowhere := by
  have h : canonicalElementDescription "Lagrange" none (.int 1) none
      = .ok ⟨"Lagrange", some "CG", .int 1, [], .h1, "identity", .int 1⟩ := by
    rw [UflListCases.canonical_eq_fast]
    decide +kernel
  rw [newFe, mkFe, h]
  rfl

example : nowhere.quadScheme = some "KMV" :=
  (C92_simple (r := ⟨"Lagrange", some "CG", 0, .h1, "identity", some 1, none, .names anyCell⟩) (by decide +kernel)
    none (.int 1) (some "KMV") none nowhere_ok).2.1

theorem line_built : Built line := .fe line_ok

/-- A quadratic element on triangles times a linear one on intervals. -/
def wedge : UElem :=
  .product ⟨"TensorProductElement", some (.tensor [.named .triangle, .named .interval]), .tuple [.int 2, .int 1], none,
    []⟩ [lag 2, line]

/- The cell is triangle times interval, in this order. -/
example := C92_product (subs := [lag 2, line]) (e := wedge) rfl
example : wedge.cell = some (.tensor [.named .triangle, .named .interval]) := rfl

/- A mixed element of a product and a number: the degree of the product is raised in both directions. -/
example : (Deg.tuple [.int 2, .int 2]).Covers (.tuple [.int 2, .int 1]) ∧
    (Deg.tuple [.int 2, .int 2]).Covers (.int 2) :=
  npMaximum_covers (a := .tuple [.int 2, .int 1]) (b := .int 2) rfl

/- A triangle and an interval. -/
example := C92_conflict [lag 1, line] (s := lag 1) (s' := line) (by simp) (by simp) (c := .named .triangle)
  (c' := .named .interval) rfl rfl (by decide)

example : ∃ e, Ufl.mkHDiv wedge = .ok e ∧ e.mapping = "contravariant Piola" ∧ e.shape = .ok [3] :=
  ⟨_, rfl, rfl, rfl⟩
example : ∃ e, Ufl.mkHCurl wedge = .ok e ∧ e.mapping = "covariant Piola" ∧ e.shape = .ok [3] :=
  ⟨_, rfl, rfl, rfl⟩
example := C92_withMapping (s := vec) (m := "covariant Piola") rfl
example : (UElem.withMapping (lag 1) "double covariant Piola").shape = .ok [2, 2] := rfl
example := C92_restricted_broken (s := taylorHood) (e := _) (.inr rfl)
example : ∃ e, Ufl.mkProduct [lag 2, line] (some (.named .triangle)) = .ok e := ⟨_, rfl⟩

end UflDataCases

end FInAT.Props
