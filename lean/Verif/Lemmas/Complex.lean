import Verif.Spec.Complex
import Verif.Lemmas.Degree

/-!
# Pieces of complexes
-/

namespace FInAT

open Spec Elem MvPolynomial

section
variable {K : Type} {D : Sx → Nat → Region K → Prop}

theorem sxPiece_length (hD : Cuts D) : ∀ (s : Sx) (r : Region K), SxPiece D s r → ∀ x, r x → x.length = sxDim s
  | .cell c, r, h, x, hx => by
    simp only [SxPiece] at h
    subst h
    exact hx
  | .split p n, r, h, x, hx => by
    obtain ⟨r', h1, h2⟩ := hD p n r h
    exact sxPiece_length hD p r' h1 x (h2 x hx)

mutual
theorem piece_length (hD : Cuts D) : ∀ (c : Cx) (r : Region K), CxPiece D c r → ∀ x, r x → x.length = cxDim c
  | .sx s, r, h, x, hx => by
    simp only [CxPiece] at h
    exact sxPiece_length hD s r h x hx
  | .prod cs, r, h, x, hx => by
    simp only [CxPiece] at h
    simp only [cxDim]
    exact pieceL_length hD cs r h x hx
theorem pieceL_length (hD : Cuts D) : ∀ (cs : List Cx) (r : Region K), CxPieceL D cs r → ∀ x, r x → x.length = cxDimL cs
  | [], r, h, x, hx => by
    simp only [CxPieceL] at h
    subst h
    simp only [cxDimL, List.length_eq_zero_iff]
    exact hx
  | c :: cs, r, h, x, hx => by
    simp only [CxPieceL] at h
    obtain ⟨r1, r2, h1, h2, rfl⟩ := h
    obtain ⟨y, w, rfl, hy, hw⟩ := hx
    rw [List.length_append, piece_length hD c r1 h1 y hy, pieceL_length hD cs r2 h2 w hw]
    rfl
end

theorem sx_refine (hD : Cuts D) : ∀ (a b : Sx), a.ge b = true → ∀ r, SxPiece D a r →
    ∃ r', SxPiece D b r' ∧ ∀ x, r x → r' x
  | .cell c, b, h, r, hr => by
    simp only [Sx.ge, decide_eq_true_eq] at h
    subst h
    exact ⟨r, hr, fun _ h => h⟩
  | .split p n, b, h, r, hr => by
    simp only [Sx.ge, Bool.or_eq_true, decide_eq_true_eq] at h
    rcases h with h | h
    · subst h
      exact ⟨r, hr, fun _ h => h⟩
    · obtain ⟨r1, h1, h2⟩ := hD p n r hr
      obtain ⟨r2, h3, h4⟩ := sx_refine hD p b h r1 h1
      exact ⟨r2, h3, fun x hx => h4 x (h2 x hx)⟩

theorem areIntervals_eq : ∀ {as bs : List Cx}, Cx.areIntervals as bs = true →
    bs = List.replicate as.length (.sx (.cell (.simplex 1)))
  | [], [], _ => rfl
  | [], _ :: _, h => by simp [Cx.areIntervals] at h
  | _ :: _, [], h => by simp [Cx.areIntervals] at h
  | a :: as, b :: bs, h => by
    unfold Cx.areIntervals at h
    split at h
    · next h' => cases h'
    · next h' => cases h'; next h2 => cases h2; rw [areIntervals_eq h]; rfl
    · cases h

theorem intervals_piece (n : Nat) : CxPieceL D (List.replicate n (.sx (.cell (.simplex 1)))) fun x => x.length = n := by
  induction n with
  | zero =>
    simp only [List.replicate, CxPieceL]
    funext x
    rw [List.length_eq_zero_iff]
  | succ n ih =>
    simp only [List.replicate_succ, CxPieceL]
    refine ⟨fun x => x.length = 1, _, rfl, ih, ?_⟩
    funext x
    simp only [times, eq_iff_iff]
    constructor
    · intro h
      exact ⟨x.take 1, x.drop 1, (List.take_append_drop _ _).symm, by rw [List.length_take]; omega,
        by rw [List.length_drop]; omega⟩
    · rintro ⟨y, w, rfl, hy, hw⟩
      rw [List.length_append, hy, hw]
      omega

theorem axes_eq (s : Sx) (h : s.axes ≠ []) :
    (SxPiece D s = fun r => r = fun x => x.length = s.axes.length) ∧
      s.axes = List.replicate s.axes.length (.sx (.cell (.simplex 1))) := by
  unfold Sx.axes at *
  split at h
  · exact ⟨rfl, rfl⟩
  · exact ⟨rfl, rfl⟩
  · exact absurd rfl h

theorem intervals_dim (n : Nat) : cxDimL (List.replicate n (.sx (.cell (.simplex 1)))) = n := by
  induction n with
  | zero => rfl
  | succ n ih =>
    rw [List.replicate_succ, cxDimL, ih]
    show 1 + n = n + 1
    omega

mutual
theorem cx_refine (hD : Cuts D) : ∀ (a b : Cx), a.ge b = true → ∀ r, CxPiece D a r → ∃ r', CxPiece D b r' ∧ ∀ x, r x → r' x
  | .sx a, .sx b, h, r, hr => by
    simp only [Cx.ge] at h
    simp only [CxPiece] at hr ⊢
    exact sx_refine hD a b h r hr
  | .sx a, .prod bs, h, r, hr => by
    simp only [Cx.ge, Bool.and_eq_true, Bool.not_eq_true', List.isEmpty_eq_false_iff] at h
    simp only [CxPiece] at hr ⊢
    obtain ⟨h1, h2⟩ := axes_eq (D := D) a h.1
    rw [h1] at hr
    subst hr
    rw [areIntervals_eq h.2]
    exact ⟨_, intervals_piece _, fun _ h => h⟩
  | .prod as, .prod bs, h, r, hr => by
    simp only [Cx.ge] at h
    simp only [CxPiece] at hr ⊢
    exact cxL_refine hD as bs h r hr
  | .prod as, .sx b, h, r, hr => by
    simp only [Cx.ge, Bool.and_eq_true, Bool.not_eq_true', List.isEmpty_eq_false_iff] at h
    simp only [CxPiece] at hr ⊢
    obtain ⟨r', h3, h4⟩ := cxL_refine hD as b.axes h.2 r hr
    obtain ⟨h1, h2⟩ := axes_eq (D := D) b h.1
    rw [h1]
    refine ⟨_, rfl, fun x hx => ?_⟩
    have := pieceL_length hD _ r' h3 x (h4 x hx)
    rw [h2, intervals_dim] at this
    exact this
theorem cxL_refine (hD : Cuts D) : ∀ (as bs : List Cx), Cx.geL as bs = true → ∀ r, CxPieceL D as r →
    ∃ r', CxPieceL D bs r' ∧ ∀ x, r x → r' x
  | [], [], _, r, hr => ⟨r, hr, fun _ h => h⟩
  | [], _ :: _, h, _, _ => by simp [Cx.geL] at h
  | _ :: _, [], h, _, _ => by simp [Cx.geL] at h
  | a :: as, b :: bs, h, r, hr => by
    simp only [Cx.geL, Bool.and_eq_true] at h
    simp only [CxPieceL] at hr ⊢
    obtain ⟨r1, r2, h1, h2, rfl⟩ := hr
    obtain ⟨s1, h3, h4⟩ := cx_refine hD a b h.1 r1 h1
    obtain ⟨s2, h5, h6⟩ := cxL_refine hD as bs h.2 r2 h2
    refine ⟨_, ⟨s1, s2, h3, h5, rfl⟩, ?_⟩
    rintro x ⟨y, w, hx, hy, hw⟩
    exact ⟨y, w, hx, h4 y hy, h6 w hw⟩
end

/-! ### The finest complex -/

theorem foldl_maxStep_mem : ∀ (cs : List Cx) (c : Cx), cs.foldl maxStep c ∈ c :: cs
  | [], c => List.mem_cons_self
  | b :: cs, c => by
    have := foldl_maxStep_mem cs (maxStep c b)
    rw [List.foldl_cons]
    rcases List.mem_cons.1 this with h | h
    · rw [h]
      unfold maxStep
      split
      · exact List.mem_cons_of_mem _ List.mem_cons_self
      · exact List.mem_cons_self
    · exact List.mem_cons_of_mem _ (List.mem_cons_of_mem _ h)

theorem maxComplex_ok {cs : List Cx} {m : Cx} (h : maxComplex cs = .ok m) : m ∈ cs ∧ ∀ b ∈ cs, m.ge b = true := by
  cases cs with
  | nil => simp [maxComplex] at h
  | cons c cs =>
    simp only [maxComplex] at h
    split at h
    · next h' =>
      cases h
      exact ⟨foldl_maxStep_mem cs c, fun b hb => List.all_eq_true.1 h' b hb⟩
    · cases h

/-- The number of splittings. -/
def sxDepth : Sx → Nat
  | .cell _ => 0
  | .split p _ => sxDepth p + 1

theorem sx_ge_depth : ∀ (a b : Sx), a.ge b = true → a = b ∨ sxDepth b < sxDepth a
  | .cell c, b, h => by
    simp only [Sx.ge, decide_eq_true_eq] at h
    exact .inl h.symm
  | .split p n, b, h => by
    simp only [Sx.ge, Bool.or_eq_true, decide_eq_true_eq] at h
    rcases h with h | h
    · exact .inl h.symm
    · simp only [sxDepth]
      rcases sx_ge_depth p b h with rfl | h
      · exact .inr (Nat.lt_succ_self _)
      · exact .inr (Nat.lt_succ_of_lt h)

theorem sx_gt_of_ge {a b : Sx} (h : a.ge b = true) (hn : a ≠ b) : a.gt b = true := by
  cases a with
  | cell c =>
    simp only [Sx.ge, decide_eq_true_eq] at h
    exact absurd h.symm hn
  | split p n =>
    simp only [Sx.ge, Bool.or_eq_true, decide_eq_true_eq] at h
    rcases h with h | h
    · exact absurd h.symm hn
    · exact h

theorem sx_gt_depth {a b : Sx} (h : a.gt b = true) : sxDepth b < sxDepth a := by
  cases a with
  | cell c => simp [Sx.gt] at h
  | split p n =>
    simp only [Sx.gt] at h
    simp only [sxDepth]
    rcases sx_ge_depth p b h with rfl | h
    · exact Nat.lt_succ_self _
    · exact Nat.lt_succ_of_lt h

/-- Python's `max` finds a complex that is at least as fine as all, wherever it stands. -/
theorem foldl_max : ∀ (ss : List Sx) (s m : Sx), m ∈ s :: ss → (∀ b ∈ s :: ss, m.ge b = true) →
    (ss.map Cx.sx).foldl maxStep (.sx s) = .sx m
  | [], s, m, hm, _ => by
    rw [List.mem_singleton.1 hm]
    rfl
  | b :: ss, s, m, hm, h => by
    have hs := h s List.mem_cons_self
    have hb := h b (List.mem_cons_of_mem _ List.mem_cons_self)
    have hr : ∀ b' ∈ ss, m.ge b' = true := fun b' h' => h b' (List.mem_cons_of_mem _ (List.mem_cons_of_mem _ h'))
    rw [List.map_cons, List.foldl_cons]
    have hst : maxStep (.sx s) (.sx b) = if b.gt s = true then .sx b else .sx s := rfl
    rw [hst]
    by_cases hg : b.gt s = true
    · rw [if_pos hg]
      refine foldl_max ss b m ?_ fun b' h' => ?_
      · rcases List.mem_cons.1 hm with rfl | hm
        · rcases sx_ge_depth _ _ hb with rfl | h1
          · exact List.mem_cons_self
          · exact absurd (sx_gt_depth hg) (Nat.lt_asymm h1)
        · exact hm
      · rcases List.mem_cons.1 h' with rfl | h'
        · exact hb
        · exact hr b' h'
    · rw [if_neg hg]
      refine foldl_max ss s m ?_ fun b' h' => ?_
      · rcases List.mem_cons.1 hm with rfl | hm
        · exact List.mem_cons_self
        · rcases List.mem_cons.1 hm with rfl | hm
          · by_cases he : m = s
            · subst he; exact List.mem_cons_self
            · exact absurd (sx_gt_of_ge hs he) hg
          · exact List.mem_cons_of_mem _ hm
      · rcases List.mem_cons.1 h' with rfl | h'
        · exact hs
        · exact hr b' h'

end

/-! ### Trees -/

section
variable {K : Type} [CommRing K] {φ : LeafVals K} {D : Sx → Nat → Region K → Prop} {k : Leaf → Sx}

theorem complexL_cons {e : Elem} {es : List Elem} {xs : List Cx} (h : complexL k (e :: es) = .ok xs) :
    ∃ x xs', complex k e = .ok x ∧ complexL k es = .ok xs' ∧ xs = x :: xs' := by
  simp only [complexL] at h
  rw [bind_ok] at h
  obtain ⟨x, h1, h⟩ := h
  rw [bind_ok] at h
  obtain ⟨xs', h2, h⟩ := h
  cases h
  exact ⟨x, xs', h1, h2, rfl⟩

mutual
theorem polynomialOn (hD : Cuts D) : ∀ (e : Elem) (c : Cell) (X : Cx), AllLeaves (LeafOn φ D k) e → Cubes e → e.cell = .ok c →
    complex k e = .ok X → cxDim X = c.spatialDim ∧ ∀ r, CxPiece D X r → PolynomialOn φ e c r
  | .leaf l, c, X, hl, _, hc, hX => by
    simp only [Elem.cell, Except.ok.injEq] at hc
    simp only [complex, Except.ok.injEq] at hX
    subst hc hX
    simp only [AllLeaves] at hl
    exact ⟨hl.1, fun r hr => hl.2 r (by simpa only [CxPiece] using hr)⟩
  | .tensorProduct fs, c, X, hl, hb, hc, hX => by
    obtain ⟨cs, hcs, rfl⟩ := cell_tensorProduct hc
    simp only [complex] at hX
    rw [bind_ok] at hX
    obtain ⟨xs, hxs, hX⟩ := hX
    cases hX
    simp only [AllLeaves] at hl
    simp only [Cubes] at hb
    obtain ⟨h1, h2⟩ := polynomialOn_prod hD fs cs xs hl hb hcs hxs
    refine ⟨h1, fun r hr i z => ?_⟩
    simp only [CxPiece] at hr
    obtain ⟨q, hq, hd, h⟩ := h2 r hr i z
    refine ⟨q, hq, fun t ht => ?_, fun α x hα hx => ?_⟩
    · simp only [Elem.degree, bind_ok, pure, Except.pure, Except.ok.injEq] at ht
      obtain ⟨ds, hds, rfl⟩ := ht
      exact hd ds hds
    · simp only [basisValue, factorEnts_cell hcs]
      exact h α x hα hx
  | .flattened p, c, X, hl, hb, hc, hX => by
    obtain ⟨c0, hc0⟩ := cell_flattened hc
    have hs := flattened_spatialDim hc0 hc
    simp only [complex] at hX
    simp only [AllLeaves] at hl
    simp only [Cubes] at hb
    obtain ⟨h1, h2⟩ := polynomialOn hD p c0 X hl hb.1 hc0 hX
    refine ⟨h1.trans hs.symm, fun r hr i z => ?_⟩
    obtain ⟨q, hq, hd, h⟩ := h2 r hr i z
    refine ⟨q, by rw [hs]; exact hq, fun t ht => ?_, fun α x hα hx => ?_⟩
    · simp only [Elem.degree, bind_ok] at ht
      obtain ⟨d, hd1, ht⟩ := ht
      cases d with
      | leaf n => simp at ht
      | node ds =>
        simp only at ht
        have hu := uniqueOf_mem ht
        have hne : ds ≠ [] := hu.1
        intro m hm
        have hb := ofDegree_cube c0 (.node ds) m (hb.2 c0 hc0) (hd _ hd1 m hm)
        rw [largest, largestL_same hne hu.2] at hb
        simp only [Elem.cell, hc0, bind, Except.bind] at hc
        split at hc
        · next h2 =>
          cases hc
          exact ⟨hb 0 (by omega), hb 1 (by omega)⟩
        · split at hc
          · next h3 =>
            cases hc
            exact ⟨hb 0 (by omega), hb 1 (by omega), hb 2 (by omega)⟩
          · cases hc
    · simp only [basisValue, productEnt_cell hc0 hc]
      exact h α x (hα.trans hs) hx
  | .enriched es, c, X, hl, hb, hc, hX => by
    obtain ⟨cs, hcs, hall⟩ := cell_enriched hc
    simp only [complex] at hX
    rw [bind_ok] at hX
    obtain ⟨xs, hxs, hX⟩ := hX
    obtain ⟨hm, hge⟩ := maxComplex_ok hX
    simp only [AllLeaves] at hl
    simp only [Cubes] at hb
    obtain ⟨h1, h2⟩ := polynomialOn_sum hD es cs xs c hl hb hcs hall hxs
    refine ⟨h1 X hm, fun r hr i z => ?_⟩
    obtain ⟨q, hq, hd, h⟩ := h2 r (fun x hx => cx_refine hD X x (hge x hx) r hr) (i.headD 0) z
    refine ⟨q, hq, fun t ht => ?_, fun α x hα hx => ?_⟩
    · have hb : ∃ ds, Elem.degreeL es = .ok ds := by
        simp only [Elem.degree, bind_ok] at ht
        obtain ⟨ds, hds, _⟩ := ht
        exact ⟨ds, hds⟩
      obtain ⟨ds, hds⟩ := hb
      exact hd ds t hds (Props.C60_least_upper_bound es ds t hds ht).1
    · simp only [basisValue]
      exact h α x hα hx
  | .mixedSub e size offset, c, X, hl, hb, hc, hX => by
    simp only [AllLeaves] at hl
    simp only [Cubes] at hb
    simp only [complex] at hX
    simp only [Elem.cell] at hc
    obtain ⟨h1, h2⟩ := polynomialOn hD e c X hl hb hc hX
    refine ⟨h1, fun r hr i z => ?_⟩
    simp only [basisValue, Elem.degree]
    split
    · exact h2 r hr _ _
    · exact ⟨0, zero_mem _, fun t _ => polyOfDegree_zero c t, fun α x _ _ => by simp [partialD_zero]⟩
  | .discontinuous e, c, X, hl, hb, hc, hX => by
    simp only [AllLeaves] at hl
    simp only [Cubes] at hb
    simp only [complex] at hX
    simp only [Elem.cell] at hc
    obtain ⟨h1, h2⟩ := polynomialOn hD e c X hl hb hc hX
    refine ⟨h1, fun r hr i z => ?_⟩
    simp only [basisValue, Elem.degree]
    exact h2 r hr _ _
  | .tensorFE e shape tr, c, X, hl, hb, hc, hX => by
    simp only [AllLeaves] at hl
    simp only [Cubes] at hb
    simp only [complex] at hX
    simp only [Elem.cell] at hc
    obtain ⟨h1, h2⟩ := polynomialOn hD e c X hl hb hc hX
    refine ⟨h1, fun r hr i z => ?_⟩
    have h0 : ∃ q ∈ PolyLt K c.spatialDim, (∀ t, e.degree = .ok t → PolyOfDegree c t q) ∧
        ∀ α x, α.length = c.spatialDim → r x → (0 : K) = evalAt x (partialD 0 α q) :=
      ⟨0, zero_mem _, fun t _ => polyOfDegree_zero c t, fun α x _ _ => by simp [partialD_zero]⟩
    simp only [basisValue, Elem.degree]
    split <;> split
    · exact h2 r hr _ _
    · exact h0
    · exact h2 r hr _ _
    · exact h0
  | .hdiv w, c, X, hl, hb, hc, hX => by
    simp only [AllLeaves] at hl
    simp only [Cubes] at hb
    simp only [complex] at hX
    simp only [Elem.cell] at hc
    obtain ⟨h1, h2⟩ := polynomialOn hD w c X hl hb hc hX
    refine ⟨h1, fun r hr i z => ?_⟩
    choose Q hQ hd h using h2 r hr i
    simp only [basisValue, Elem.degree]
    exact ⟨_, wrapPoly_mem hQ _, fun t ht => wrapPoly_ofDegree (fun z => hd z t ht) _,
      fun α x hα hx => evalAt_wrap (fun z => h z α x hα hx) _⟩
  | .hcurl w, c, X, hl, hb, hc, hX => by
    simp only [AllLeaves] at hl
    simp only [Cubes] at hb
    simp only [complex] at hX
    simp only [Elem.cell] at hc
    obtain ⟨h1, h2⟩ := polynomialOn hD w c X hl hb hc hX
    refine ⟨h1, fun r hr i z => ?_⟩
    choose Q hQ hd h using h2 r hr i
    simp only [basisValue, Elem.degree]
    exact ⟨_, wrapPoly_mem hQ _, fun t ht => wrapPoly_ofDegree (fun z => hd z t ht) _,
      fun α x hα hx => evalAt_wrap (fun z => h z α x hα hx) _⟩
  | .quadrature _ _ _, c, X, hl, _, hc, hX => by
    simp only [AllLeaves] at hl
theorem polynomialOn_prod (hD : Cuts D) : ∀ (fs : List Elem) (cs : List Cell) (xs : List Cx),
    AllLeavesL (LeafOn φ D k) fs → CubesL fs → cellL fs = .ok cs → complexL k fs = .ok xs →
    cxDimL xs = Cell.spatialDimL cs ∧ ∀ r, CxPieceL D xs r → ∀ i z, ∃ q ∈ PolyLt K (Cell.spatialDimL cs),
      (∀ ds, degreeL fs = .ok ds → ∀ m ∈ q.support, OfDegreeL cs ds m) ∧ ∀ α x,
      α.length = Cell.spatialDimL cs → r x →
      prodValue φ fs α (cs.map fun c => (c.dimension, 0)) x i z = evalAt x (partialD 0 α q)
  | [], cs, xs, _, _, hc, hX => by
    simp only [cellL, Except.ok.injEq] at hc
    simp only [complexL, Except.ok.injEq] at hX
    subst hc hX
    refine ⟨rfl, fun r hr i z => ⟨1, one_mem _, fun ds hds => ?_, fun α x hα hx => ?_⟩⟩
    · simp only [degreeL, Except.ok.injEq] at hds
      subst hds
      intro m _
      trivial
    · simp only [Cell.spatialDimL, List.length_eq_zero_iff] at hα
      subst hα
      simp [prodValue, partialD]
  | f :: fs, cs, xs, hl, hb, hc, hX => by
    obtain ⟨c, cs', h1, h2, rfl⟩ := cellL_cons hc
    obtain ⟨X, xs', h3, h4, rfl⟩ := complexL_cons hX
    simp only [AllLeavesL] at hl
    simp only [CubesL] at hb
    obtain ⟨d1, p1⟩ := polynomialOn hD f c X hl.1 hb.1 h1 h3
    obtain ⟨d2, p2⟩ := polynomialOn_prod hD fs cs' xs' hl.2 hb.2 h2 h4
    refine ⟨by simp only [cxDimL, Cell.spatialDimL, d1, d2], fun r hr i z => ?_⟩
    simp only [CxPieceL] at hr
    obtain ⟨r1, r2, hr1, hr2, rfl⟩ := hr
    obtain ⟨q1, m1, g1, e1⟩ := p1 r1 hr1 (i.take f.indexShape.length) (z.take (vshape f).length)
    obtain ⟨q2, m2, g2, e2⟩ := p2 r2 hr2 (i.drop f.indexShape.length) (z.drop (vshape f).length)
    simp only [Cell.spatialDimL]
    refine ⟨q1 * rename (· + c.spatialDim) q2, mul_mem (PolyLt_mono (by omega) m1) ?_, ?_, ?_⟩
    · refine supported_mono ?_ (rename_supported (d := c.spatialDim) m2)
      intro k hk
      exact hk.2
    · intro ds hds
      obtain ⟨t, ts', h5, h6, rfl⟩ := degreeL_cons hds
      exact mul_ofDegree (g1 t h5) m1 (g2 ts' h6)
    · rintro α x hα ⟨y, w, rfl, hy, hw⟩
      have hyl : y.length = c.spatialDim := (piece_length hD X r1 hr1 y hy).trans d1
      have e1 := e1 (α.take c.spatialDim) y (by rw [List.length_take]; omega) hy
      have e2 := e2 (α.drop c.spatialDim) w (by rw [List.length_drop]; omega) hw
      simp only [prodValue, List.map_cons, sdim_eq h1, Cell.total_dimension, List.take_left' hyl, List.drop_left' hyl]
      rw [e1, e2, partialD_prod m1 m2 α (by omega), map_mul, evalAt_drop, List.drop_left' hyl,
        ← evalAt_take (partialD_supported _ m1 0 _) (y ++ w), List.take_left' hyl]
theorem polynomialOn_sum (hD : Cuts D) : ∀ (es : List Elem) (cs : List Cell) (xs : List Cx) (c : Cell),
    AllLeavesL (LeafOn φ D k) es → CubesL es → cellL es = .ok cs → (∀ c' ∈ cs, c' = c) → complexL k es = .ok xs →
    (∀ x ∈ xs, cxDim x = c.spatialDim) ∧
    ∀ r : Region K, (∀ x ∈ xs, ∃ r', CxPiece D x r' ∧ ∀ y, r y → r' y) → ∀ j z, ∃ q ∈ PolyLt K c.spatialDim,
      (∀ ds t, degreeL es = .ok ds → (∀ d ∈ ds, Props.DegLe d t) → PolyOfDegree c t q) ∧ ∀ α x,
      α.length = c.spatialDim → r x → sumValue φ es α (c.dimension, 0) x j z = evalAt x (partialD 0 α q)
  | [], cs, xs, c, _, _, hc, _, hX => by
    simp only [complexL, Except.ok.injEq] at hX
    subst hX
    exact ⟨by simp, fun r _ j z => ⟨0, zero_mem _, fun _ t _ _ => polyOfDegree_zero c t,
      fun α x _ _ => by simp [sumValue, partialD_zero]⟩⟩
  | e :: es, cs, xs, c, hl, hb, hc, hall, hX => by
    obtain ⟨c1, cs', h1, h2, rfl⟩ := cellL_cons hc
    obtain ⟨X, xs', h3, h4, rfl⟩ := complexL_cons hX
    simp only [AllLeavesL] at hl
    simp only [CubesL] at hb
    have h5 := hall c1 List.mem_cons_self
    obtain ⟨d1, p1⟩ := polynomialOn hD e c X hl.1 hb.1 (h5 ▸ h1) h3
    obtain ⟨d2, p2⟩ := polynomialOn_sum hD es cs' xs' c hl.2 hb.2 h2 (fun c' h => hall c' (List.mem_cons_of_mem _ h)) h4
    refine ⟨fun x hx => ?_, fun r hr j z => ?_⟩
    · rcases List.mem_cons.1 hx with rfl | hx
      · exact d1
      · exact d2 x hx
    · simp only [sumValue]
      split
      · obtain ⟨r', hr', hs⟩ := hr X List.mem_cons_self
        obtain ⟨q, hq, hd, h⟩ := p1 r' hr' (unravel e.indexShape j) z
        refine ⟨q, hq, fun ds t hds hle => ?_, fun α x hα hx => h α x hα (hs x hx)⟩
        obtain ⟨d, ds', h6, h7, rfl⟩ := degreeL_cons hds
        exact polyOfDegree_mono (hd d h6) (hle d List.mem_cons_self)
      · obtain ⟨q, hq, hd, h⟩ := p2 r (fun x hx => hr x (List.mem_cons_of_mem _ hx)) (j - e.spaceDim) z
        refine ⟨q, hq, fun ds t hds hle => ?_, h⟩
        obtain ⟨d, ds', h6, h7, rfl⟩ := degreeL_cons hds
        exact hd ds' t h7 fun d h => hle d (List.mem_cons_of_mem _ h)
end

end
end FInAT
