import Verif.Props.TabExamples

/-!
# C61: evaluation at a point known only at run time; C40: reduced elements
-/

namespace FInAT.Props

open FInAT Spec Elem MvPolynomial

section
variable {K : Type} [CommRing K] [DecidableEq K]

mutual
/-- No factor of a tensor product in the tree lives on a point. -/
def NoPoints : Elem → Prop
  | .leaf _ => True
  | .tensorProduct fs => NoPointsL fs ∧ ∀ cs, Elem.cellL fs = .ok cs → ∀ c ∈ cs, c.spatialDim ≠ 0
  | .flattened p => NoPoints p
  | .enriched es => NoPointsL es
  | .mixedSub e _ _ => NoPoints e
  | .discontinuous e => NoPoints e
  | .tensorFE e _ _ => NoPoints e
  | .hdiv w => NoPoints w
  | .hcurl w => NoPoints w
  | .quadrature _ _ _ => True
/-- ... for lists. -/
def NoPointsL : List Elem → Prop
  | [] => True
  | e :: es => NoPoints e ∧ NoPointsL es
end

/-- What a FIAT leaf has to satisfy to be evaluated at a point expression: it is not physically mapped
(those raise `NotImplementedError`) and the symbolic tables FIAT returns have the values of the basis
functions. -/
def PointLeafOK (n : Nat) (F : Fiat K) (S : SymTab K) (l : Leaf) : Prop :=
  F.mapped l = none ∧ l.fns ≠ [] ∧ l.valueShape.prod ≠ 0 ∧
  ∀ p, PointWF n p → p.shape = [l.cell.spatialDim] → SymOK F S l (l.cell.dimension, 0) p

omit [CommRing K] [DecidableEq K] in
theorem factorPoint_run {cs : List Cell} {p : Gem K} (hp : p.shape = [(cs.map Cell.spatialDim).sum])
    (hne : ∀ c ∈ cs, c.spatialDim ≠ 0) (n : Nat) :
    factorPoint cs (cs.map Cell.dimension) p n =
      .ok ((splitLens (cs.map Cell.spatialDim) (List.range (cs.map Cell.spatialDim).sum)).map (pointPart p), n) := by
  have hd : (cs.map Cell.dimension).map Dim.total = cs.map Cell.spatialDim := by
    rw [List.map_map]; exact List.map_congr_left fun c _ => c.total_dimension
  unfold factorPoint
  simp only [hd, hp, List.length_map, decide_true]
  show (splitLens (cs.map Cell.spatialDim) (List.range (cs.map Cell.spatialDim).sum)).mapM (fun s => (do
      let es ← s.mapM fun i => mkIndexed p [.fixed i]
      mkListTensor [s.length] es : M (Gem K))) n = _
  apply mapM_const
  intro s hs
  have hne' : ∀ d ∈ cs.map Cell.spatialDim, d ≠ 0 := by
    intro d hd
    obtain ⟨c, hc, rfl⟩ := List.mem_map.1 hd
    exact hne c hc
  have key : ∀ (ds : List Nat) (l : List Nat), l.length = ds.sum → (∀ d ∈ ds, d ≠ 0) →
      ∀ s ∈ splitLens ds l, s ≠ [] := by
    intro ds
    induction ds with
    | nil => intro l _ _ s hs; simp [splitLens] at hs
    | cons d ds ih =>
      intro l hl hd s hs
      simp only [List.sum_cons] at hl
      have h0 := hd d List.mem_cons_self
      simp only [splitLens, List.mem_cons] at hs
      rcases hs with rfl | hs
      · intro h
        have := congrArg List.length h
        simp at this
        rcases this with h | h
        · exact h0 h
        · subst h
          simp only [List.length_nil] at hl
          omega
      · exact ih (l.drop d) (by simp; omega) (fun x hx => hd x (List.mem_cons_of_mem _ hx)) s hs
  rw [pointPart_run hp (fun i hi => List.mem_range.1 (splitLens_subset hs i hi)),
    if_neg (key _ _ (by simp) hne' s hs)]

mutual
/-- Every element tree without point factors can be evaluated at a point expression on its cell. -/
theorem admits_point (n : Nat) (F : Fiat K) (R : Rules K) (S : SymTab K) (order : Nat) :
    ∀ e p c, NoPoints e → AllLeaves (PointLeafOK n F S) e → e.cell = .ok c → PointWF n p →
      p.shape = [c.spatialDim] → Admits (pointSem F R S) order e p (c.dimension, 0)
  | .leaf l, p, c, _, hl, hc, hw, hq => by
    simp only [Elem.cell, Except.ok.injEq] at hc
    subst hc
    simp only [Admits]
    exact ⟨hl.1, by rw [Cell.total_dimension]; exact hq, hl.2.2.2 p hw hq, hl.2.1, hl.2.2.1⟩
  | .tensorProduct fs, p, c, hn, hl, hc, hw, hq => by
    obtain ⟨cs, hcs, rfl⟩ := cell_tensorProduct hc
    simp only [NoPoints] at hn
    simp only [AllLeaves] at hl
    have hsd : (Cell.prod cs).spatialDim = (cs.map Cell.spatialDim).sum := by
      simp only [Cell.spatialDim]
      clear * -
      induction cs with
      | nil => rfl
      | cons c cs ih => simp [Cell.spatialDimL, ih]
    rw [hsd] at hq
    have hfst : (cs.map fun c : Cell => ((c.dimension, 0) : Dim × Nat)).map Prod.fst = cs.map Cell.dimension := by
      rw [List.map_map]; rfl
    have hfp := factorPoint_run hq (hn.2 cs hcs)
    simp only [Admits]
    refine ⟨cs, cs.map fun c => (c.dimension, 0), _, hcs, ?_, fun m => by rw [hfst]; exact hfp m, ?_⟩
    · exact C05_default_entity cs
    · have hwf := ((pointSem F R S).factor hw (fun m => hfp m)).1
      have hsh : List.Forall₂ (fun (q : Gem K) (c : Cell) => q.shape = [c.spatialDim])
          ((splitLens (cs.map Cell.spatialDim) (List.range (cs.map Cell.spatialDim).sum)).map (pointPart p)) cs := by
        clear * -
        rw [List.forall₂_map_left_iff]
        have : ∀ (cs : List Cell) (l : List Nat), l.length = (cs.map Cell.spatialDim).sum →
            List.Forall₂ (fun s (c : Cell) => (pointPart p s).shape = [c.spatialDim])
              (splitLens (cs.map Cell.spatialDim) l) cs := by
          intro cs
          induction cs with
          | nil => intro l _; exact .nil
          | cons c cs ih =>
            intro l hl
            simp only [List.map_cons, List.sum_cons] at hl
            refine .cons ?_ (ih _ (by simp; omega))
            simp only [pointPart, Gem.shape, List.length_take]
            congr 1
            omega
        exact this cs _ (by simp)
      exact admits_point_zip n F R S order fs _ cs hn.1 hl hcs hwf hsh
  | .flattened q, p, c, hn, hl, hc, hw, hq => by
    obtain ⟨c0, hc0⟩ := cell_flattened hc
    simp only [NoPoints] at hn
    simp only [AllLeaves] at hl
    have hs := flattened_spatialDim hc0 hc
    simp only [Admits]
    refine ⟨(c0.dimension, 0), ?_, admits_point n F R S order q p c0 hn hl hc0 hw (hs ▸ hq)⟩
    have hd := C06_default_entity c0
    have hcf : c.dimension = .int c0.spatialDim := by
      simp only [Elem.cell, hc0, bind, Except.bind] at hc
      split at hc
      · next h' => cases hc; rw [h']; rfl
      · split at hc
        · next h' => cases hc; rw [h']; rfl
        · cases hc
    simp only [unflattenEntity, hcf, hc0, bind, Except.bind]
    exact hd
  | .enriched es, p, c, hn, hl, hc, hw, hq => by
    obtain ⟨cs, hcs, hall⟩ := cell_enriched hc
    simp only [NoPoints] at hn
    simp only [AllLeaves] at hl
    simp only [Admits]
    exact admits_point_list n F R S order es p cs c hn hl hcs hall hw hq
  | .mixedSub e _ _, p, c, hn, hl, hc, hw, hq => by
    simp only [Admits]
    exact admits_point n F R S order e p c hn hl hc hw hq
  | .discontinuous e, p, c, hn, hl, hc, hw, hq => by
    simp only [Admits]
    exact admits_point n F R S order e p c hn hl hc hw hq
  | .tensorFE e _ _, p, c, hn, hl, hc, hw, hq => by
    simp only [Admits]
    exact admits_point n F R S order e p c hn hl hc hw hq
  | .hdiv w, p, c, hn, hl, hc, hw, hq => by
    simp only [Admits]
    exact admits_point n F R S order w p c hn hl hc hw hq
  | .hcurl w, p, c, hn, hl, hc, hw, hq => by
    simp only [Admits]
    exact admits_point n F R S order w p c hn hl hc hw hq
  | .quadrature _ _ _, _, _, _, hl, _, _, _ => by
    simp only [AllLeaves] at hl
theorem admits_point_zip (n : Nat) (F : Fiat K) (R : Rules K) (S : SymTab K) (order : Nat) :
    ∀ fs ps cs, NoPointsL fs → AllLeavesL (PointLeafOK n F S) fs → Elem.cellL fs = .ok cs →
      (∀ q ∈ ps, PointWF n q) → List.Forall₂ (fun (q : Gem K) (c : Cell) => q.shape = [c.spatialDim]) ps cs →
      AdmitsZip (pointSem F R S) order fs ps (cs.map fun c => (c.dimension, 0))
  | [], ps, cs, _, _, hc, _, hq => by
    simp only [Elem.cellL, Except.ok.injEq] at hc
    subst hc
    cases hq
    simp only [List.map_nil, AdmitsZip]
  | f :: fs, ps, cs, hn, hl, hc, hw, hq => by
    obtain ⟨c, cs', h1, h2, rfl⟩ := cellL_cons hc
    simp only [NoPointsL] at hn
    simp only [AllLeavesL] at hl
    match ps, hq, hw with
    | q :: ps, .cons q1 q2, hw =>
      simp only [List.map_cons, AdmitsZip]
      exact ⟨admits_point n F R S order f q c hn.1 hl.1 h1 (hw q List.mem_cons_self) q1,
        admits_point_zip n F R S order fs ps cs' hn.2 hl.2 h2 (fun x hx => hw x (List.mem_cons_of_mem _ hx)) q2⟩
theorem admits_point_list (n : Nat) (F : Fiat K) (R : Rules K) (S : SymTab K) (order : Nat) :
    ∀ es p cs c, NoPointsL es → AllLeavesL (PointLeafOK n F S) es → Elem.cellL es = .ok cs →
      (∀ c' ∈ cs, c' = c) → PointWF n p → p.shape = [c.spatialDim] →
      AdmitsL (pointSem F R S) order es p (c.dimension, 0)
  | [], _, _, _, _, _, _, _, _, _ => by simp only [AdmitsL]
  | e :: es, p, cs, c, hn, hl, hc, hall, hw, hq => by
    obtain ⟨c1, cs', h1, h2, rfl⟩ := cellL_cons hc
    simp only [NoPointsL] at hn
    simp only [AllLeavesL] at hl
    have h3 := hall c1 List.mem_cons_self
    simp only [AdmitsL]
    exact ⟨admits_point n F R S order e p c hn.1 hl.1 (h3 ▸ h1) hw hq,
      admits_point_list n F R S order es p cs' c hn.2 hl.2 h2
        (fun c' h => hall c' (List.mem_cons_of_mem _ h)) hw hq⟩
end

/-- **C61.** Evaluating any element tree at a point expression on its cell succeeds and gives, for every
value of the free indices, the derivatives of the basis functions at the point with the coordinates
of the expression: the derivatives of the polynomial basis functions of the tree. -/
theorem C61_point_table (F : Fiat K) (R : Rules K) (S : SymTab K)
    (Q : Leaf → Nat → List Nat → MvPolynomial ℕ K)
    (e : Elem) (c : Cell) (vs : List Nat) (order n : Nat) (p : Gem K) (hs : Shaped e) (hn : NoPoints e)
    (hl : AllLeaves (fun l => PointLeafOK n F S l ∧ LeafIsPoly (leafVals F R) Q l) e)
    (hc : e.cell = .ok c) (hv : e.valueShape = .ok vs) (hw : PointWF n p) (hp : p.shape = [c.spatialDim]) :
    Yields (evaluate (pointInterp F S) e order p none) n fun T =>
      IsTable (fun _ => True) T c.spatialDim order e.indexShape vs fun α ρ i z =>
        evalAt (coords p ρ) (partialD 0 α (treePoly Q e i z)) := by
  have ha := admits_point n F R S order e p c hn (AllLeaves.imp (fun _ h => h.1) e hl) hc hw hp
  obtain ⟨T, n', h1, hT⟩ := tabulation (pointSem F R S) e hs order p none c vs n n hw (Nat.le_refl n) hc hv ha
  refine ⟨T, n', h1, hT.once, hT.keys, hT.shape, ?_⟩
  intro α t ht ρ i z hV hi hz
  have hk : α ∈ T.keys := by rw [← Dict.get?_isSome_iff, ht]; rfl
  have hlen : (coords p ρ).length = c.spatialDim := by simp [coords, hp]
  rw [hT.value α t ht ρ i z hV hi hz]
  exact basisValue_poly Q e c (AllLeaves.imp (fun _ h => h.2) e hl) hc α _ i z ((hT.keys α).1 hk).1 hlen

/-- **C61.** `point_evaluation` agrees with `basis_evaluation`: whenever the run-time point has the
coordinates of a point of an unstructured point set, every table entry is the same. -/
theorem C61_agrees (F : Fiat K) (R : Rules K) (S : SymTab K) (e : Elem) (c : Cell) (vs : List Nat)
    (order n n₂ : Nat) (ps : PSet K) (p : Gem K) (hs : Shaped e) (hn : NoPoints e) (hcube : Cubes e)
    (hl : AllLeaves (PointLeafOK n F S) e) (hl₂ : AllLeaves (PlainLeafOK F order) e)
    (hc : e.cell = .ok c) (hv : e.valueShape = .ok vs) (hw : PointWF n p) (hp : p.shape = [c.spatialDim])
    (hw₂ : ps.WF n₂) (hp₂ : PlainPoints ps c.spatialDim) :
    ∃ T m T₂ m₂, evaluate (pointInterp F S) e order p none n = .ok (T, m) ∧
      evaluate (basisInterp F R) e order ps none n₂ = .ok (T₂, m₂) ∧
      ∀ α t t₂, T.get? α = some t → T₂.get? α = some t₂ → ∀ ρ ρ₂ i z, ps.Valid ρ₂ →
        coords p ρ = ps.pointAt ρ₂ → InRange i e.indexShape → InRange z vs →
        t.eval ρ (i ++ z) = t₂.eval ρ₂ (i ++ z) := by
  have ha := admits_point n F R S order e p c hn hl hc hw hp
  obtain ⟨T, m, h1, hT⟩ := tabulation (pointSem F R S) e hs order p none c vs n n hw (Nat.le_refl n) hc hv ha
  have hent : IsEntity c (c.dimension, 0) := ⟨1, c.dimension_mem, by simp⟩
  have hp' : PlainPoints ps (c.dimension, 0).1.total := by rw [Cell.total_dimension]; exact hp₂
  have hb := admits_plain F R order e ps (c.dimension, 0) c hcube hl₂ hc hent hp'
  obtain ⟨T₂, m₂, h2, hT₂⟩ := tabulation (basisSem F R) e hs order ps none c vs n₂ n₂ hw₂ (Nat.le_refl n₂) hc hv hb
  refine ⟨T, m, T₂, m₂, h1, h2, ?_⟩
  intro α t t₂ ht ht₂ ρ ρ₂ i z hV hx hi hz
  rw [hT.value α t ht ρ i z trivial hi hz, hT₂.value α t₂ ht₂ ρ₂ i z hV hi hz]
  show basisValue _ e α _ (coords p ρ) i z = basisValue _ e α _ (ps.pointAt ρ₂) i z
  rw [hx]

omit [DecidableEq K] in
/-- **C61.** On an entity with a vertex of a factor (a vertical or horizontal edge of a product, say)
`point_evaluation` of a tensor product never succeeds: the code builds an empty `ListTensor` for the
coordinates of that factor. (`basis_evaluation` has no such restriction, C14.) -/
theorem C61_vertex_factor (F : Fiat K) (S : SymTab K) (fs : List Elem) (cs : List Cell)
    (ents : List (Dim × Nat)) (entity : Option (Dim × Nat)) (hc : Elem.cellL fs = .ok cs)
    (he : factorEntity cs entity = .ok ents) (h0 : ∃ x ∈ ents, x.1.total = 0) (order n : Nat) (p : Gem K) :
    ∀ T m, evaluate (pointInterp F S) (.tensorProduct fs) order p entity n ≠ .ok (T, m) := by
  intro T m h
  simp only [evaluate] at h
  rw [hc] at h
  cases hf : factorPoint cs (ents.map Prod.fst) p n with
  | error e =>
    have : evaluate (pointInterp F S) (.tensorProduct fs) order p entity n = .error e := by
      simp only [evaluate]
      rw [hc]
      simp only [liftE, Except.map, he, bind, StateT.bind, Except.bind, pointInterp, hf]
    simp only [evaluate] at this
    rw [hc] at this
    rw [this] at h
    cases h
  | ok r =>
    obtain ⟨x, hx, hx0⟩ := h0
    obtain ⟨ps, n'⟩ := r
    have := (factorPoint_eq hf).2.2.2 x.1.total (List.mem_map.2 ⟨x.1, List.mem_map.2 ⟨x, hx, rfl⟩, rfl⟩)
    exact this hx0

end

/-! ### Examples -/

section
variable {K : Type} [CommRing K]

/-- Every polynomial is the value of a GEM expression in the coordinates of a point expression. -/
theorem poly_expression {n : Nat} {p : Gem K} {d : Nat} (hw : PointWF n p) (hp : p.shape = [d])
    (q : MvPolynomial ℕ K) :
    ∃ g : Gem K, g.shape = [] ∧ ∀ ρ, g.eval ρ [] = evalAt (coords p ρ) q := by
  induction q using MvPolynomial.induction_on with
  | C a => exact ⟨.literal [] fun _ => a, rfl, fun ρ => by simp [Gem.eval, evalAt]⟩
  | add q r hq hr =>
    obtain ⟨a, _, ha⟩ := hq
    obtain ⟨b, _, hb⟩ := hr
    refine ⟨.indexSum (.indexed (.listTensor [2] [a, b]) [.free ⟨n, 2⟩]) [⟨n, 2⟩], rfl, fun ρ => ?_⟩
    have hl : ∀ k, coords p (Function.update ρ n k) = coords p ρ := fun k => by
      apply coords_local hw
      intro j hj
      rw [Function.update_of_ne (by omega)]
    have h2 : ndindex [2] = [[0], [1]] := by decide
    simp only [Gem.eval, List.map_cons, List.map_nil, h2, bindIx, Ix.val, Function.update_self, evalNth_eq]
    have e0 : ravel [2] [0] = 0 := by decide
    have e1 : ravel [2] [1] = 1 := by decide
    simp only [e0, e1, List.getElem?_cons_zero, List.getElem?_cons_succ, Option.map_some, Option.getD_some,
      ha, hb, hl, List.sum_cons, List.sum_nil, add_zero, map_add]
  | mul_X q j hq =>
    obtain ⟨a, _, ha⟩ := hq
    by_cases hj : j < d
    · refine ⟨.product a (.indexed p [.fixed j]), rfl, fun ρ => ?_⟩
      simp [Gem.eval, ha, evalAt, coords, hp, Ix.val, hj]
    · refine ⟨.zero [], rfl, fun ρ => ?_⟩
      simp [Gem.eval, evalAt, coords, hp, hj]

end

/-- Symbolic tables for the example FIAT. -/
noncomputable def exSym (n : Nat) : SymTab ℤ := fun l α _ p i z =>
  open Classical in
  if h : ∃ d, PointWF n p ∧ p.shape = [d] then
    (poly_expression h.choose_spec.1 h.choose_spec.2 (partialD 0 α (exPoly l i z))).choose
  else .zero []

theorem exSym_ok (n : Nat) (l : Leaf) (hl : l = cg1 ∨ l = cg2 ∨ l = dg0) :
    PointLeafOK n exFiat (exSym n) l ∧ LeafIsPoly (leafVals exFiat exRules) exPoly l := by
  refine ⟨⟨rfl, ?_, ?_, ?_⟩, (exLeaf 0 l hl).2⟩
  · rcases hl with rfl | rfl | rfl <;> decide
  · rcases hl with rfl | rfl | rfl <;> decide
  · intro p hw hp α i z
    have h : ∃ d, PointWF n p ∧ p.shape = [d] := ⟨_, hw, hp⟩
    have := (poly_expression h.choose_spec.1 h.choose_spec.2 (partialD 0 α (exPoly l i z))).choose_spec
    have hS : exSym n l α (l.cell.dimension, 0) p i z =
        (poly_expression h.choose_spec.1 h.choose_spec.2 (partialD 0 α (exPoly l i z))).choose := by
      simp only [exSym, dif_pos h]
    rw [hS]
    refine ⟨this.1, fun ρ => ?_⟩
    rw [this.2]
    rcases hl with rfl | rfl | rfl <;> rfl

theorem leaves_vec_point (n : Nat) :
    AllLeaves (fun l => PointLeafOK n exFiat (exSym n) l ∧ LeafIsPoly (leafVals exFiat exRules) exPoly l) vec := by
  have h1 := exSym_ok n cg1 (.inl rfl)
  have h2 := exSym_ok n cg2 (.inr (.inl rfl))
  have h0 := exSym_ok n dg0 (.inr (.inr rfl))
  simp only [vec, q2, AllLeaves, AllLeavesL]
  exact ⟨⟨h2, h2, trivial⟩, ⟨h1, h0, trivial⟩, ⟨h0, h1, trivial⟩, trivial⟩

theorem noPoints_vec : NoPoints vec := by
  simp only [vec, q2, NoPoints, NoPointsL, and_true, true_and]
  refine ⟨?_, ?_, ?_⟩ <;>
  · intro cs hcs
    cases hcs
    decide

/-- A point depending on two free indices. -/
def exPoint : Gem ℤ := .listTensor [2]
  [.indexed (.literal [3] fun v => (v.headD 0 : ℤ) - 1) [.free ⟨0, 3⟩],
   .indexed (.literal [4] fun v => 7 * (v.headD 0 : ℤ)) [.free ⟨1, 4⟩]]

theorem exPoint_wf : PointWF 2 exPoint := by
  refine ⟨⟨2, rfl⟩, fun ρ ρ' v ha => ?_⟩
  have h0 := ha 0 (by omega)
  have h1 := ha 1 (by omega)
  simp only [exPoint, Gem.eval, evalNth_eq]
  match ravel [2] v with
  | 0 => simp [Gem.eval, Ix.val, h0]
  | 1 => simp [Gem.eval, Ix.val, h1]
  | k + 2 => simp

example (order : Nat) : Yields (evaluate (pointInterp exFiat (exSym 2)) vec order exPoint none) 2 fun T =>
    IsTable (fun _ => True) T 2 order [2, 13] [2] fun α ρ i z =>
      evalAt (coords exPoint ρ) (partialD 0 α (treePoly exPoly vec i z)) :=
  C61_point_table exFiat exRules (exSym 2) exPoly vec .quad [2] order 2 exPoint shaped_vec noPoints_vec
    (leaves_vec_point 2) cell_vec rfl exPoint_wf rfl

example (order : Nat) : ∃ T m T₂ m₂,
      evaluate (pointInterp exFiat (exSym 2)) vec order exPoint none 2 = .ok (T, m) ∧
      evaluate (basisInterp exFiat exRules) vec order exPts none 1 = .ok (T₂, m₂) ∧
      ∀ α t t₂, T.get? α = some t → T₂.get? α = some t₂ → ∀ ρ ρ₂ i z, exPts.Valid ρ₂ →
        coords exPoint ρ = exPts.pointAt ρ₂ → InRange i vec.indexShape → InRange z [2] →
        t.eval ρ (i ++ z) = t₂.eval ρ₂ (i ++ z) :=
  C61_agrees exFiat exRules (exSym 2) vec .quad [2] order 2 1 exPts exPoint shaped_vec noPoints_vec cubes_vec
    (AllLeaves.imp (fun _ h => h.1) vec (leaves_vec_point 2))
    (AllLeaves.imp (fun _ h => h.1) vec (leaves_vec order)) cell_vec rfl exPoint_wf rfl exPts_wf exPts_plain

/-- An edge of the square has a vertex factor. -/
example (order n : Nat) (p : Gem ℤ) : ∀ T m, evaluate (pointInterp exFiat (exSym n))
    (.tensorProduct [.leaf cg1, .leaf dg0]) order p (some (.tup [.int 1, .int 0], 1)) n ≠ .ok (T, m) :=
  C61_vertex_factor exFiat (exSym n) [.leaf cg1, .leaf dg0] [.simplex 1, .simplex 1]
    [(.int 1, 0), (.int 0, 1)] _ rfl (by decide +kernel) ⟨(.int 0, 1), by simp, rfl⟩ order n p

/-! ### C40: reduced elements beyond their degree -/

section
variable {α β : Type}

theorem bind_inv {x : M α} {f : α → M β} {n m : Nat} {b : β} (h : (x >>= f) n = .ok (b, m)) :
    ∃ a k, x n = .ok (a, k) ∧ f a k = .ok (b, m) := by
  change (x n >>= fun p => f p.1 p.2) = _ at h
  cases hx : x n with
  | error e => rw [hx] at h; cases h
  | ok r => rw [hx] at h; exact ⟨r.1, r.2, rfl, h⟩

theorem mapM_inv {f : α → M β} : ∀ {l : List α} {r : List β} {n m : Nat}, l.mapM f n = .ok (r, m) →
    ∀ a ∈ l, ∃ b k k', f a k = .ok (b, k') ∧ b ∈ r
  | [], _, _, _, _, a, ha => by simp at ha
  | x :: l, r, n, m, h, a, ha => by
    rw [List.mapM_cons] at h
    obtain ⟨b, k, h1, h2⟩ := bind_inv h
    obtain ⟨bs, k2, h3, h4⟩ := bind_inv h2
    cases h4
    rcases List.mem_cons.1 ha with rfl | ha
    · exact ⟨b, n, k, h1, List.mem_cons_self⟩
    · obtain ⟨b', j, j', h5, h6⟩ := mapM_inv h3 a ha
      exact ⟨b', j, j', h5, List.mem_cons_of_mem _ h6⟩

theorem assertM_inv {b : Bool} {n m : Nat} {u : Unit} (h : assertM b n = .ok (u, m)) : b = true := by
  unfold assertM liftE at h
  cases b with
  | true => rfl
  | false => cases h

theorem mkIndexed_inv {K : Type} {e : Gem K} {ixs : List Ix} {n m : Nat} {g : Gem K}
    (h : mkIndexed e ixs n = .ok (g, m)) : fitsShape ixs e.shape = true := by
  obtain ⟨_, _, h1, _⟩ := bind_inv h
  exact assertM_inv h1

end

/-- **C40**, negative: for a reduced element (fewer FInAT than FIAT basis functions: Bell, reduced
Hsieh-Clough-Tocher) `basis_evaluation` never succeeds when derivatives beyond the degree are
requested: the zero table has the extent of the reduced space, the matrix the extent of the full one. -/
theorem C40_reduced_high_order {K : Type} [CommRing K] (F : Fiat K) (l : Leaf) (M : Mapped K)
    (hM : F.mapped l = some M) (hred : M.cols ≠ l.fns.length) (hsd : l.cell.spatialDim ≠ 0)
    (hv : l.valueShape.prod ≠ 0) (order : Nat) (ho : l.degree < order) (ps : PSet K)
    (entity : Option (Dim × Nat)) (n : Nat) (T : Tab K) (m : Nat) :
    leafBasisEvaluation F l order ps entity n ≠ .ok (T, m) := by
  intro h
  have hdim : F.dim l = M.cols := by simp [Fiat.dim, hM]
  simp only [leafBasisEvaluation, hM] at h
  obtain ⟨R, k, h1, h2⟩ := bind_inv h
  have hα : ∃ α ∈ mis l.cell.spatialDim order, α.sum = order := by
    refine ⟨order :: List.replicate (l.cell.spatialDim - 1) 0, ?_, by simp⟩
    rw [mem_mis]
    refine ⟨?_, by simp⟩
    simp only [List.length_cons, List.length_replicate]
    omega
  obtain ⟨α, hαm, hαs⟩ := hα
  -- the table of `α`
  have htab : ∃ flat, (α, flat) ∈ fiatTabulate F l order ps.pts entity := by
    refine ⟨_, List.mem_map.2 ⟨α, List.mem_flatMap.2 ⟨order, by simp, hαm⟩, rfl⟩⟩
  obtain ⟨flat, hflat⟩ := htab
  have h3 : ∃ t k k', fiatTable F l ps α flat k = .ok (t, k') ∧ (α, t) ∈ R := by
    unfold fiatBasisEvaluation at h1
    split at h1
    · cases h1
    · obtain ⟨b, j, j', h4, h5⟩ := mapM_inv h1 _ hflat
      obtain ⟨t, j2, h6, h7⟩ := bind_inv h4
      cases h7
      exact ⟨t, j, j', h6, h5⟩
  obtain ⟨t, k1, k2, h4, h5⟩ := h3
  -- every component is a zero table of the reduced extent
  have hexpr : ∀ c n e m, fiatExpr F l α flat ps c n = .ok (e, m) →
      e = .literal [l.fns.length] fun _ => 0 := by
    intro c n e m he
    unfold fiatExpr at he
    simp only [hαs] at he
    rw [if_neg (by omega), if_pos ho] at he
    obtain ⟨_, _, _, h7⟩ := bind_inv he
    cases h7
    rfl
  unfold fiatTable at h4
  obtain ⟨exprs, k3, h6, h7⟩ := bind_inv h4
  have hall : ∀ e ∈ exprs, e = .literal [l.fns.length] fun _ => 0 := by
    have : ∀ (cs : List Nat) (n m : Nat) (es : List (Gem K)), cs.mapM (fiatExpr F l α flat ps) n = .ok (es, m) →
        ∀ e ∈ es, e = .literal [l.fns.length] fun _ => 0 := by
      intro cs
      induction cs with
      | nil => intro n m es h; cases h; simp
      | cons c cs ih =>
        intro n m es h
        rw [List.mapM_cons] at h
        obtain ⟨b, k, g1, g2⟩ := bind_inv h
        obtain ⟨bs, k2, g3, g4⟩ := bind_inv g2
        cases g4
        intro e he
        rcases List.mem_cons.1 he with rfl | he
        · exact hexpr c _ _ _ g1
        · exact ih _ _ _ g3 e he
    exact this _ _ _ _ h6
  have hnonempty : exprs ≠ [] := by
    obtain ⟨b, _, _, _, hb⟩ := mapM_inv h6 0 (List.mem_range.2 (by omega))
    exact List.ne_nil_of_mem hb
  by_cases hsc : l.valueShape = []
  · rw [if_pos hsc] at h7
    match exprs, h7, hall with
    | [e], h7, hall =>
      cases h7
      have ht := hall t List.mem_cons_self
      obtain ⟨b, j, j', g1, _⟩ := mapM_inv h2 _ h5
      obtain ⟨u, j2, g2, _⟩ := bind_inv g1
      unfold matvec at g2
      obtain ⟨ij, j3, g3, g4⟩ := bind_inv g2
      obtain ⟨zeta, j4, g5, g6⟩ := bind_inv g4
      obtain ⟨x, j5, g7, _⟩ := bind_inv g6
      have := mkIndexed_inv g7
      cases g3
      cases g5
      subst ht
      simp only [hsc, freshIndices.mk, List.drop_succ_cons, List.drop_zero, List.append_nil, List.map_cons,
        List.map_nil, Gem.shape, fitsShape, Ix.fits, Bool.and_true, decide_eq_true_eq] at this
      exact hred this
    | [], h7, _ => cases h7
    | _ :: _ :: _, h7, _ => cases h7
  · rw [if_neg hsc] at h7
    obtain ⟨beta, j1, g1, g2⟩ := bind_inv h7
    obtain ⟨zeta, j2, g3, g4⟩ := bind_inv g2
    obtain ⟨es, j3, g5, _⟩ := bind_inv g4
    obtain ⟨e, he⟩ := List.exists_mem_of_ne_nil exprs hnonempty
    obtain ⟨_, _, _, g6, _⟩ := mapM_inv g5 e he
    have := mkIndexed_inv g6
    have ht := hall e he
    subst ht
    cases g1
    simp only [freshIndices.mk, List.map_cons, List.map_nil, Gem.shape, fitsShape, Ix.fits, Bool.and_true,
      decide_eq_true_eq, hdim] at this
    exact hred this

/-- A reduced element: two of three quadratic functions. -/
noncomputable def exReduced : Fiat ℤ :=
  { exFiat with mapped := fun _ => some ⟨3, fun i j => if i = j then 1 else 0⟩ }

example (ps : PSet ℤ) (n : Nat) (T : Tab ℤ) (m : Nat) :
    leafBasisEvaluation exReduced { cg2 with fns := [0, 1] } 3 ps none n ≠ .ok (T, m) :=
  C40_reduced_high_order exReduced _ ⟨3, fun i j => if i = j then 1 else 0⟩ rfl (by decide) (by decide)
    (by decide) 3 (by decide) ps none n T m

end FInAT.Props
