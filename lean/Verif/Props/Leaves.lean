import Verif.Props.Tabulation3

/-!
# Leaves and point sets: C18, C22, C30, C40, C58
-/

namespace FInAT.Props

open FInAT Spec Elem MvPolynomial

/-! ## C30 -/

section
variable {K : Type}

/-- **C30.** When `factor_point_set` returns, it returns one point set per factor, and for every value
of the point indices of the original set the points selected from the factor sets have the dimensions
of the factors and their concatenation is the selected original point. -/
theorem C30_factor_point_set (cs : List Cell) (ds : List Dim) (p : PSet K) (n : Nat) (qs : List (PSet K))
    (hw : p.WF n) (h : factorPointSet cs ds p = .ok qs) :
    qs.length = cs.length ∧ ∀ ρ, p.Valid ρ → (∀ q ∈ qs, q.Valid ρ) ∧
      qs.map (fun q => (q.pointAt ρ).length) = ds.map Dim.total ∧
      (qs.map fun q => q.pointAt ρ).flatten = p.pointAt ρ := by
  obtain ⟨hwq, hval⟩ := PSet.factorPointSet_ok hw h
  have hlen : cs.length = ds.length := by
    unfold factorPointSet at h
    split at h
    · cases h
    · next h' => exact not_not.1 h'
  -- either the dimensions of the factors agree, or the dimension of the whole set is the sum
  have hdim : qs.length = ds.length ∧ ((p = .tensor qs ∧
      List.Forall₂ (fun q d => PSet.dimension q = .ok d) qs (ds.map Dim.total)) ∨
      p.dimension = .ok (ds.map Dim.total).sum) := by
    unfold factorPointSet at h
    rw [if_neg (by simpa using hlen)] at h
    have hsplit : ∀ {p : PSet K} {qs}, (do
        let d ← p.dimension
        if d ≠ (ds.map Dim.total).sum then .error .assertionError
        else match p with
          | .singleton p => .ok ((splitLens (ds.map Dim.total) p).map .singleton)
          | .unknown _ _ _ => .error .notImplemented
          | ps => .ok ((splitLens (ds.map Dim.total) (List.range d)).map fun cols =>
              .points .plain (ps.pts.map fun pt => cols.filterMap fun c => pt[c]?) ps.indices) :
          Except Err (List (PSet K))) = .ok qs →
        qs.length = ds.length ∧ p.dimension = .ok (ds.map Dim.total).sum := by
      intro p qs h
      rw [bind_ok] at h
      obtain ⟨d, hd, h⟩ := h
      split at h
      · cases h
      · rename_i hne
        have : d = (ds.map Dim.total).sum := not_not.1 hne
        subst this
        split at h
        · cases h; exact ⟨by simp [splitLens_length], hd⟩
        · cases h
        · cases h; exact ⟨by simp [splitLens_length], hd⟩
    cases p with
    | tensor fs =>
      simp only at h
      split at h
      · rename_i hl
        rw [bind_ok] at h
        obtain ⟨dd, hdd, h⟩ := h
        split at h
        · cases h
          rename_i heq
          subst heq
          refine ⟨by omega, .inl ⟨rfl, ?_⟩⟩
          clear * - hdd
          generalize ds.map Dim.total = ns at hdd
          induction qs generalizing ns with
          | nil => cases hdd; exact .nil
          | cons f fs ih =>
            rw [List.mapM_cons, bind_ok] at hdd
            obtain ⟨d, hd, hdd⟩ := hdd
            rw [bind_ok] at hdd
            obtain ⟨ds, hds, hdd⟩ := hdd
            cases hdd
            exact .cons hd (ih _ hds)
        · cases h
      · obtain ⟨h1, h2⟩ := hsplit h
        exact ⟨h1, .inr h2⟩
    | singleton _ => obtain ⟨h1, h2⟩ := hsplit h; exact ⟨h1, .inr h2⟩
    | points _ _ _ => obtain ⟨h1, h2⟩ := hsplit h; exact ⟨h1, .inr h2⟩
    | unknown _ _ _ => obtain ⟨h1, h2⟩ := hsplit h; exact ⟨h1, .inr h2⟩
  refine ⟨by omega, fun ρ hV => ?_⟩
  obtain ⟨hv1, hv2⟩ := hval ρ hV
  have hlens : qs.map (fun q => (q.pointAt ρ).length) = ds.map Dim.total ∧
      (p.pointAt ρ).length = (ds.map Dim.total).sum := by
    rcases hdim.2 with ⟨rfl, hq⟩ | hp
    · have hl : qs.map (fun q => (q.pointAt ρ).length) = ds.map Dim.total := by
        clear * - hq hwq hv1
        generalize ds.map Dim.total = ns at hq
        induction hq with
        | nil => rfl
        | @cons q d qs ns hd _ ih =>
          rw [List.map_cons, PSet.pointAt_length (hwq q List.mem_cons_self) (hv1 q List.mem_cons_self) hd,
            ih (fun q hq => hwq q (List.mem_cons_of_mem _ hq)) (fun q hq => hv1 q (List.mem_cons_of_mem _ hq))]
      refine ⟨hl, ?_⟩
      have : (PSet.tensor qs).pointAt ρ = (qs.map fun q => q.pointAt ρ).flatten := by
        simp only [PSet.pointAt]
        clear * -
        induction qs with
        | nil => rfl
        | cons f fs ih => simp [PSet.pointAtL, ih]
      rw [this, List.length_flatten, List.map_map]
      exact congrArg List.sum hl
    · have hp' := PSet.pointAt_length hw hV hp
      refine ⟨?_, hp'⟩
      rw [show (fun q : PSet K => (q.pointAt ρ).length) = List.length ∘ fun q => q.pointAt ρ from rfl,
        ← List.map_map, hv2]
      clear * - hp'
      generalize p.pointAt ρ = l at hp'
      generalize ds.map Dim.total = ns at hp'
      induction ns generalizing l with
      | nil => rfl
      | cons a ns ih =>
        simp only [List.sum_cons] at hp'
        simp only [splitLens, List.map_cons, List.length_take]
        rw [ih _ (by simp; omega)]
        congr 1
        omega
  refine ⟨hv1, hlens.1, ?_⟩
  rw [hv2, flatten_splitLens _ _ hlens.2]

/-- **C30**, success: a set of known points of the right dimension is always split (a tensor point set with
as many factors as the cell must have factors of the right dimensions). -/
theorem C30_splits (cs : List Cell) (ds : List Dim) (p : PSet K) (hl : cs.length = ds.length)
    (hd : p.dimension = .ok (ds.map Dim.total).sum) (hk : ∀ pts d i, p ≠ .unknown pts d i)
    (ht : ∀ fs, p = .tensor fs → cs.length = fs.length → fs.mapM PSet.dimension = .ok (ds.map Dim.total)) :
    ∃ qs, factorPointSet cs ds p = .ok qs := by
  unfold factorPointSet
  rw [if_neg (by simpa using hl)]
  cases p with
  | unknown a b c => exact absurd rfl (hk a b c)
  | singleton x => simp only [hd, bind, Except.bind]; rw [if_neg (by simp)]; exact ⟨_, rfl⟩
  | points a b c => simp only [hd, bind, Except.bind]; rw [if_neg (by simp)]; exact ⟨_, rfl⟩
  | tensor fs =>
    simp only
    split
    · next h => rw [ht fs rfl h]; exact ⟨fs, by simp [bind, Except.bind]⟩
    · simp only [hd, bind, Except.bind]; rw [if_neg (by simp)]; exact ⟨_, rfl⟩

/-- A 2 x 3 tensor point set on a prism-like cell is split into its factors; as one set for the product of an
interval and a two-dimensional cell it is split by columns. -/
def grid : PSet ℤ := .tensor [.points .gaussLegendre [[0], [1]] [⟨0, 2⟩],
  .points .plain [[2], [3], [4]] [⟨1, 3⟩], .points .plain [[5], [6]] [⟨2, 2⟩]]

example : grid.WF 3 ∧ ∃ qs, factorPointSet [.simplex 1, .simplex 2] [.int 1, .int 2] grid = .ok qs ∧
    qs.map (fun q => q.pts.length) = [12, 12] := by
  refine ⟨?_, _, rfl, by decide +kernel⟩
  simp only [grid, PSet.WF, PSet.WFL]
  refine ⟨⟨by simp, by decide, 1, by simp⟩, ⟨by simp, by decide, 1, by simp⟩, ⟨by simp, by decide, 1, by simp⟩, trivial⟩

end

/-! ## C18 -/

section
variable {K : Type} [CommRing K]

/-- **C18.** `FiatElement.basis_evaluation` succeeds; its keys are the derivatives up to the order, and for
every derivative, point, basis index and value index its entry is what FIAT returns for that basis
function, value component and point. The entry is obtained from a table without point dependence when
the order equals the degree, and is zero when it exceeds the degree. -/
theorem C18_fiat_tables (F : Fiat K) (l : Leaf) (order : Nat) (ps : PSet K) (entity : Option (Dim × Nat))
    (n m : Nat) (hw : ps.WF n) (hm : n ≤ m) (hok : FiatOK F l order ps (entity.getD (l.cell.dimension, 0))) :
    Yields (fiatBasisEvaluation F l order ps entity) m fun T =>
      IsTable ps.Valid T l.cell.spatialDim order [F.dim l] l.valueShape fun α ρ i z =>
        F.fn l α (entity.getD (l.cell.dimension, 0)) (ps.pointAt ρ) (i.headD 0) z := by
  obtain ⟨T, m', h1, _, h2⟩ := fiatBasisEvaluation_spec hw hm hok
  refine ⟨T, m', h1, isTable_of (is := [F.dim l]) h2 ?_⟩
  intro α ρ i z _ _ hi _
  match i, hi with
  | [i], .cons _ .nil => rfl

/-- **C18**, why this is correct for polynomials: for functions that are polynomials of total degree at
most `degree` (on macro cells: one polynomial for each point) in the coordinates of the cell, derivatives
of order `degree` are the same at all points (unless the cell is a macro cell) and those of higher order
vanish. -/
theorem C18_polynomials (F : Fiat K) (l : Leaf) (ent : Dim × Nat) (hsmall : F.small 0 = true)
    (Q : List K → Nat → List Nat → MvPolynomial ℕ K) (emb : List K → List K)
    (hF : ∀ α x i z, F.fn l α ent x i z = evalAt (emb x) (partialD 0 α (Q x i z)))
    (hdeg : ∀ x i z, (Q x i z).totalDegree ≤ l.degree)
    (hone : F.isMacro l = false → ∀ x x' i z, Q x i z = Q x' i z) :
    (∀ α x x' i z, α.sum = l.degree → F.isMacro l = false →
      F.fn l α ent x i z = F.fn l α ent x' i z) ∧
    (∀ α x i z, l.degree < α.sum → F.fn l α ent x i z = 0) ∧ FiatPoly F l ent :=
  have h := fiatPoly_of hsmall Q emb hF hdeg hone
  ⟨h.const, h.vanish, h⟩

/-! ## C40 -/

theorem sum_range_list (f : ℕ → K) (n : ℕ) : ((List.range n).map f).sum = ∑ j ∈ Finset.range n, f j := by
  induction n with
  | zero => rfl
  | succ n ih => rw [List.range_succ, List.map_append, List.sum_append, ih, Finset.sum_range_succ]; simp

/-- **C40.** The table of a physically mapped element is, for every derivative, point and value
component, the product of the matrix `basis_transformation(coordinate_mapping)` with the vector of the
reference functions. Partial: `FiatOK` excludes derivative orders beyond the degree for elements with
fewer functions than their FIAT element, for which the code fails (`C40_reduced_high_order`). -/
theorem C40_mapped_tables_partial (F : Fiat K) (l : Leaf) (M : Mapped K) (hM : F.mapped l = some M) (order : Nat)
    (ps : PSet K) (entity : Option (Dim × Nat)) (n m : Nat) (hw : ps.WF n) (hm : n ≤ m)
    (hok : FiatOK F l order ps (entity.getD (l.cell.dimension, 0))) :
    Yields (leafBasisEvaluation F l order ps entity) m fun T =>
      Yields (fiatBasisEvaluation F l order ps entity) m fun Tf =>
        (∀ α, α ∈ T.keys ↔ α ∈ Tf.keys) ∧
        ∀ α t tf, T.get? α = some t → Tf.get? α = some tf →
          t.shape = l.fns.length :: l.valueShape ∧ tf.shape = M.cols :: l.valueShape ∧
          ∀ ρ i z, ps.Valid ρ → i < l.fns.length → InRange z l.valueShape →
            t.eval ρ (i :: z) = ∑ j ∈ Finset.range M.cols, M.entry i j * tf.eval ρ (j :: z) := by
  obtain ⟨Tf, m1, h1, hf⟩ := C18_fiat_tables F l order ps entity n m hw hm hok
  obtain ⟨T, m2, h2, _, hT⟩ := leafBasisEvaluation_spec hw hm
    (entity := entity) (order := order) (F := F) (l := l) ⟨hok, fun h => by rw [hM] at h; cases h⟩
  have hdim : F.dim l = M.cols := by simp [Fiat.dim, hM]
  refine ⟨T, m2, h2, Tf, m1, h1, fun α => by rw [hT.keys, hf.keys], ?_⟩
  intro α t tf ht htf
  have hd := hT.den α t ht
  refine ⟨hd.shape, by rw [hf.shape α tf htf, hdim]; rfl, fun ρ i z hV hi hz => ?_⟩
  rw [hd.val ρ (i :: z) hV (.cons hi hz)]
  simp only [leafFn, hM, List.headD_cons, List.drop_succ_cons, List.drop_zero]
  rw [← sum_range_list]
  refine congrArg List.sum (List.map_congr_left fun j hj => ?_)
  have hj' : j < F.dim l := by rw [hdim]; exact List.mem_range.1 hj
  have e := hf.value α tf htf ρ [j] z hV (.cons hj' .nil) hz
  rw [List.singleton_append] at e
  rw [e]
  rfl

/-! ## C58 -/

/-- **C58**, own nodes: on the cell, with point sets of the element's own class and as many points as
basis functions, the table of values is the identity between the point index and the basis functions, and all
entries (of values and derivatives) are those of the ordinary tabulation. `Nodal` is the assumption about FIAT
that the basis is nodal at these points. -/
theorem C58_identity (F : Fiat K) (cls : PSClass) (l : Leaf) (hl : F.mapped l = none) (order : Nat) (ps : PSet K)
    (entity : Option (Dim × Nat)) (n m : Nat) (hw : ps.WF n) (hm : n ≤ m)
    (hent : entity = none ∨ entity = some (l.cell.dimension, 0))
    (hok : FiatOK F l order ps (l.cell.dimension, 0)) (hnod : Nodal F l cls ps)
    (hcls : ∃ pts idx, ps = .points cls pts idx) (hlen : ps.pts.length = l.fns.length) :
    Yields (spectralBasisEvaluation F cls l order ps entity) m fun T =>
      Yields (fiatBasisEvaluation F l order ps entity) m fun Tf =>
        (∃ q t, ps.indices = [q] ∧ T.get? (List.replicate l.cell.spatialDim 0) = some t ∧
          ∀ ρ i, ps.Valid ρ → i < l.fns.length → t.eval ρ [i] = if ρ q.id = i then 1 else 0) ∧
        (∀ α, α ∈ T.keys ↔ α ∈ Tf.keys) ∧
        ∀ α t tf, T.get? α = some t → Tf.get? α = some tf → ∀ ρ i z, ps.Valid ρ → i < l.fns.length →
          InRange z l.valueShape → t.eval ρ (i :: z) = tf.eval ρ (i :: z) := by
  have hd : F.dim l = l.fns.length := by simp [Fiat.dim, hl]
  have hent' : entity.getD (l.cell.dimension, 0) = (l.cell.dimension, 0) := by
    rcases hent with rfl | rfl <;> rfl
  obtain ⟨Tf, m1, h1, hf⟩ := C18_fiat_tables F l order ps entity n m hw hm (by rw [hent']; exact hok)
  obtain ⟨T, m2, h2, _, hT⟩ := spectralBasisEvaluation_spec (entity := entity) hw hm hd (by rw [hent']; exact hok) hnod
  rw [hent'] at hT hf
  obtain ⟨⟨q, hq⟩, hvs, hn⟩ := hnod (by obtain ⟨pts, idx, rfl⟩ := hcls; rfl) hlen
  refine ⟨T, m2, h2, Tf, m1, h1, ?_, fun α => by rw [hT.keys, hf.keys], ?_⟩
  · have hk : List.replicate l.cell.spatialDim 0 ∈ Dict.keys T := (hT.keys _).2 ⟨by simp, by simp⟩
    rw [← Dict.get?_isSome_iff] at hk
    obtain ⟨t, ht⟩ := Option.isSome_iff_exists.1 hk
    refine ⟨q, t, hq, ht, fun ρ i hV hi => ?_⟩
    rw [(hT.den _ t ht).val ρ [i] hV (by rw [hd, hvs]; exact .cons hi .nil)]
    have hat := (PSet.pts_at hw).2 hV
    rw [hq] at hat
    simp only [List.map_cons, List.map_nil, ravel_cons, ravel_nil, List.prod_nil, Nat.mul_one, Nat.add_zero] at hat
    exact hn (ρ q.id) i hi _ hat
  · intro α t tf ht htf ρ i z hV hi hz
    rw [(hT.den α t ht).val ρ (i :: z) hV (.cons (hd ▸ hi) hz)]
    have e := hf.value α tf htf ρ [i] z hV (.cons (hd ▸ hi) .nil) hz
    rw [List.singleton_append] at e
    rw [e]
    rfl

/-- **C58**, own nodes: the identity is exact whatever numbers FIAT tabulates there; no assumption about the
FIAT values at the nodes is made. -/
theorem C58_exact (F : Fiat K) (cls : PSClass) (l : Leaf) (order : Nat) (pts : List (List K)) (q : Index)
    (entity : Option (Dim × Nat)) (n m : Nat) (hw : (PSet.points cls pts [q]).WF n) (hm : n ≤ m)
    (hent : entity = none ∨ entity = some (l.cell.dimension, 0))
    (hok : FiatOK F l order (.points cls pts [q]) (l.cell.dimension, 0)) (hlen : pts.length = l.fns.length) :
    Yields (spectralBasisEvaluation F cls l order (.points cls pts [q]) entity) m fun T =>
      ∃ t, T.get? (List.replicate l.cell.spatialDim 0) = some t ∧ t.shape = [l.fns.length] ∧
        ∀ ρ i, i < l.fns.length → t.eval ρ [i] = if ρ q.id = i then 1 else 0 := by
  have hent' : entity.getD (l.cell.dimension, 0) = (l.cell.dimension, 0) := by
    rcases hent with rfl | rfl <;> rfl
  have hq : q.id < n := PSet.indices_lt hw q (by simp [PSet.indices])
  suffices h : Runs (spectralBasisEvaluation F cls l order (.points cls pts [q]) entity) m fun T _ =>
      ∃ t, T.get? (List.replicate l.cell.spatialDim 0) = some t ∧ t.shape = [l.fns.length] ∧
        ∀ ρ i, i < l.fns.length → t.eval ρ [i] = if ρ q.id = i then 1 else 0 by
    obtain ⟨T, m', h1, h2⟩ := h
    exact ⟨T, m', h1, h2⟩
  unfold spectralBasisEvaluation
  apply Runs.bind
  refine (fiatBasisEvaluation_spec (entity := entity) hw hm (by rw [hent']; exact hok)).mono ?_
  rintro T m1 ⟨h1, hT⟩
  rw [if_pos ⟨hent, rfl, hlen⟩]
  apply Runs.bind
  refine ⟨[⟨m1, l.fns.length⟩], m1 + 1, rfl, ?_⟩
  simp only
  apply Runs.bind
  apply Runs.mkComponentTensor rfl
  intro t ht1 ht2
  refine Runs.pure ⟨t, by rw [Dict.get?_set, if_pos rfl], by rw [ht1]; rfl, fun ρ i hi => ?_⟩
  rw [ht2 ρ [i] rfl]
  have e1 : Function.update ρ m1 i q.id = ρ q.id := Function.update_of_ne (by omega) _ _
  simp only [Gem.eval, bindIx, e1, Function.update_self]

/-- **C58**, elsewhere: on facets, for other point set classes or another number of points the result is the
ordinary tabulation. -/
theorem C58_ordinary (F : Fiat K) (cls : PSClass) (l : Leaf) (order : Nat) (ps : PSet K)
    (entity : Option (Dim × Nat))
    (h : (entity ≠ none ∧ entity ≠ some (l.cell.dimension, 0)) ∨ (∀ pts idx, ps ≠ .points cls pts idx) ∨
      ps.pts.length ≠ l.fns.length) (n : Nat) :
    spectralBasisEvaluation F cls l order ps entity n = fiatBasisEvaluation F l order ps entity n := by
  unfold spectralBasisEvaluation
  rw [show (fiatBasisEvaluation F l order ps entity n) =
    (fiatBasisEvaluation F l order ps entity >>= pure : M _) n by rw [bind_pure]]
  refine congrFun (congrArg (fiatBasisEvaluation F l order ps entity >>= ·) (funext fun T => ?_)) n
  rw [if_neg]
  rintro ⟨h1, h2, h3⟩
  rcases h with h | h | h
  · rcases h1 with h1 | h1
    · exact h.1 h1
    · exact h.2 h1
  · cases ps with
    | points c pts idx => exact h pts idx (by rw [Option.some.inj h2])
    | singleton _ => cases h2
    | unknown _ _ _ => cases h2
    | tensor _ => cases h2
  · exact h h3

/-! ## C22 -/

mutual
/-- Point sets made of arrays of points (`PointSet` and its subclasses, `TensorPointSet` of such). -/
def Arrays : PSet K → Prop
  | .points _ _ _ => True
  | .tensor fs => ArraysL fs
  | _ => False
/-- ... for lists. -/
def ArraysL : List (PSet K) → Prop
  | [] => True
  | p :: ps => Arrays p ∧ ArraysL ps
end

omit [CommRing K] in
theorem all_zip_self {α : Type} {f : α → α → Bool} (h : ∀ x, f x x = true) (l : List α) :
    ((l.zip l).all fun p => f p.1 p.2) = true := by
  induction l with
  | nil => rfl
  | cons a l ih => simp [h, ih]

omit [CommRing K]

mutual
theorem almostEqual_self {close : List K → List K → Bool} (h : ∀ x, close x x = true) :
    ∀ p : PSet K, Arrays p → p.almostEqual close p = .ok true
  | .points c pts idx, _ => by
    simp only [PSet.almostEqual, decide_true, Bool.true_and]
    rw [all_zip_self (f := fun a b => decide (a.length = b.length) && close a b) (by simp [h])]
  | .tensor fs, ha => by
    simp only [Arrays] at ha
    simp only [PSet.almostEqual, if_true]
    exact almostEqualL_self h fs ha
  | .singleton _, ha => by simp only [Arrays] at ha
  | .unknown _ _ _, ha => by simp only [Arrays] at ha
theorem almostEqualL_self {close : List K → List K → Bool} (h : ∀ x, close x x = true) :
    ∀ ps : List (PSet K), ArraysL ps → PSet.almostEqualL close ps ps = .ok true
  | [], _ => by simp only [PSet.almostEqualL]
  | p :: ps, ha => by
    simp only [ArraysL] at ha
    simp only [PSet.almostEqualL, almostEqual_self h p ha.1, bind, Except.bind, if_true]
    exact almostEqualL_self h ps ha.2
end

section
variable [CommRing K]

/-- **C22**, identity: tabulating a quadrature element (its `index_shape` are the extents of the point
indices) at the points of its own rule succeeds; the table has the single key `(0, ..., 0)`, and its
entry for the basis function `i` at the point selected by the point indices is one if the flat
(row-major) number of `i` is the number of the point in `ps.points`, and zero otherwise. -/
theorem C22_identity (R : Rules K) (hrefl : ∀ x, R.close x x = true) (r : Nat) (c : Cell)
    (entity : Option (Dim × Nat)) (hent : entity = none ∨ entity = some (c.dimension, 0)) (n m : Nat)
    (hw : (R.pointSet r).WF n) (hm : n ≤ m) (ha : Arrays (R.pointSet r))
    (hne : (R.pointSet r).indices ≠ []) :
    Yields (quadBasisEvaluation R r c ((R.pointSet r).indices.map Index.extent) 0 (R.pointSet r) entity) m
      fun T => IsTable (R.pointSet r).Valid T c.spatialDim 0 ((R.pointSet r).indices.map Index.extent) []
        fun _ ρ i _ => if ravel ((R.pointSet r).indices.map Index.extent) i =
          ravel ((R.pointSet r).indices.map Index.extent) ((R.pointSet r).indices.map fun q => ρ q.id)
          then 1 else 0 := by
  obtain ⟨T, m', h1, _, h2⟩ := quadBasisEvaluation_index (R := R) (r := r) (c := c) (order := 0)
    (ext := (R.pointSet r).indices.map Index.extent) (ps := R.pointSet r) (entity := entity) hw hm
    (by rcases hent with rfl | rfl <;> rfl) rfl (almostEqual_self hrefl _ ha) rfl (by simpa using hne)
  refine ⟨T, m', h1, isTable_of (is := (R.pointSet r).indices.map Index.extent) (vs := [])
    (by rw [List.append_nil]; exact h2.weaken fun _ _ => trivial) ?_⟩
  intro α ρ i z hV _ hi hz
  cases hz
  have hin := PSet.inB_of_range hV
  rw [List.append_nil]
  congr 1
  rw [eq_iff_iff]
  constructor
  · rintro rfl; rfl
  · intro h
    have := congrArg (unravel ((R.pointSet r).indices.map Index.extent)) h
    rw [unravel_ravel hi, unravel_ravel hin] at this
    exact this.symm

end

/-- **C22**, rejection: derivatives, sub-entities and different point sets raise `ValueError`. -/
theorem C22_rejects (R : Rules K) (r : Nat) (c : Cell) (ext : List Nat) (order : Nat) (ps : PSet K)
    (entity : Option (Dim × Nat))
    (h : order ≠ 0 ∨ (entity ≠ none ∧ entity ≠ some (c.dimension, 0)) ∨
      (R.pointSet r).almostEqual R.close ps = .ok false) (n : Nat) :
    quadBasisEvaluation R r c ext order ps entity n = .error .valueError := by
  unfold quadBasisEvaluation
  split
  · rfl
  · rename_i h1
    split
    · rfl
    · rename_i h2
      rcases h with h | h | h
      · exact absurd h h2
      · exact absurd h h1
      · rw [h]; rfl

/-- Sets of different classes, numbers of points or numbers of factors are different. -/
theorem C22_different (close : List K → List K → Bool) :
    (∀ c c' pts pts' i i', (c ≠ c' ∨ pts.length ≠ pts'.length) →
      PSet.almostEqual close (.points c pts i) (.points c' pts' i') = .ok false) ∧
    (∀ c pts i fs, PSet.almostEqual close (.points c pts i) (.tensor fs) = .ok false) ∧
    (∀ c pts i fs, PSet.almostEqual close (.tensor fs) (.points c pts i) = .ok false) ∧
    (∀ fs gs, fs.length ≠ gs.length → PSet.almostEqual close (.tensor fs) (.tensor gs) = .ok false) ∧
    (∀ c (pts pts' : List (List K)) i i' (k : Nat) x y, pts[k]? = some x → pts'[k]? = some y → close x y = false →
      PSet.almostEqual close (.points c pts i) (.points c pts' i') = .ok false) := by
  refine ⟨?_, fun _ _ _ _ => rfl, fun _ _ _ _ => rfl, ?_, ?_⟩
  · rintro c c' pts pts' i i' (h | h) <;> simp [PSet.almostEqual, h]
  · intro fs gs h; simp [PSet.almostEqual, h]
  · intro c pts pts' i i' k x y hx hy h
    simp only [PSet.almostEqual, Except.ok.injEq, Bool.and_eq_false_iff]
    right
    rw [List.all_eq_false]
    refine ⟨(x, y), ?_, by simp [h]⟩
    rw [List.mem_iff_getElem?]
    exact ⟨k, by simp [List.getElem?_zip_eq_some, hx, hy]⟩

end

/-! ### C22 and index structure -/

/-- A rule with four points and one point index. -/
def fourRule : Rules ℤ where
  pointSet _ := .points .plain [[0], [1], [2], [3]] [⟨0, 4⟩]
  close x y := decide (x = y)

/-- The same points (as an array), indexed by two indices: what `factor_point_set` returns when it
splits a tensor point set by columns. -/
def fourPoints : PSet ℤ := .points .plain [[0], [1], [2], [3]] [⟨0, 2⟩, ⟨1, 2⟩]

/-- **C22** fails for point sets with the same points but another index structure: they are accepted
(`almost_equal` compares points only), `zip(ps.indices, multiindex)` drops the second point index, and
at the point number 2 the basis function number 2 is tabulated as zero (and number 1 as one). -/
theorem C22_index_structure :
    ∃ t n', quadBasisEvaluation fourRule 0 (.simplex 1) [4] 0 fourPoints none 2 =
        .ok ([([0], t)], n') ∧
      ∃ ρ : Nat → Nat, fourPoints.Valid ρ ∧ fourPoints.pointAt ρ = [2] ∧
        (fourRule.pointSet 0).pts[2]? = some [2] ∧ t.eval ρ [2] = 0 ∧ t.eval ρ [1] = 1 := by
  refine ⟨_, _, rfl, fun k => if k = 0 then 1 else 0, ?_, by decide +kernel, rfl, by decide +kernel, by decide +kernel⟩
  simp [fourPoints, PSet.Valid, PSet.indices]

/-- A rule with a tensor point set: the hypotheses of `C22_identity` hold. -/
example : ∃ R : Rules ℤ, (∀ x, R.close x x = true) ∧ (R.pointSet 0).WF 3 ∧ Arrays (R.pointSet 0) ∧
    (R.pointSet 0).indices ≠ [] := by
  refine ⟨⟨fun _ => grid, fun x y => decide (x = y)⟩, by simp, ?_, ?_, by simp [grid, PSet.indices, PSet.indicesL]⟩
  · simp only [grid, PSet.WF, PSet.WFL]
    refine ⟨⟨by simp, by decide, 1, by simp⟩, ⟨by simp, by decide, 1, by simp⟩, ⟨by simp, by decide, 1, by simp⟩, trivial⟩
  · simp [grid, Arrays, ArraysL]

end FInAT.Props
