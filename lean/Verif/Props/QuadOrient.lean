import Verif.Lemmas.QuadOrient
import Verif.Props.Quadrature

/-!
# C73: orientation maps of quadrature rules describe symmetries of the rules
-/

namespace FInAT.Props

open FInAT Spec

variable {K : Type}

/-- **C73.** The rule that `make_quadrature` returns for any cell has one orientation map per axis. Take a permutation of the
points of each axis from these maps: renumbering the points by these permutations moves every point as the
corresponding symmetries of the axes do, leaves the weight of every point unchanged, and therefore an integrand
composed with the symmetry has the same quadrature sum. -/
theorem C73_symmetry [CommRing K] (F : FiatOrient K) (sym : Cell → Nat → List K → List K) (hF : OrientOK F sym)
    (scheme : String) (c : Cell) (hc : NoEmpty c) (deg : Degree) (n n' : Nat) (q : ORule K)
    (h : makeOriented F scheme c deg n = .ok (q, n')) (ms : List OMap) (hm : q.intrinsicMaps = .ok ms) :
    ms.length = (axesOf c).length ∧ q.forget.pointSet.indices.length = (axesOf c).length ∧
    ∀ os ps, Selected ms os ps → Yields q.forget.weightExpr n' fun W => ∀ ρ,
      (∀ v ∈ ndindex (q.forget.pointSet.indices.map Index.extent),
        permute ps v ∈ ndindex (q.forget.pointSet.indices.map Index.extent) ∧
        q.forget.pointSet.pointAt (bindIx ρ q.forget.pointSet.indices (permute ps v)) =
          moveAxes sym (axesOf c) os (q.forget.pointSet.pointAt (bindIx ρ q.forget.pointSet.indices v)) ∧
        W.eval (bindIx ρ q.forget.pointSet.indices (permute ps v)) [] =
          W.eval (bindIx ρ q.forget.pointSet.indices v) []) ∧
      ∀ f, quadSum W q.forget.pointSet ρ (fun x => f (moveAxes sym (axesOf c) os x)) =
        quadSum W q.forget.pointSet ρ f := by
  obtain ⟨as, L⟩ := laid hF c h
  have hms : as.map Axis.map = ms.map some := L.maps ▸ maps_some hm
  have hl1 : as.length = ms.length := by simpa using congrArg List.length hms
  have hl2 : as.length = (axesOf c).length := by simpa using congrArg List.length L.cells
  have hl3 : q.forget.pointSet.indices.length = as.length := by simpa using congrArg List.length L.ext
  refine ⟨by omega, by omega, ?_⟩
  intro os ps hs
  obtain ⟨W, k, hW, hk, -, hev⟩ := weightExpr_spec (n := n') (L.ok hc)
  refine ⟨W, k, hW, fun ρ => ?_⟩
  have hnd := L.fresh.1
  have hpt : ∀ v, InB v (as.map fun a => a.pts.length) →
      q.forget.pointSet.pointAt (bindIx ρ q.forget.pointSet.indices v) = axesPoint as v ∧
      W.eval (bindIx ρ q.forget.pointSet.indices v) [] = axesWeight as v := by
    intro v hv
    have hvl : v.length = as.length := by rw [hv.length]; simp
    have hb := map_bindIx ρ hnd (v := v) (by omega)
    exact ⟨by rw [PSet.at_eq hnd hb, L.point v hvl], by rw [hev, hb, L.weight v hvl]⟩
  have hmain : ∀ v ∈ ndindex (q.forget.pointSet.indices.map Index.extent),
        permute ps v ∈ ndindex (q.forget.pointSet.indices.map Index.extent) ∧
        q.forget.pointSet.pointAt (bindIx ρ q.forget.pointSet.indices (permute ps v)) =
          moveAxes sym (axesOf c) os (q.forget.pointSet.pointAt (bindIx ρ q.forget.pointSet.indices v)) ∧
        W.eval (bindIx ρ q.forget.pointSet.indices (permute ps v)) [] =
          W.eval (bindIx ρ q.forget.pointSet.indices v) [] := by
    intro v hv
    rw [L.ext] at hv ⊢
    have hv := mem_ndindex.1 hv
    obtain ⟨h1, h2⟩ := axes_move L.good hms hs hv
    have h3 := axes_weight L.good hms hs hv
    refine ⟨mem_ndindex.2 h1, ?_, ?_⟩
    · rw [(hpt _ h1).1, (hpt _ hv).1, h2, L.cells]
    · rw [(hpt _ h1).2, (hpt _ hv).2, h3]
  refine ⟨hmain, fun f => ?_⟩
  have hperm : ((ndindex (q.forget.pointSet.indices.map Index.extent)).map (permute ps)).Perm
      (ndindex (q.forget.pointSet.indices.map Index.extent)) := by
    refine perm_of_inj (nodup_ndindex _) (fun v hv => (hmain v hv).1) fun v hv w hw => ?_
    rw [L.ext] at hv hw
    exact permute_inj L.good hms hs (mem_ndindex.1 hv) (mem_ndindex.1 hw)
  unfold quadSum
  refine Eq.trans ?_ (hperm.map _).sum_eq
  rw [List.map_map]
  refine congrArg List.sum (List.map_congr_left fun v hv => ?_)
  obtain ⟨-, h2, h3⟩ := hmain v hv
  simp only [Function.comp_apply]
  rw [h2, h3]

/-- The rule is the one of C27-C29, to which orientation data are attached. -/
theorem C73_same_rule [Zero K] (F : FiatOrient K) (scheme : String) (c : Cell) (deg : Degree) (n : Nat) :
    makeQuadrature F.toFiatQuad scheme c deg n =
      (makeOriented F scheme c deg n).map fun p => (p.1.forget, p.2) :=
  makeOriented_forget F scheme c deg n

/-- The maps are refused, with ValueError, exactly when FIAT has none for one of the axes. -/
theorem C73_refused (q : ORule K) : q.intrinsicMaps = .error .valueError ↔ none ∈ q.maps := by
  unfold ORule.intrinsicMaps
  split
  · rename_i h
    simp only [List.any_eq_true, Option.isNone_iff_eq_none] at h
    obtain ⟨x, hx, rfl⟩ := h
    simpa using hx
  · rename_i h
    simp only [List.any_eq_true, Option.isNone_iff_eq_none, not_exists, not_and] at h
    simp only [reduceCtorEq, false_iff]
    exact fun hn => h _ hn rfl

/-- A product rule has the maps of its factors, one after the other, and the factors given, if `factors` is a sequence. -/
theorem C73_product (qs : List (ORule K)) (ref : Option Cell) :
    (ORule.newTensor (.sequence qs) ref).maps = (qs.map ORule.maps).flatten ∧
      (ORule.newTensor (.sequence qs) ref).forget = .tensor (qs.map ORule.forget) := by
  have : ∀ l : List (ORule K), ORule.forgetL l = l.map ORule.forget := by
    intro l
    induction l with
    | nil => rfl
    | cons q l ih => simp [ORule.forgetL, ih]
  refine ⟨by simp [ORule.newTensor, Iterable.read, ORule.maps, List.flatMap_def], ?_⟩
  simp [ORule.newTensor, Iterable.read, ORule.forget, this]

/-- If `factors` is an iterator, the rule has all its factors and no map at all: the orientation maps are lost without
an error. -/
theorem C73_iterator (qs : List (ORule K)) (ref : Option Cell) :
    (ORule.newTensor (.iterator qs) ref).forget = (ORule.newTensor (.sequence qs) ref).forget ∧
      (ORule.newTensor (.iterator qs) ref).intrinsicMaps = .ok [] :=
  ⟨rfl, rfl⟩

/-- The permutations of the axes are those of the cell the rule was made for (of its product for a quadrilateral); a rule
without a cell refuses them. -/
theorem C73_extrinsic (F : FiatOrient K) (scheme : String) (c : Cell) (deg : Degree) (n n' : Nat) (q : ORule K)
    (h : makeOriented F scheme c deg n = .ok (q, n')) :
    q.extrinsicMap F = F.extrinsic (if c = .quad then .prod [.simplex 1, .simplex 1] else c) := by
  have hs : ∀ c, makeSimpleO F scheme c deg n = .ok (q, n') → q.ref = some c := by
    intro c h
    have hk : ∀ cls pw maps k, mkORule cls c pw maps k = .ok (q, n') → q.ref = some c := by
      intro cls pw maps k h
      unfold mkORule at h
      obtain ⟨_, _, -, h0⟩ := ORule.bind_run h
      obtain ⟨_, _, -, h1⟩ := ORule.bind_run h0
      cases h1
      rfl
    match deg with
    | .tup _ => simp only [makeSimpleO] at h; cases h
    | .int d =>
      simp only [makeSimpleO] at h
      split at h
      · cases h
      split at h
      · exact hk _ _ _ _ h
      · obtain ⟨_, _, -, h0⟩ := ORule.bind_run h
        exact hk _ _ _ _ h0
  have hr : q.ref = some (if c = .quad then .prod [.simplex 1, .simplex 1] else c) := by
    match c with
    | .prod cs =>
      rw [makeOriented] at h
      obtain ⟨_, _, -, h0⟩ := ORule.bind_run h
      obtain ⟨_, _, -, h1⟩ := ORule.bind_run h0
      cases h1
      rfl
    | .quad =>
      rw [makeOriented] at h
      obtain ⟨_, _, -, h0⟩ := ORule.bind_run h
      obtain ⟨_, _, -, h1⟩ := ORule.bind_run h0
      cases h1
      rfl
    | .simplex d =>
      rw [makeOriented] at h <;> simp
      exact hs _ h
    | .hex =>
      rw [makeOriented] at h <;> simp
      exact hs _ h
  unfold ORule.extrinsicMap
  rw [hr]

theorem C73_no_cell (F : FiatOrient K) (q : ORule K) (h : q.ref = none) : q.extrinsicMap F = .error .valueError := by
  unfold ORule.extrinsicMap
  rw [h]

/-- **C73.** The rule of one degree on a product of copies of one simple cell (intervals, say) is symmetric in its axes:
renumbering the points by an exchange of the axes, as the permutation matrices of
`extrinsic_orientation_permutation_map` prescribe, exchanges the coordinates of the points and leaves weights and sums
unchanged. -/
theorem C73_exchange [CommRing K] (F : FiatOrient K) (sym : Cell → Nat → List K → List K) (hF : OrientOK F sym)
    (scheme : String) (c : Cell) (hc : axesOf c = [c]) (r : Nat) (hr : 0 < r) (d : Int) (n n' : Nat) (q : ORule K)
    (h : makeOriented F scheme (.prod (List.replicate r c)) (.int d) n = .ok (q, n')) :
    q.forget.pointSet.indices.length = r ∧
    ∀ σ : List Nat, σ.Perm (List.range r) → Yields q.forget.weightExpr n' fun W => ∀ ρ,
      (∀ v ∈ ndindex (q.forget.pointSet.indices.map Index.extent),
        exchange σ v ∈ ndindex (q.forget.pointSet.indices.map Index.extent) ∧
        q.forget.pointSet.pointAt (bindIx ρ q.forget.pointSet.indices (exchange σ v)) =
          exchangeAxes c.spatialDim σ (q.forget.pointSet.pointAt (bindIx ρ q.forget.pointSet.indices v)) ∧
        W.eval (bindIx ρ q.forget.pointSet.indices (exchange σ v)) [] =
          W.eval (bindIx ρ q.forget.pointSet.indices v) []) ∧
      ∀ f, quadSum W q.forget.pointSet ρ (fun x => f (exchangeAxes c.spatialDim σ x)) =
        quadSum W q.forget.pointSet ρ f := by
  rw [makeOriented] at h
  obtain ⟨u, k, h1, h0⟩ := ORule.bind_run h
  obtain ⟨qs, k', h2, h3⟩ := ORule.bind_run h0
  obtain ⟨-, rfl⟩ := ORule.assert_run h1
  cases h3
  rw [Degree.expand, List.length_replicate] at h2
  obtain ⟨as, hL, hpw⟩ := laidL_copies hF hc r h2
  have L := laid_tensor (r := some (.prod (List.replicate r c))) hL
  generalize hq : ORule.newTensor (.sequence qs) (some (.prod (List.replicate r c))) = q at L
  clear h h0 h1 h2
  have hax : ∀ r, axesOfL (List.replicate r c) = List.replicate r c := by
    intro r
    induction r with
    | zero => rfl
    | succ r ih => rw [List.replicate_succ, axesOfL, ih, hc]; rfl
  have hcells : as.map Axis.cell = List.replicate r c := by rw [L.cells, axesOf, hax]
  have hl : as.length = r := by simpa using congrArg List.length hcells
  have hl3 : q.forget.pointSet.indices.length = as.length := by simpa using congrArg List.length L.ext
  refine ⟨by omega, ?_⟩
  intro σ hσ
  have hNE : NoEmpty (.prod (List.replicate r c)) := by
    have : ∀ r, NoEmptyL (List.replicate r c) := by
      intro r
      induction r with
      | zero => simp [NoEmptyL]
      | succ r ih =>
        rw [List.replicate_succ, NoEmptyL]
        refine ⟨?_, ih⟩
        cases c with
        | prod cs => exact absurd rfl (axesOf_simple (.prod cs) (.prod cs) (by rw [hc]; simp) cs)
        | _ => simp [NoEmpty]
    rw [NoEmpty]
    exact ⟨by simp; omega, this r⟩
  obtain ⟨W, k, hW, hk, -, hev⟩ := weightExpr_spec (n := n') (L.ok hNE)
  refine ⟨W, k, hW, fun ρ => ?_⟩
  have hnd := L.fresh.1
  obtain ⟨P, w, hP, hw⟩ : ∃ P w, (∀ a ∈ as, a.pts = P) ∧ ∀ a ∈ as, a.w = w := by
    cases has : as with
    | nil => exact ⟨[], [], by simp, by simp⟩
    | cons b bs =>
      refine ⟨b.pts, b.w, ?_, ?_⟩ <;>
      · intro a ha
        have e1 := hpw a (by rw [has]; exact ha)
        have e2 := hpw b (by rw [has]; simp)
        rw [e1] at e2
        simp only [Option.some.injEq, Prod.mk.injEq] at e2
        first | exact e2.1 | exact e2.2
  have hext : (as.map fun a => a.pts.length) = List.replicate r P.length := by
    rw [← hl]
    refine List.eq_replicate_iff.2 ⟨by simp, fun x hx => ?_⟩
    obtain ⟨a, ha, rfl⟩ := List.mem_map.1 hx
    rw [hP a ha]
  have hdim : r ≠ 0 → ∀ x ∈ P, x.length = c.spatialDim := by
    intro hr0 x hx
    obtain ⟨a, ha⟩ : ∃ a, a ∈ as := List.exists_mem_of_length_pos (by omega)
    have e := L.good a ha
    have ec : a.cell = c := by
      have : a.cell ∈ as.map Axis.cell := List.mem_map_of_mem ha
      rw [hcells] at this
      exact List.eq_of_mem_replicate this
    rw [← ec]
    exact e.dim x (by rw [hP a ha]; exact hx)
  have hInB : ∀ v, InB v (as.map fun a => a.pts.length) ↔ v.length = r ∧ ∀ j ∈ v, j < P.length := by
    intro v
    rw [hext]
    constructor
    · intro hv
      refine ⟨by rw [hv.length]; simp, fun j hj => ?_⟩
      obtain ⟨i, hi, rfl⟩ := List.mem_iff_getElem.1 hj
      have := List.Forall₂.get hv (i := i) (by simpa using hi) (by rw [← hv.length]; simpa using hi)
      simpa using this
    · rintro ⟨hv, hj⟩
      refine List.forall₂_iff_get.2 ⟨by simp [hv], fun i h1 h2 => ?_⟩
      have := hj _ (List.getElem_mem (l := v) (n := i) (by simpa using h1))
      simpa using this
  have hpt : ∀ v, InB v (as.map fun a => a.pts.length) →
      q.forget.pointSet.pointAt (bindIx ρ q.forget.pointSet.indices v) = (v.map fun j => P.getD j []).flatten ∧
      W.eval (bindIx ρ q.forget.pointSet.indices v) [] = (v.map fun j => (w[j]?).getD 0).prod := by
    intro v hv
    have hvl : v.length = as.length := by rw [hv.length]; simp
    have hb := map_bindIx ρ hnd (v := v) (by omega)
    exact ⟨by rw [PSet.at_eq hnd hb, L.point v hvl, axesPoint_copies hP hvl],
      by rw [hev, hb, L.weight v hvl, axesWeight_copies hw hvl]⟩
  have hmain : ∀ v ∈ ndindex (q.forget.pointSet.indices.map Index.extent),
        exchange σ v ∈ ndindex (q.forget.pointSet.indices.map Index.extent) ∧
        q.forget.pointSet.pointAt (bindIx ρ q.forget.pointSet.indices (exchange σ v)) =
          exchangeAxes c.spatialDim σ (q.forget.pointSet.pointAt (bindIx ρ q.forget.pointSet.indices v)) ∧
        W.eval (bindIx ρ q.forget.pointSet.indices (exchange σ v)) [] =
          W.eval (bindIx ρ q.forget.pointSet.indices v) [] := by
    intro v hv
    rw [L.ext] at hv ⊢
    have hv := mem_ndindex.1 hv
    obtain ⟨hvl, hvj⟩ := (hInB v).1 hv
    have hp : (exchange σ v).Perm v := map_getD_perm (by rw [hvl]; exact hσ)
    have hv2 : InB (exchange σ v) (as.map fun a => a.pts.length) :=
      (hInB _).2 ⟨by rw [hp.length_eq, hvl], fun j hj => hvj j (hp.subset hj)⟩
    refine ⟨mem_ndindex.2 hv2, ?_, ?_⟩
    · rw [(hpt _ hv2).1, (hpt _ hv).1]
      unfold exchange exchangeAxes
      rw [List.map_map]
      refine congrArg List.flatten (List.map_congr_left fun k hk => ?_)
      have hkr : k < v.length := by
        have := hσ.subset hk
        rw [List.mem_range] at this
        omega
      rw [piece_flatten (d := c.spatialDim) (k := k) ?_ (by simpa using hkr), List.getD_eq_getElem _ _ (by simpa using hkr)]
      · simp only [List.getElem_map, Function.comp_apply]
        rw [List.getD_eq_getElem _ _ hkr]
      · intro x hx
        obtain ⟨j, hj, rfl⟩ := List.mem_map.1 hx
        rw [List.getD_eq_getElem _ _ (hvj j hj)]
        exact hdim (by omega) _ (List.getElem_mem _)
    · rw [(hpt _ hv2).2, (hpt _ hv).2]
      exact (hp.map _).prod_eq
  refine ⟨hmain, fun f => ?_⟩
  have hperm : ((ndindex (q.forget.pointSet.indices.map Index.extent)).map (exchange σ)).Perm
      (ndindex (q.forget.pointSet.indices.map Index.extent)) := by
    refine perm_of_inj (nodup_ndindex _) (fun v hv => (hmain v hv).1) fun v hv w hw he => ?_
    rw [L.ext] at hv hw
    obtain ⟨hvl, -⟩ := (hInB v).1 (mem_ndindex.1 hv)
    obtain ⟨hwl, -⟩ := (hInB w).1 (mem_ndindex.1 hw)
    apply List.ext_getElem (by omega)
    intro i h1 h2
    have hi : i ∈ σ := hσ.symm.subset (List.mem_range.2 (by omega))
    obtain ⟨j, hj, rfl⟩ := List.mem_iff_getElem.1 hi
    have e := List.getElem_of_eq he (i := j) (by simpa [exchange] using hj)
    simp only [exchange, List.getElem_map] at e
    rwa [List.getD_eq_getElem _ _ h1, List.getD_eq_getElem _ _ h2] at e
  unfold quadSum
  refine Eq.trans ?_ (hperm.map _).sum_eq
  rw [List.map_map]
  refine congrArg List.sum (List.map_congr_left fun v hv => ?_)
  obtain ⟨-, h2, h3⟩ := hmain v hv
  simp only [Function.comp_apply]
  rw [h2, h3]

/-- A quadrilateral gets the rule of the product of two intervals. -/
theorem C73_quadrilateral (F : FiatOrient K) (scheme : String) (deg : Degree) :
    makeOriented F scheme .quad deg = makeOriented F scheme (.prod (List.replicate 2 (.simplex 1))) deg := by
  have hl : ∀ ds : List Degree, ds.length = 2 →
      (ds.take 2).mapM (makeSimpleO F scheme (.simplex 1)) = makeOrientedL F scheme [.simplex 1, .simplex 1] ds := by
    intro ds h
    match ds, h with
    | [a, b], _ =>
      have e : ∀ a, makeOriented F scheme (.simplex 1) a = makeSimpleO F scheme (.simplex 1) a := by
        intro a; rw [makeOriented] <;> simp
      simp only [List.take_succ_cons, List.take_zero, List.mapM_cons, List.mapM_nil, makeOrientedL, e]
  rw [makeOriented, makeOriented]
  simp only [List.replicate, List.length_cons, List.length_nil]
  by_cases h : (deg.expand 2).length = 2
  · rw [hl _ h]
  · have e : ∀ {α : Type} (f g : Unit → M α), (assertM (decide (2 = (deg.expand 2).length)) >>= f) =
        (assertM (decide (2 = (deg.expand 2).length)) >>= g) := by
      intro α f g
      rw [decide_eq_false fun e => h e.symm]
      rfl
    exact e _ _

/-! ### Examples -/

namespace QuadOrientExample

/-- Two points on the interval, the midpoint of the triangle without a map. -/
def F : FiatOrient ℚ where
  isMacro _ := false
  gauss _ := ([[1 / 4], [3 / 4]], [1 / 2, 1 / 2])
  scheme c _ _ := if c = .simplex 2 then .ok ([[1 / 3, 1 / 3]], [1 / 2]) else .error .valueError
  gaussMaps _ := [some [(0, [0, 1]), (1, [1, 0])]]
  schemeMaps _ _ _ := [none]
  extrinsic _ := .ok [(0, [[1, 0], [0, 1]]), (1, [[0, 1], [1, 0]])]

/-- The reflection of the interval. -/
def sym (_ : Cell) (o : Nat) (x : List ℚ) : List ℚ := if o = 0 then x else x.map (1 - ·)

theorem F_ok : OrientOK F sym where
  gaussDim n := by simp [F]
  gaussMap n := by
    refine ⟨_, rfl, ?_⟩
    intro m hm
    simp only [Option.some.injEq] at hm
    subst hm
    have key : ∀ o p, Dict.get? [(0, [0, 1]), (1, [1, 0])] o = some p → (o = 0 ∧ p = [0, 1]) ∨ (o = 1 ∧ p = [1, 0]) := by
      intro o p h
      match o with
      | 0 => left; simpa [Dict.get?] using h.symm
      | 1 => right; simpa [Dict.get?] using h.symm
      | o + 2 => simp [Dict.get?] at h
    constructor
    · intro o p h
      rcases key o p h with ⟨rfl, rfl⟩ | ⟨rfl, rfl⟩ <;> simp only [F] <;> decide
    · intro o p h
      rcases key o p h with ⟨rfl, rfl⟩ | ⟨rfl, rfl⟩ <;> intro j hj <;> (simp [F] at hj) <;>
        rcases (by omega : j = 0 ∨ j = 1) with rfl | rfl <;> simp [F, sym] <;> norm_num
    · intro o p h
      rcases key o p h with ⟨rfl, rfl⟩ | ⟨rfl, rfl⟩ <;> intro j hj <;> (simp [F] at hj) <;>
        rcases (by omega : j = 0 ∨ j = 1) with rfl | rfl <;> simp [F]
  schemeDim c d s pw h := by
    by_cases hc : c = .simplex 2
    · simp only [F, if_pos hc, Except.ok.injEq] at h
      subst h
      simp [hc, Cell.spatialDim]
    · simp [F, if_neg hc] at h
  schemeMap c d s pw h := ⟨none, rfl, by simp⟩

/-- A quadrilateral times an interval: three axes, the second one reflected. -/
example : ∃ q n' ms, makeOriented F "default" (.prod [.quad, .simplex 1]) (.int 2) 0 = .ok (q, n') ∧
    q.intrinsicMaps = .ok ms ∧ Selected ms [0, 1, 0] [[0, 1], [1, 0], [0, 1]] :=
  ⟨_, _, _, rfl, rfl, .cons rfl (.cons rfl (.cons rfl .nil)), rfl⟩

example := C73_symmetry F sym F_ok "default" (.prod [.quad, .simplex 1]) (by simp [NoEmpty, NoEmptyL]) (.int 2) 0 3 _ rfl _ rfl

/-- The maps of a prism over a triangle are refused. -/
example : ∃ q n', makeOriented F "default" (.prod [.simplex 2, .simplex 1]) (.int 2) 0 = .ok (q, n') ∧
    q.intrinsicMaps = .error .valueError := ⟨_, _, rfl, rfl⟩

example := C73_exchange F sym F_ok "default" (.simplex 1) rfl 2 (by omega) 3 0 2 _ rfl
example : [1, 0].Perm (List.range 2) := by decide

/-- One or two points on the interval. -/
def F' : FiatOrient ℚ := { F with
  gauss := fun n => if n = 1 then ([[1 / 2]], [1]) else ([[1 / 4], [3 / 4]], [1 / 2, 1 / 2])
  gaussMaps := fun n => if n = 1 then [some [(0, [0]), (1, [0])]] else [some [(0, [0, 1]), (1, [1, 0])]] }

/-- The condition of one degree is needed: with degrees 1 and 3 the axes of a quadrilateral have one and two points, so
exchanging them leads out of the point set. The exchange is offered nevertheless. -/
example : ∃ q n' eo, makeOriented F' "default" .quad (.tup [.int 1, .int 3]) 0 = .ok (q, n') ∧
    q.extrinsicMap F' = .ok eo ∧ eo.get? 1 = some [[0, 1], [1, 0]] ∧
    [0, 1] ∈ ndindex (q.forget.pointSet.indices.map Index.extent) ∧
    exchange [1, 0] [0, 1] ∉ ndindex (q.forget.pointSet.indices.map Index.extent) :=
  ⟨_, _, _, rfl, rfl, rfl, by decide +kernel, by decide +kernel⟩

end QuadOrientExample

end FInAT.Props
