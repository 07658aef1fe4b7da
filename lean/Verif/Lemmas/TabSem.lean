import Verif.Lemmas.FiatTab
import Verif.Lemmas.TabTree

/-!
# The two tabulation methods satisfy the assumptions of the tree theorem
-/

namespace FInAT

open Spec

variable {K : Type} [CommRing K] [DecidableEq K]

/-- Basis functions of the leaves: FIAT functions (mapped), and for a quadrature element the indicator
functions of its points. -/
def leafVals (F : Fiat K) (R : Rules K) : LeafVals K where
  leaf l α ent x i z := leafFn F l α ent x (i.headD 0) z
  quad r _ ext x i := if (R.pointSet r).pts[ravel ext i]? = some x then 1 else 0

/-- Conditions for tabulating a quadrature element: on the cell, no derivatives, the points (and the
index structure) of the rule, at least one point index, distinct points. -/
structure QuadOK (R : Rules K) (r : Nat) (c : Cell) (ext : List Nat) (order : Nat) (ps : PSet K)
    (ent : Dim × Nat) : Prop where
  cell : ent = (c.dimension, 0)
  order : order = 0
  equal : (R.pointSet r).almostEqual R.close ps = .ok true
  pts : ps.pts = (R.pointSet r).pts
  extents : ps.indices.map Index.extent = ext
  nonempty : ext ≠ []
  nodup : ps.pts.Nodup

omit [DecidableEq K] in
theorem quadBasisEvaluation_index {R : Rules K} {r : Nat} {c : Cell} {ext : List Nat} {order : Nat}
    {ps : PSet K} {entity : Option (Dim × Nat)} {n m : Nat} (hw : PSet.WF n ps) (hm : n ≤ m)
    (hent : entity.getD (c.dimension, 0) = (c.dimension, 0)) (ho : order = 0)
    (he : (R.pointSet r).almostEqual R.close ps = .ok true)
    (hx : ps.indices.map Index.extent = ext) (hne : ext ≠ []) :
    Runs (quadBasisEvaluation R r c ext order ps entity) m fun T m' => m ≤ m' ∧
      TabDen (fun _ => True) T c.spatialDim order ext fun _ ρ v =>
        if (ps.indices.map fun i => ρ i.id) = v then 1 else 0 := by
  unfold quadBasisEvaluation
  rw [if_neg (by
    rintro ⟨h1, h2⟩
    cases entity with
    | none => exact h1 rfl
    | some e => simp only [Option.getD_some] at hent; exact h2 (by rw [hent]))]
  rw [if_neg (by simp [ho])]
  apply Runs.bind
  refine Runs.liftE he ?_
  simp only [Bool.true_eq_false, if_false]
  apply Runs.bind
  apply Runs.freshIndices
  intro mi m1 hf em
  have hlen : ps.indices.length = mi.length := by
    rw [← List.length_map (f := Index.extent), hx, ← em, List.length_map]
  apply Runs.bind
  apply Runs.reduceProduct
  · intro h
    rw [List.map_eq_nil_iff, List.zip_eq_nil_iff] at h
    rcases h with h | h
    · rw [h] at hx; exact hne hx.symm
    · rw [h] at em; exact hne em.symm
  · intro e he
    obtain ⟨p, _, rfl⟩ := List.mem_map.1 he
    rfl
  intro p hp1 hp2
  apply Runs.bind
  apply Runs.mkComponentTensor hp1
  intro t ht1 ht2
  refine Runs.pure ⟨hf.2.2, by simp [Dict.keys], ?_, ?_⟩
  · intro α
    subst ho
    simp only [Dict.keys, List.map_cons, List.map_nil, List.mem_singleton]
    constructor
    · rintro rfl; simp
    · rintro ⟨h1, h2⟩
      rw [List.eq_replicate_iff]
      refine ⟨h1, fun b hb => ?_⟩
      have := List.single_le_sum (fun _ _ => Nat.zero_le _) b hb
      omega
  · intro α t' hget
    simp only [Dict.get?] at hget
    split at hget
    swap
    · cases hget
    cases hget
    refine ⟨by rw [ht1, em], fun ρ v _ hv => ?_⟩
    have hvl : v.length = mi.length := by
      rw [hv.length, ← em, List.length_map]
    rw [ht2 ρ v hvl, hp2]
    have hb := map_bindIx ρ hf.1 hvl
    have hag := bindIx_agree hf v ρ
    set ρ1 := bindIx ρ mi v with hρ1
    have hq : (ps.indices.map fun i => ρ i.id) = ps.indices.map fun i => ρ1 i.id :=
      (hag.symm.mono hm).map (PSet.indices_lt hw)
    rw [hq]
    have h1 : (ps.indices.zip mi).map (fun p => ρ1 p.1.id) = ps.indices.map fun i => ρ1 i.id := by
      rw [← List.map_fst_zip (l₁ := ps.indices) (l₂ := mi) (Nat.le_of_eq hlen), List.map_map]
      rw [List.map_fst_zip (l₁ := ps.indices) (l₂ := mi) (Nat.le_of_eq hlen)]
      rfl
    have h2 : (ps.indices.zip mi).map (fun p => ρ1 p.2.id) = mi.map fun i => ρ1 i.id := by
      conv_rhs => rw [← List.map_snd_zip (l₁ := ps.indices) (l₂ := mi) (Nat.le_of_eq hlen.symm)]
      rw [List.map_map]
      rfl
    have := deltas_eval (K := K) ps.indices mi ρ1
    rw [h1, h2, hb] at this
    rw [List.map_map]
    exact this

theorem quadBasisEvaluation_spec {F : Fiat K} {R : Rules K} {r : Nat} {c : Cell} {ext : List Nat} {order : Nat}
    {ps : PSet K} {entity : Option (Dim × Nat)} {n m : Nat} (hw : PSet.WF n ps) (hm : n ≤ m)
    (hok : QuadOK R r c ext order ps (entity.getD (c.dimension, 0))) :
    Runs (quadBasisEvaluation R r c ext order ps entity) m fun T m' => m ≤ m' ∧
      TabDen ps.Valid T c.spatialDim order ext fun _ ρ v =>
        (leafVals F R).quad r c ext (ps.pointAt ρ) v := by
  refine (quadBasisEvaluation_index hw hm hok.cell hok.order hok.equal hok.extents hok.nonempty).mono ?_
  rintro T m' ⟨h1, h2⟩
  refine ⟨h1, (h2.weaken fun _ _ => trivial).congr rfl ?_⟩
  intro α ρ v hV hv _
  have hat := (PSet.pts_at hw).2 hV
  have hin := PSet.inB_of_range hV
  rw [hok.extents] at hat hin
  simp only [leafVals]
  rw [← hok.pts]
  congr 1
  rw [eq_iff_iff]
  constructor
  · rintro rfl; exact hat
  · intro h
    have hl1 := (List.getElem?_eq_some_iff.1 hat).1
    have hinj := (List.getElem?_inj hl1 hok.nodup).1 (hat.trans h.symm)
    have := congrArg (unravel ext) hinj
    rwa [unravel_ravel hin, unravel_ravel hv] at this

/-- `basis_evaluation` satisfies the assumptions of the tree theorem. -/
def basisSem (F : Fiat K) (R : Rules K) : Sem (basisInterp F R) (leafVals F R) where
  at_ p ρ := p.pointAt ρ
  valid p ρ := p.Valid ρ
  wf := PSet.WF
  leafOK l order p ent := F.mapped l = none ∧ LeafOK F l order p ent
  quadOK := QuadOK R
  local_at h ha := PSet.pointAt_local h ha
  local_valid h := PSet.valid_local h
  factor := by
    intro n p cs ds ps hw hf
    have h0 := hf 0
    simp only [basisInterp, liftE] at h0
    cases hx : factorPointSet cs ds p with
    | error e => rw [hx] at h0; cases h0
    | ok qs =>
      rw [hx] at h0
      cases h0
      exact PSet.factorPointSet_ok hw hx
  forget h := ⟨h, fun _ hρ => ⟨hρ, rfl⟩⟩
  factor_forget _ _ _ := rfl
  leaf := by
    intro n m p l order entity hw hm hok
    simp only [basisInterp, leafBasisWith, hok.1, Option.isSome_none, Bool.false_and, Bool.false_eq_true, if_false]
    refine (leafBasisEvaluation_spec hw hm hok.2).mono ?_
    rintro T m' ⟨h1, h2⟩
    refine ⟨h1, h2.congr rfl ?_⟩
    intro α ρ v _ hv _
    cases hv with
    | cons _ _ => simp [leafVals]
  quad := by
    intro n m p r c ext order entity hw hm hok
    exact quadBasisEvaluation_spec hw hm hok

/-! ### Point evaluation -/

/-- The coordinates of a point expression. -/
def coords (p : Gem K) (ρ : Env) : List K := (List.range (p.shape.headD 0)).map fun j => p.eval ρ [j]

/-- A point expression: a vector whose free indices are numbered below `n`. -/
def PointWF (n : Nat) (p : Gem K) : Prop :=
  (∃ d, p.shape = [d]) ∧ ∀ ρ ρ' v, Agree n ρ ρ' → p.eval ρ v = p.eval ρ' v

/-- The symbolic tables are scalar expressions of the right value. -/
def SymOK (F : Fiat K) (S : SymTab K) (l : Leaf) (ent : Dim × Nat) (p : Gem K) : Prop :=
  ∀ α i z, (S l α ent p i z).shape = [] ∧ ∀ ρ, (S l α ent p i z).eval ρ [] = F.fn l α ent (coords p ρ) i z

/-- Conditions for evaluating a leaf at a point expression. -/
structure PointOK (F : Fiat K) (S : SymTab K) (l : Leaf) (p : Gem K) (ent : Dim × Nat) : Prop where
  unmapped : F.mapped l = none
  shape : p.shape = [ent.1.total]
  sym : SymOK F S l ent p
  fns : l.fns ≠ []
  value : l.valueShape.prod ≠ 0

omit [DecidableEq K] in
theorem coords_local {n : Nat} {p : Gem K} {ρ ρ' : Env} (h : PointWF n p) (ha : Agree n ρ ρ') :
    coords p ρ = coords p ρ' := by
  simp only [coords]
  exact List.map_congr_left fun j _ => h.2 ρ ρ' [j] ha

omit [DecidableEq K] in
theorem fiatPointEvaluation_spec {F : Fiat K} {S : SymTab K} {l : Leaf} {p : Gem K} {order n m : Nat}
    {entity : Option (Dim × Nat)} (hw : PointWF n p) (hm : n ≤ m)
    (hok : PointOK F S l p (entity.getD (l.cell.dimension, 0))) :
    Runs (fiatPointEvaluation F S l order p entity) m fun T m' => m ≤ m' ∧
      TabDen (fun _ => True) T l.cell.spatialDim order (l.fns.length :: l.valueShape) fun α ρ v =>
        leafFn F l α (entity.getD (l.cell.dimension, 0)) (coords p ρ) (v.headD 0) (v.drop 1) := by
  unfold fiatPointEvaluation leafFn
  simp only [hok.unmapped, Option.isSome_none, Bool.false_eq_true, if_false]
  apply Runs.bind
  apply Runs.assertM (by simp [hok.shape])
  apply mapM_keys_spec
  intro α _ _ n' hn'
  set ent := entity.getD (l.cell.dimension, 0) with hent
  unfold fiatPointTable
  apply Runs.bind
  have H : Runs ((List.range l.valueShape.prod).mapM fun c =>
      mkListTensor [l.fns.length] ((List.range l.fns.length).map fun i => S l α ent p i (unravel l.valueShape c))) n'
      fun es m' => n' ≤ m' ∧ List.Forall₂ (fun c e => Den (fun _ => True) e [l.fns.length] fun ρ v =>
        F.fn l α ent (coords p ρ) (v.headD 0) (unravel l.valueShape c)) (List.range l.valueShape.prod) es := by
    apply Runs.mapM
    intro c _ k _
    apply Runs.mkListTensor
    · simpa using hok.fns
    · simp
    · intro e he
      obtain ⟨i, _, rfl⟩ := List.mem_map.1 he
      exact (hok.sym α i _).1
    intro r hr1 hr2
    refine ⟨Nat.le_refl _, hr1, fun ρ v _ hv => ?_⟩
    cases hv with
    | @cons i _ _ _ hi ht =>
      cases ht
      rw [hr2]
      simp only [ravel_cons, ravel_nil, List.prod_nil, Nat.mul_one, Nat.add_zero, List.getElem?_map,
        List.getElem?_range hi, Option.map_some, Option.getD_some, List.headD_cons]
      exact (hok.sym α i _).2 ρ
  refine H.mono ?_
  rintro exprs m1 ⟨h1, hes⟩
  have hlen : exprs.length = l.valueShape.prod := by rw [← hes.length_eq]; simp
  have hd : ∀ c (h : c < exprs.length), Den (fun _ => True) exprs[c] [l.fns.length] fun ρ v =>
        F.fn l α ent (coords p ρ) (v.headD 0) (unravel l.valueShape c) := by
    intro c h
    have := hes.get (by simpa using hlen ▸ h) h
    simpa using this
  split
  · next hv =>
    rw [hv] at hlen
    match exprs, hlen, hd with
    | [e], _, hd =>
      refine Runs.pure ⟨h1, ?_⟩
      have h0 := hd 0 (by simp)
      rw [hv]
      refine ⟨h0.shape, fun ρ v hρ hvb => ?_⟩
      rw [show [e][0] = e from rfl] at h0
      rw [h0.val ρ v hρ hvb]
      cases hvb with
      | cons _ ht => cases ht; simp [unravel, hv]
  · refine (assemble_spec (n0 := n) (by omega) (fun _ _ _ _ => trivial) hok.value hlen ?_ hd).mono ?_
    · intro c ρ ρ' v ha
      simp only [coords_local hw ha]
    · rintro t m2 ⟨h2, h3⟩
      refine ⟨Nat.le_trans h1 h2, h3.shape, fun ρ v hρ hv => ?_⟩
      rw [h3.val ρ v hρ hv]
      cases hv with
      | cons hi hz =>
        simp only [List.drop_succ_cons, List.drop_zero, List.headD_cons, unravel_ravel hz]

/-- One factor of a point expression. -/
def pointPart (p : Gem K) (s : List Nat) : Gem K :=
  .listTensor [s.length] (s.map fun i => .indexed p [.fixed i])

omit [CommRing K] [DecidableEq K] in
theorem mapM_const {α β : Type} {f : α → M β} {g : α → β} (l : List α) (n : Nat)
    (h : ∀ a ∈ l, f a n = .ok (g a, n)) : l.mapM f n = .ok (l.map g, n) := by
  induction l with
  | nil => rfl
  | cons a l ih =>
    rw [List.mapM_cons]
    show (f a n >>= fun p => (l.mapM f >>= fun bs => pure (p.1 :: bs)) p.2) = _
    rw [h a List.mem_cons_self]
    show (l.mapM f n >>= fun q => _) = _
    rw [ih fun b hb => h b (List.mem_cons_of_mem _ hb)]
    rfl

omit [CommRing K] [DecidableEq K] in
theorem pointPart_run {p : Gem K} {D : Nat} (hp : p.shape = [D]) {s : List Nat} (hs : ∀ i ∈ s, i < D)
    (n : Nat) :
    ((do
      let es ← s.mapM fun i => mkIndexed p [.fixed i]
      mkListTensor [s.length] es) : M (Gem K)) n =
      if s = [] then .error .assertionError else .ok (pointPart p s, n) := by
  have h1 : s.mapM (fun i => mkIndexed p [.fixed i]) n = .ok (s.map fun i => Gem.indexed p [.fixed i], n) := by
    apply mapM_const
    intro i hi
    simp only [mkIndexed, hp]
    rw [show fitsShape [Ix.fixed i] [D] = true by simp [fitsShape, Ix.fits, hs i hi]]
    rfl
  show (s.mapM (fun i => mkIndexed p [.fixed i]) n >>= fun q => mkListTensor [s.length] q.1 q.2) = _
  rw [h1]
  show mkListTensor [s.length] _ n = _
  unfold mkListTensor
  split
  · next h => subst h; rfl
  · next h =>
    have : (decide ((s.map fun i => Gem.indexed p [.fixed i]) ≠ []) &&
        decide ((s.map fun i => Gem.indexed p [.fixed i]).length = [s.length].prod) &&
        (s.map fun i => Gem.indexed p [.fixed i]).all fun e => decide (e.shape = [])) = true := by
      simp [h, Gem.shape]
    rw [this]
    rfl

omit [DecidableEq K] in
omit [CommRing K] in
theorem factorPoint_eq {cs : List Cell} {ds : List Dim} {p : Gem K} {n : Nat} {ps : List (Gem K)} {n' : Nat}
    (h : factorPoint cs ds p n = .ok (ps, n')) :
    cs.length = ds.length ∧ p.shape = [(ds.map Dim.total).sum] ∧
      ps = (splitLens (ds.map Dim.total) (List.range (ds.map Dim.total).sum)).map (pointPart p) ∧
      ∀ d ∈ ds.map Dim.total, d ≠ 0 := by
  unfold factorPoint at h
  by_cases h1 : cs.length = ds.length
  swap
  · simp only [h1, decide_false] at h; cases h
  by_cases h2 : p.shape = [(ds.map Dim.total).sum]
  swap
  · simp only [h1, h2, decide_true, decide_false] at h; cases h
  refine ⟨h1, h2, ?_⟩
  simp only [h1, h2, decide_true] at h
  have h3 : (splitLens (ds.map Dim.total) (List.range (ds.map Dim.total).sum)).mapM (fun s => (do
      let es ← s.mapM fun i => mkIndexed p [.fixed i]
      mkListTensor [s.length] es : M (Gem K))) n = .ok (ps, n') := h
  clear h
  have key : ∀ (L : List (List Nat)) (ps : List (Gem K)) (n : Nat),
      (∀ s ∈ L, ∀ i ∈ s, i < (ds.map Dim.total).sum) →
      L.mapM (fun s => (do
        let es ← s.mapM fun i => mkIndexed p [.fixed i]
        mkListTensor [s.length] es : M (Gem K))) n = .ok (ps, n') →
      ps = L.map (pointPart p) ∧ ∀ s ∈ L, s ≠ [] := by
    intro L
    induction L with
    | nil => intro ps n _ h; cases h; simp
    | cons s L ih =>
      intro ps n hin h
      rw [List.mapM_cons] at h
      have h' : (((do
        let es ← s.mapM fun i => mkIndexed p [.fixed i]
        mkListTensor [s.length] es : M (Gem K))) n >>= fun q => (L.mapM (fun s => (do
        let es ← s.mapM fun i => mkIndexed p [.fixed i]
        mkListTensor [s.length] es : M (Gem K))) >>= fun bs => pure (q.1 :: bs)) q.2) = .ok (ps, n') := h
      rw [pointPart_run h2 (hin s List.mem_cons_self)] at h'
      by_cases hs : s = []
      · rw [if_pos hs] at h'; cases h'
      · rw [if_neg hs] at h'
        have h'' : (L.mapM (fun s => (do
          let es ← s.mapM fun i => mkIndexed p [.fixed i]
          mkListTensor [s.length] es : M (Gem K))) n >>= fun r => (pure (pointPart p s :: r.1, r.2) : Except Err _)) = .ok (ps, n') := h'
        rw [bind_ok] at h''
        obtain ⟨⟨r, k⟩, hr, h''⟩ := h''
        cases h''
        obtain ⟨e1, e2⟩ := ih r n (fun t ht => hin t (List.mem_cons_of_mem _ ht)) hr
        refine ⟨by rw [e1]; rfl, ?_⟩
        intro t ht
        rcases List.mem_cons.1 ht with rfl | ht
        · exact hs
        · exact e2 t ht
  obtain ⟨e1, e2⟩ := key _ ps n (fun s hs i hi => List.mem_range.1 (splitLens_subset hs i hi)) h3
  refine ⟨e1, ?_⟩
  generalize ds.map Dim.total = ns at e2
  have : ∀ (ns : List Nat) (l : List Nat), (∀ s ∈ splitLens ns l, s ≠ []) → ∀ d ∈ ns, d ≠ 0 := by
    intro ns
    induction ns with
    | nil => intro l _ d hd; simp at hd
    | cons a ns ih =>
      intro l hl d hd
      simp only [splitLens] at hl
      rcases List.mem_cons.1 hd with rfl | hd
      · rintro rfl
        exact hl _ List.mem_cons_self (by simp)
      · exact ih _ (fun s hs => hl s (List.mem_cons_of_mem _ hs)) d hd
  exact this ns _ e2

omit [DecidableEq K] in
theorem coords_part {p : Gem K} {D : Nat} (hp : p.shape = [D]) {s : List Nat} (hs : ∀ i ∈ s, i < D) (ρ : Env) :
    coords (pointPart p s) ρ = s.filterMap fun c => (coords p ρ)[c]? := by
  have e1 : coords (pointPart p s) ρ = s.map fun i => p.eval ρ [i] := by
    simp only [coords, pointPart, Gem.shape, List.headD_cons]
    apply List.ext_getElem (by simp)
    intro k h1 h2
    simp only [List.getElem_map, List.getElem_range, Gem.eval, ravel_cons, ravel_nil, List.prod_nil,
      Nat.mul_one, Nat.add_zero, evalNth_eq, List.getElem?_map]
    rw [List.getElem?_eq_getElem (by simpa using h2)]
    simp [Gem.eval, Ix.val]
  rw [e1]
  have hlen : (coords p ρ).length = D := by simp [coords, hp]
  rw [filterMap_getElem_range (coords p ρ) s (fun c hc => by rw [hlen]; exact hs c hc)]
  apply List.ext_getElem (by simp)
  intro k h1 h2
  simp [coords]

/-- `point_evaluation` satisfies the assumptions of the tree theorem. -/
def pointSem (F : Fiat K) (R : Rules K) (S : SymTab K) : Sem (pointInterp F S) (leafVals F R) where
  at_ := coords
  valid _ _ := True
  wf := PointWF
  leafOK l _ p ent := PointOK F S l p ent
  quadOK _ _ _ _ _ _ := False
  local_at h ha := coords_local h ha
  local_valid _ := fun _ _ _ _ => trivial
  factor := by
    intro n p cs ds ps hw hf
    obtain ⟨h1, h2, h3, h4⟩ := factorPoint_eq (hf 0)
    subst h3
    refine ⟨?_, fun ρ _ => ⟨fun _ _ => trivial, ?_⟩⟩
    · intro q hq
      obtain ⟨s, hs, rfl⟩ := List.mem_map.1 hq
      refine ⟨⟨s.length, rfl⟩, fun ρ ρ' v ha => ?_⟩
      simp only [pointPart, Gem.eval, evalNth_eq, List.getElem?_map]
      cases s[ravel [s.length] v]? with
      | none => rfl
      | some i => simp only [Option.map_some, Option.getD_some, Gem.eval, List.map_cons, List.map_nil, Ix.val]; exact hw.2 ρ ρ' _ ha
    · rw [List.map_map]
      have hlen : (coords p ρ).length = (ds.map Dim.total).sum := by simp [coords, h2]
      have := split_columns (ds.map Dim.total) (coords p ρ) 0 (by rw [Nat.zero_add, hlen])
      rw [List.drop_zero, ← List.range_eq_range'] at this
      rw [← this]
      apply List.map_congr_left
      intro s hs
      exact coords_part h2 (fun i hi => List.mem_range.1 (splitLens_subset hs i hi)) ρ
  forget h := ⟨h, fun _ hρ => ⟨hρ, rfl⟩⟩
  factor_forget _ _ _ := rfl
  leaf := by
    intro n m p l order entity hw hm hok
    refine (fiatPointEvaluation_spec hw hm hok).mono ?_
    rintro T m' ⟨h1, h2⟩
    refine ⟨h1, h2.congr rfl ?_⟩
    intro α ρ v _ hv _
    cases hv with
    | cons _ _ => simp [leafVals]
  quad := by
    intro n m p r c ext order entity hw hm hok
    exact hok.elim

end FInAT
