import Verif.Lemmas.Kronecker
import Verif.Props.TabExamples
import Verif.Lemmas.EntityPoint

/-!
# C104: element matrices of tensor products are Kronecker products
-/

namespace FInAT.Props

open FInAT Spec

variable {K : Type} [CommRing K] [DecidableEq K]

theorem product_rule {rs : List (QRule K)} (hne : rs ≠ []) (h : ∀ q ∈ rs, RuleOK q) : RuleOK (.tensor rs) := by
  rw [RuleOK]
  refine ⟨hne, ?_⟩
  clear hne
  induction rs with
  | nil => simp [RuleOKL]
  | cons q qs ih =>
    rw [RuleOKL]
    exact ⟨h q List.mem_cons_self, ih fun x hx => h x (List.mem_cons_of_mem _ hx)⟩

theorem pointSetL_map (rs : List (QRule K)) : QRule.pointSetL rs = rs.map QRule.pointSet := by
  induction rs with
  | nil => rfl
  | cons q qs ih => simp [QRule.pointSetL, ih]

theorem product_wf {rs : List (QRule K)} {n : Nat} (h : ∀ q ∈ rs, q.pointSet.WF n) : (QRule.tensor rs).pointSet.WF n := by
  rw [QRule.pointSet, PSet.WF]
  induction rs with
  | nil => simp [QRule.pointSetL, PSet.WFL]
  | cons q qs ih =>
    rw [QRule.pointSetL, PSet.WFL]
    exact ⟨h q List.mem_cons_self, ih fun x hx => h x (List.mem_cons_of_mem _ hx)⟩

theorem nodup_factor {rs : List (QRule K)} (h : ((QRule.tensor rs).pointSet.indices.map Index.id).Nodup) :
    ∀ q ∈ rs, (q.pointSet.indices.map Index.id).Nodup := by
  rw [QRule.pointSet, PSet.indices] at h
  induction rs with
  | nil => simp
  | cons q qs ih =>
    rw [QRule.pointSetL, PSet.indicesL, List.map_append, List.nodup_append] at h
    intro x hx
    rcases List.mem_cons.1 hx with rfl | hx
    · exact h.1
    · exact ih h.2.1 x hx

/-- A product of elements can be tabulated at the points of a product of rules on the cells of the factors. -/
theorem admits_product {F : Fiat K} {R : Rules K} {order : Nat} {fs : List Elem} {rs : List (QRule K)} {cs : List Cell}
    (hc : Elem.cellL fs = .ok cs) (hf : List.Forall₂ (fun q (c : Cell) => PSet.Fits q.pointSet c.spatialDim) rs cs)
    (ha : AdmitsZip (basisSem F R) order fs (rs.map QRule.pointSet) (cs.map fun c => (c.dimension, 0))) :
    Admits (basisSem F R) order (.tensorProduct fs) (QRule.tensor rs).pointSet ((Cell.prod cs).dimension, 0) := by
  simp only [Admits, QRule.pointSet, pointSetL_map]
  refine ⟨cs, _, rs.map QRule.pointSet, hc, factorEntity_cell cs, ?_, ha⟩
  intro m
  have hfit : List.Forall₂ (fun q (c : Cell) => PSet.Fits q c.spatialDim) (rs.map QRule.pointSet) cs :=
    List.forall₂_map_left_iff.2 hf
  have hlen := hfit.length_eq
  have hdims := fits_dims hfit
  simp only [basisInterp]
  have : factorPointSet cs (List.map Prod.fst (cs.map fun c => (c.dimension, 0))) (.tensor (rs.map QRule.pointSet)) =
      .ok (rs.map QRule.pointSet) := by
    unfold factorPointSet
    simp only [List.length_map] at hlen
    simp [hlen, hdims, Function.comp_def, Cell.total_dimension, bind, Except.bind]
  rw [this]
  rfl

/-- The conditions on a factor on cell `c`: a rule made by the constructors with points in `c`, at which the element
can be tabulated; the weights and the table are those of the rule and of the element. -/
structure FactorRunOK (F : Fiat K) (R : Rules K) (order n : Nat) (x : FactorRun K) (c : Cell) : Prop where
  rule : RuleOK x.rule
  points : x.rule.pointSet.WF n
  fits : x.rule.pointSet.Fits c.spatialDim
  admits : Admits (basisSem F R) order x.elem x.rule.pointSet (c.dimension, 0)
  weights : ∃ n', x.rule.weightExpr n = .ok (x.weights, n')
  table : ∃ n', evaluate (basisInterp F R) x.elem order x.rule.pointSet none n = .ok (x.table, n')

theorem entry_ok {F : Fiat K} {R : Rules K} {order n : Nat} {e : FactorEntry K} {c : Cell} {vs : List Nat}
    (hs : Shaped e.run.elem) (hc : e.run.elem.cell = .ok c) (hv : e.run.elem.valueShape = .ok vs)
    (hn : (e.run.rule.pointSet.indices.map Index.id).Nodup) (hx : FactorRunOK F R order n e.run c) (he : e.OK)
    (ρ : Nat → Nat) : EntryOK (leafVals F R) ρ e c := by
  have hvs : vshape e.run.elem = vs := by simp [vshape, hv]
  obtain ⟨n₁, hw⟩ := hx.weights
  obtain ⟨n₂, ht⟩ := hx.table
  obtain ⟨W, n₃, hw', -, -, hW⟩ := weightExpr_spec (n := n) hx.rule
  rw [hw] at hw'
  cases hw'
  obtain ⟨T, n₄, ht', hT⟩ := tabulation (basisSem F R) e.run.elem hs order e.run.rule.pointSet none c vs n n hx.points
    (Nat.le_refl n) hc hv hx.admits
  rw [ht] at ht'
  cases ht'
  have hα := (hT.keys e.α).1 (by rw [← Dict.get?_isSome_iff, he.row]; rfl)
  have hβ := (hT.keys e.β).1 (by rw [← Dict.get?_isSome_iff, he.col]; rfl)
  exact {
    dim := by simp [sdim, hc]
    α := hα.1
    β := hβ.1
    i := he.i.length_eq
    j := he.j.length_eq
    z := he.z.length_eq
    w := he.w.length_eq
    width := hx.fits.2.2
    value := formEntry_eq hx.rule hn hW
      (f := fun x => basisValue (leafVals F R) e.run.elem e.α (c.dimension, 0) x e.i e.z)
      (g := fun x => basisValue (leafVals F R) e.run.elem e.β (c.dimension, 0) x e.j e.w)
      (fun ρ hV => hT.value _ _ he.row ρ _ _ hV he.i (by rw [← hvs]; exact he.z))
      (fun ρ hV => hT.value _ _ he.col ρ _ _ hV he.j (by rw [← hvs]; exact he.w)) ρ }

theorem entries_ok {F : Fiat K} {R : Rules K} {order n : Nat} (ρ : Nat → Nat) : ∀ {es : List (FactorEntry K)} {cs : List Cell}
    {vss : List (List Nat)},
    (∀ e ∈ es, Shaped e.run.elem ∧ (e.run.rule.pointSet.indices.map Index.id).Nodup ∧ e.OK) →
    Elem.cellL (es.map fun e => e.run.elem) = .ok cs → Elem.valueShapeL (es.map fun e => e.run.elem) = .ok vss →
    List.Forall₂ (FactorRunOK F R order n) (es.map FactorEntry.run) cs →
    List.Forall₂ (EntryOK (leafVals F R) ρ) es cs ∧
      InRange (es.map FactorEntry.i).flatten (es.map fun e => e.run.elem.indexShape).flatten ∧
      InRange (es.map FactorEntry.j).flatten (es.map fun e => e.run.elem.indexShape).flatten ∧
      InRange (es.map FactorEntry.z).flatten vss.flatten ∧ InRange (es.map FactorEntry.w).flatten vss.flatten
  | [], cs, vss, h, hc, hv, hx => by
    cases hc
    cases hv
    simp
  | e :: es, cs, vss, h, hc, hv, hx => by
    obtain ⟨c, cs', hc1, hc2, rfl⟩ := cellL_cons hc
    obtain ⟨v, vss', hv1, hv2, rfl⟩ := valueShapeL_cons hv
    rw [List.map_cons, List.forall₂_cons] at hx
    obtain ⟨h1, h2, h3⟩ := h e List.mem_cons_self
    obtain ⟨i1, i2, i3, i4, i5⟩ := entries_ok ρ (fun e he => h e (List.mem_cons_of_mem _ he)) hc2 hv2 hx.2
    have hz := h3.z
    have hw := h3.w
    rw [show vshape e.run.elem = v by simp [vshape, hv1]] at hz hw
    refine ⟨.cons (entry_ok h1 hc1 hv1 h2 hx.1 h3 ρ) i1, ?_⟩
    simp only [List.map_cons, List.flatten_cons]
    exact ⟨InB.append h3.i i2, InB.append h3.j i3, InB.append hz i4, InB.append hw i5⟩

theorem indexShape_product (fs : List Elem) : (Elem.tensorProduct fs).indexShape = (fs.map Elem.indexShape).flatten := by
  simp only [Elem.indexShape]
  induction fs with
  | nil => rfl
  | cons f fs ih => simp [Elem.indexShapeL, ih]

theorem admitsZip_runs {F : Fiat K} {R : Rules K} {order n : Nat} {L : List (FactorRun K)} {cs : List Cell}
    (h : List.Forall₂ (FactorRunOK F R order n) L cs) :
    AdmitsZip (basisSem F R) order (L.map FactorRun.elem) ((L.map FactorRun.rule).map QRule.pointSet)
      (cs.map fun c => (c.dimension, 0)) := by
  induction h with
  | nil => simp [AdmitsZip]
  | cons h _ ih =>
    simp only [List.map_cons, AdmitsZip]
    exact ⟨h.admits, ih⟩

/-- **C104.** For a tensor product element and a product of rules on the cells of its factors, every entry of an
element matrix (any derivatives, any pair of functions, any components) is the product of the corresponding entries of
the matrices of the factors: with multi-indices as row and column numbers, the matrix is the Kronecker product. -/
theorem C104_kronecker (F : Fiat K) (R : Rules K) (order n : Nat) (L : List (FactorRun K)) (cs : List Cell)
    (vs : List Nat) (hne : L ≠ []) (hs : Shaped (.tensorProduct (L.map FactorRun.elem)))
    (hc : Elem.cellL (L.map FactorRun.elem) = .ok cs)
    (hv : (Elem.tensorProduct (L.map FactorRun.elem)).valueShape = .ok vs)
    (hx : List.Forall₂ (FactorRunOK F R order n) L cs)
    (hn : ((QRule.tensor (L.map FactorRun.rule)).pointSet.indices.map Index.id).Nodup) :
    Yields (QRule.tensor (L.map FactorRun.rule)).weightExpr n fun W =>
      Yields (evaluate (basisInterp F R) (.tensorProduct (L.map FactorRun.elem)) order
        (QRule.tensor (L.map FactorRun.rule)).pointSet none) n fun T =>
        ∀ es : List (FactorEntry K), es.map FactorEntry.run = L → (∀ e ∈ es, e.OK) → ∀ t s,
          T.get? (es.map FactorEntry.α).flatten = some t → T.get? (es.map FactorEntry.β).flatten = some s → ∀ ρ,
          formEntry W (QRule.tensor (L.map FactorRun.rule)).pointSet ρ t s
              ((es.map FactorEntry.i).flatten ++ (es.map FactorEntry.z).flatten)
              ((es.map FactorEntry.j).flatten ++ (es.map FactorEntry.w).flatten) =
            (es.map fun e => e.value ρ).prod := by
  have hmem : ∀ x ∈ L, ∃ c, FactorRunOK F R order n x c := by
    clear * - hx
    induction hx with
    | nil => simp
    | cons h _ ih =>
      intro x hm
      rcases List.mem_cons.1 hm with rfl | hm
      · exact ⟨_, h⟩
      · exact ih x hm
  have hok : RuleOK (QRule.tensor (L.map FactorRun.rule)) := product_rule (by simpa using hne) fun q hq => by
    obtain ⟨x, hxL, rfl⟩ := List.mem_map.1 hq
    exact (hmem x hxL).elim fun c h => h.rule
  have hw : (QRule.tensor (L.map FactorRun.rule)).pointSet.WF n := product_wf fun q hq => by
    obtain ⟨x, hxL, rfl⟩ := List.mem_map.1 hq
    exact (hmem x hxL).elim fun c h => h.points
  have hcell : (Elem.tensorProduct (L.map FactorRun.elem)).cell = .ok (.prod cs) := by
    simp [Elem.cell, hc, bind, Except.bind, pure, Except.pure]
  have ha : Admits (basisSem F R) order (.tensorProduct (L.map FactorRun.elem))
      (QRule.tensor (L.map FactorRun.rule)).pointSet ((Cell.prod cs).dimension, 0) :=
    admits_product hc (List.forall₂_map_left_iff.2 (hx.imp fun _ _ h => h.fits)) (admitsZip_runs hx)
  obtain ⟨W, n₁, h1, -, -, hW⟩ := weightExpr_spec (n := n) hok
  obtain ⟨T, n₂, h2, hT⟩ := tabulation (basisSem F R) (.tensorProduct (L.map FactorRun.elem)) hs order
    (QRule.tensor (L.map FactorRun.rule)).pointSet none (.prod cs) vs n n hw (Nat.le_refl n) hcell hv ha
  refine ⟨W, n₁, h1, T, n₂, h2, ?_⟩
  intro es hes he t s ht hs' ρ
  have hv' := hv
  simp only [Elem.valueShape] at hv'
  rw [bind_ok] at hv'
  obtain ⟨vss, hvss, hpv⟩ := hv'
  have hfl := prodValueShape_flatten hpv
  have hmapE : L.map FactorRun.elem = es.map fun e => e.run.elem := by rw [← hes, List.map_map]; rfl
  have hmapR : L.map FactorRun.rule = es.map fun e => e.run.rule := by rw [← hes, List.map_map]; rfl
  have hs0 := hs
  simp only [Shaped] at hs0
  obtain ⟨i1, i2, i3, i4, i5⟩ := entries_ok (F := F) (R := R) (order := order) (n := n) ρ (es := es)
    (fun e h => ⟨hs0.2 _ (by rw [hmapE]; exact List.mem_map_of_mem h),
      nodup_factor hn _ (by rw [hmapR]; exact List.mem_map_of_mem h), he e h⟩)
    (by rw [← hmapE]; exact hc) (by rw [← hmapE]; exact hvss) (by rw [hes]; exact hx)
  have hish : (Elem.tensorProduct (L.map FactorRun.elem)).indexShape =
      (es.map fun e => e.run.elem.indexShape).flatten := by
    rw [indexShape_product, hmapE, List.map_map]
    rfl
  rw [formEntry_eq hok hn hW
    (f := fun x => basisValue (leafVals F R) (.tensorProduct (L.map FactorRun.elem)) (es.map FactorEntry.α).flatten
      ((Cell.prod cs).dimension, 0) x (es.map FactorEntry.i).flatten (es.map FactorEntry.z).flatten)
    (g := fun x => basisValue (leafVals F R) (.tensorProduct (L.map FactorRun.elem)) (es.map FactorEntry.β).flatten
      ((Cell.prod cs).dimension, 0) x (es.map FactorEntry.j).flatten (es.map FactorEntry.w).flatten)
    (fun ρ hV => hT.value _ _ ht ρ _ _ hV (by rw [hish]; exact i2) (by rw [hfl]; exact i4))
    (fun ρ hV => hT.value _ _ hs' ρ _ _ hV (by rw [hish]; exact i3) (by rw [hfl]; exact i5)) ρ]
  have hents : factorEnts (L.map FactorRun.elem) ((Cell.prod cs).dimension, 0) = cs.map fun c => (c.dimension, 0) := by
    simp only [factorEnts, hc, bind, Except.bind, factorEntity_cell]
  simp only [iterSum, basisValue, hents]
  rw [hmapR, hmapE]
  exact kronecker i1

/-- **C104**, quadrilaterals and hexahedra: the table of a flattened product is the table of the product, so that
the matrices are the same. -/
theorem C104_cube (F : Fiat K) (R : Rules K) (order : Nat) (fs : List Elem) (cs : List Cell) (cf : Cell)
    (hc : Elem.cellL fs = .ok cs) (hcf : (Elem.flattened (.tensorProduct fs)).cell = .ok cf) (hcube : IsCube (.prod cs))
    (ps : PSet K) (n : Nat) :
    evaluate (basisInterp F R) (.flattened (.tensorProduct fs)) order ps none n =
      evaluate (basisInterp F R) (.tensorProduct fs) order ps none n := by
  have hcell : (Elem.tensorProduct fs).cell = .ok (.prod cs) := by
    simp [Elem.cell, hc, bind, Except.bind, pure, Except.pure]
  have hu := (unflatten_cell hcell hcf hcube).1
  have hdim : cf.dimension = .int cf.spatialDim := by
    simp only [Elem.cell, hc, bind, Except.bind, pure, Except.pure] at hcf
    split at hcf
    · cases hcf; rfl
    · split at hcf
      · cases hcf; rfl
      · cases hcf
  have hun : unflattenEntity (.tensorProduct fs) none = .ok ((Cell.prod cs).dimension, 0) := by
    rw [hdim] at hu
    simp only [unflattenEntity, hcell, hcf, bind, Except.bind] at hu ⊢
    exact hu
  have h : evaluate (basisInterp F R) (.flattened (.tensorProduct fs)) order ps none =
      liftE (unflattenEntity (.tensorProduct fs) none) >>= fun ent =>
        evaluate (basisInterp F R) (.tensorProduct fs) order ps (some ent) := by
    rw [evaluate]
    rfl
  rw [h, hun]
  show evaluate (basisInterp F R) (.tensorProduct fs) order ps (some ((Cell.prod cs).dimension, 0)) n = _
  simp only [evaluate, hc]
  rfl

/-! ### Spectral elements -/

/-- The conditions on a factor: a spectral element (`GaussLobattoLegendre`, `GaussLegendre`) without basis
transformation, a rule of the same class with one point per node. -/
structure NodalFactorOK (F : Fiat K) (order n : Nat) (x : NodalFactor K) : Prop where
  unmapped : F.mapped x.leaf = none
  spectral : F.spectral x.leaf = some x.cls
  leaf : LeafOK F x.leaf order x.points (x.leaf.cell.dimension, 0)
  length : x.pts.length = x.leaf.fns.length
  weights : x.weights.length = x.pts.length
  extent : x.index.extent = x.pts.length
  fresh : x.index.id < n
  width : ∀ p ∈ x.pts, p.length = x.leaf.cell.spatialDim

theorem NodalFactorOK.sum {F : Fiat K} {R : Rules K} {x : NodalFactor K} {order n : Nat} (h : NodalFactorOK F order n x)
    {i j : Nat} (hi : i < x.leaf.fns.length) (hj : j < x.leaf.fns.length) :
    iterSum x.rule (fun p =>
      basisValue (leafVals F R) (.leaf x.leaf) (List.replicate x.leaf.cell.spatialDim 0) (x.leaf.cell.dimension, 0) p [i] [] *
      basisValue (leafVals F R) (.leaf x.leaf) (List.replicate x.leaf.cell.spatialDim 0) (x.leaf.cell.dimension, 0) p [j] []) =
    if i = j then x.weights.getD i 0 else 0 := by
  obtain ⟨-, -, hN⟩ := h.leaf.nodal h.unmapped _ h.spectral rfl h.length
  simp only [NodalFactor.rule, NodalFactor.points, iterSum, basisValue, leafVals, leafFn, h.unmapped, PSet.pts,
    List.headD_cons] at hN ⊢
  have hl : x.pts.length = x.weights.length := h.weights.symm
  show lsum _ _ = _
  rw [lsum_zip_range x.pts x.weights hl [] 0]
  have hval : ∀ k ∈ List.range x.pts.length, ∀ m < x.leaf.fns.length,
      F.fn x.leaf (List.replicate x.leaf.cell.spatialDim 0) (x.leaf.cell.dimension, 0) ((x.pts[k]?).getD []) m [] =
        if k = m then 1 else 0 := by
    intro k hk m hm
    have hk' := List.mem_range.1 hk
    refine hN k m hm _ ?_
    rw [List.getElem?_eq_getElem hk']
    rfl
  rw [lsum_congr fun k hk => by rw [hval k hk i hi, hval k hk j hj]]
  have hi' : i ∈ List.range x.pts.length := List.mem_range.2 (by rw [h.length]; exact hi)
  by_cases hij : i = j
  · subst hij
    rw [if_pos rfl, lsum_congr (g := fun k => if i = k then (x.weights[k]?).getD 0 else 0) fun k _ => by
      by_cases h : k = i
      · rw [if_pos h, if_pos h.symm]; simp
      · rw [if_neg h, if_neg (Ne.symm h)]; simp, lsum_delta List.nodup_range hi', List.getD_eq_getElem?_getD]
  · rw [if_neg hij]
    refine lsum_zero fun k _ => ?_
    by_cases h1 : k = i
    · rw [if_neg (show ¬ k = j from fun h => hij (h1.symm.trans h))]
      simp
    · rw [if_neg h1]
      simp

theorem lumped {F : Fiat K} {R : Rules K} {order n : Nat} : ∀ {N : List (NodalFactor K)} {is js : List Nat},
    (∀ x ∈ N, NodalFactorOK F order n x) → InRange is (N.map fun x => x.leaf.fns.length) →
    InRange js (N.map fun x => x.leaf.fns.length) →
    iterSumL (N.map NodalFactor.rule) (fun p =>
      prodValue (leafVals F R) (N.map fun x => .leaf x.leaf)
        (List.replicate (N.map fun x => x.leaf.cell.spatialDim).sum 0) (N.map fun x => (x.leaf.cell.dimension, 0)) p is [] *
      prodValue (leafVals F R) (N.map fun x => .leaf x.leaf)
        (List.replicate (N.map fun x => x.leaf.cell.spatialDim).sum 0) (N.map fun x => (x.leaf.cell.dimension, 0)) p js []) =
    if is = js then (List.zipWith (fun x i => x.weights.getD i 0) N is).prod else 0
  | [], _, _, _, .nil, .nil => by simp [iterSumL, prodValue]
  | x :: N, i :: is, j :: js, h, .cons hi his, .cons hj hjs => by
    have hx := h x List.mem_cons_self
    have H := lumped (F := F) (R := R) (fun y hy => h y (List.mem_cons_of_mem _ hy)) his hjs
    obtain ⟨-, hvs, -⟩ := hx.leaf.nodal hx.unmapped _ hx.spectral rfl hx.length
    have hS := hx.sum (R := R) hi hj
    have hw : ∀ p ∈ x.rule.pointSet.pts, p.length = x.leaf.cell.spatialDim := by
      simp only [NodalFactor.rule, NodalFactor.points, QRule.pointSet, PSet.pts]
      exact hx.width
    have hrep : List.replicate (x.leaf.cell.spatialDim + (N.map fun x => x.leaf.cell.spatialDim).sum) 0 =
        List.replicate x.leaf.cell.spatialDim 0 ++ List.replicate (N.map fun x => x.leaf.cell.spatialDim).sum 0 :=
      List.replicate_add _ _ _
    have hrw : (if i :: is = j :: js then (List.zipWith (fun x i => x.weights.getD i 0) (x :: N) (i :: is)).prod else 0) =
        (if i = j then x.weights.getD i 0 else 0) *
          (if is = js then (List.zipWith (fun x i => x.weights.getD i 0) N is).prod else 0) := by
      by_cases h1 : i = j <;> by_cases h2 : is = js <;> simp [h1, h2]
    rw [hrw, ← H, ← hS]
    simp only [List.map_cons, List.sum_cons, iterSumL]
    rw [mul_comm, ← iterSum_mul]
    refine hasDim_of_pts hw _ _ fun p hp => ?_
    rw [mul_comm, ← iterSumL_mul]
    congr 1
    funext y
    have hlen : (List.replicate x.leaf.cell.spatialDim 0).length = x.leaf.cell.spatialDim := by simp
    have hsd : sdim (.leaf x.leaf) = x.leaf.cell.spatialDim := rfl
    rw [hrep]
    simp only [prodValue, Cell.total_dimension, hsd, List.take_left' hlen, List.drop_left' hlen, List.take_left' hp,
      List.drop_left' hp, Elem.indexShape, vshape, Elem.valueShape, hvs, List.length_nil, List.length_cons, List.take_zero,
      List.drop_zero, Nat.zero_add, List.take_succ_cons, List.drop_succ_cons]
    ring

/-- **C104**, spectral elements: if every factor is a spectral element and the rule of each factor has the nodes of the
element as points, the mass matrix is diagonal, with the products of the weights as entries. -/
theorem C104_lumped (F : Fiat K) (R : Rules K) (order n : Nat) (N : List (NodalFactor K)) (hne : N ≠ [])
    (hN : ∀ x ∈ N, NodalFactorOK F order n x) (hn : (N.map fun x => x.index.id).Nodup) :
    Yields (QRule.tensor (N.map NodalFactor.rule)).weightExpr n fun W =>
      Yields (evaluate (basisInterp F R) (.tensorProduct (N.map fun x => .leaf x.leaf)) order
        (QRule.tensor (N.map NodalFactor.rule)).pointSet none) n fun T =>
        ∃ t, T.get? (List.replicate (N.map fun x => x.leaf.cell.spatialDim).sum 0) = some t ∧
          ∀ ρ is js, InRange is (N.map fun x => x.leaf.fns.length) → InRange js (N.map fun x => x.leaf.fns.length) →
            formEntry W (QRule.tensor (N.map NodalFactor.rule)).pointSet ρ t t is js =
              if is = js then (List.zipWith (fun x i => x.weights.getD i 0) N is).prod else 0 := by
  have hok : RuleOK (QRule.tensor (N.map NodalFactor.rule)) := product_rule (by simpa using hne) fun q hq => by
    obtain ⟨x, hx, rfl⟩ := List.mem_map.1 hq
    exact ⟨x.cls, x.pts, x.index, rfl, (hN x hx).extent, (hN x hx).weights⟩
  have hw : (QRule.tensor (N.map NodalFactor.rule)).pointSet.WF n := product_wf fun q hq => by
    obtain ⟨x, hx, rfl⟩ := List.mem_map.1 hq
    have h := hN x hx
    simp only [NodalFactor.rule, NodalFactor.points, QRule.pointSet, PSet.WF]
    exact ⟨by simpa using h.fresh, by simpa using h.extent.symm, _, h.width⟩
  have hids : (QRule.tensor (N.map NodalFactor.rule)).pointSet.indices.map Index.id = N.map fun x => x.index.id := by
    simp only [QRule.pointSet, PSet.indices]
    clear * -
    induction N with
    | nil => rfl
    | cons x N ih =>
      simp only [List.map_cons, QRule.pointSetL, PSet.indicesL, List.map_append, ih]
      rfl
  have hnd : ((QRule.tensor (N.map NodalFactor.rule)).pointSet.indices.map Index.id).Nodup := by rw [hids]; exact hn
  have hvs : ∀ x ∈ N, x.leaf.valueShape = [] := fun x hx =>
    ((hN x hx).leaf.nodal (hN x hx).unmapped _ (hN x hx).spectral rfl (hN x hx).length).2.1
  have hc : Elem.cellL (N.map fun x => .leaf x.leaf) = .ok (N.map fun x => x.leaf.cell) := by
    clear * -
    induction N with
    | nil => rfl
    | cons x N ih => simp [Elem.cellL, Elem.cell, ih, bind, Except.bind, pure, Except.pure]
  have hv : (Elem.tensorProduct (N.map fun x => .leaf x.leaf)).valueShape = .ok [] := by
    have : Elem.valueShapeL (N.map fun x => .leaf x.leaf) = .ok (N.map fun _ => []) := by
      clear * - hvs
      induction N with
      | nil => rfl
      | cons x N ih =>
        simp [Elem.valueShapeL, Elem.valueShape, ih fun y hy => hvs y (List.mem_cons_of_mem _ hy),
          hvs x List.mem_cons_self, bind, Except.bind, pure, Except.pure]
    have hf : (N.map fun _ => ([] : List Nat)).filter (fun s => decide (s ≠ [])) = [] := by simp
    simp only [Elem.valueShape, this, bind, Except.bind, Elem.prodValueShape, hf]
  have hcell : (Elem.tensorProduct (N.map fun x => .leaf x.leaf)).cell = .ok (.prod (N.map fun x => x.leaf.cell)) := by
    simp [Elem.cell, hc, bind, Except.bind, pure, Except.pure]
  have hsh : Shaped (.tensorProduct (N.map fun x => .leaf x.leaf)) := by
    simp only [Shaped]
    refine ⟨by simpa using hne, fun f hf => ?_⟩
    obtain ⟨x, -, rfl⟩ := List.mem_map.1 hf
    simp only [Shaped]
  have ha : Admits (basisSem F R) order (.tensorProduct (N.map fun x => .leaf x.leaf))
      (QRule.tensor (N.map NodalFactor.rule)).pointSet ((Cell.prod (N.map fun x => x.leaf.cell)).dimension, 0) := by
    refine admits_product hc ?_ ?_
    · clear * - hN
      induction N with
      | nil => exact .nil
      | cons x N ih =>
        have h := hN x List.mem_cons_self
        exact .cons (PSet.fits_of h.leaf.pts h.width (fun _ _ _ h => by cases h))
          (ih fun y hy => hN y (List.mem_cons_of_mem _ hy))
    · clear * - hN
      induction N with
      | nil => simp [AdmitsZip]
      | cons x N ih =>
        have h := hN x List.mem_cons_self
        simp only [List.map_cons, AdmitsZip]
        exact ⟨⟨h.unmapped, h.leaf⟩, ih fun y hy => hN y (List.mem_cons_of_mem _ hy)⟩
  obtain ⟨W, n₁, h1, -, -, hW⟩ := weightExpr_spec (n := n) hok
  obtain ⟨T, n₂, h2, hT⟩ := tabulation (basisSem F R) (.tensorProduct (N.map fun x => .leaf x.leaf)) hsh order
    (QRule.tensor (N.map NodalFactor.rule)).pointSet none _ [] n n hw (Nat.le_refl n) hcell hv ha
  have hsd : (Cell.prod (N.map fun x => x.leaf.cell)).spatialDim = (N.map fun x => x.leaf.cell.spatialDim).sum := by
    simp only [Cell.spatialDim]
    clear * -
    induction N with
    | nil => rfl
    | cons x N ih => simp [Cell.spatialDimL, ih]
  have hkey : List.replicate (N.map fun x => x.leaf.cell.spatialDim).sum 0 ∈ T.keys := by
    rw [hT.keys, hsd]
    simp
  rw [← Dict.get?_isSome_iff, Option.isSome_iff_exists] at hkey
  obtain ⟨t, ht⟩ := hkey
  refine ⟨W, n₁, h1, T, n₂, h2, t, ht, fun ρ is js hi hj => ?_⟩
  have hish : (Elem.tensorProduct (N.map fun x => .leaf x.leaf)).indexShape = N.map fun x => x.leaf.fns.length := by
    rw [indexShape_product]
    clear * -
    induction N with
    | nil => rfl
    | cons x N ih => simp [Elem.indexShape] at ih ⊢; exact ih
  have hents : factorEnts (N.map fun x => .leaf x.leaf) ((Cell.prod (N.map fun x => x.leaf.cell)).dimension, 0) =
      N.map fun x => (x.leaf.cell.dimension, 0) := by
    simp only [factorEnts, hc, bind, Except.bind, factorEntity_cell, List.map_map]
    rfl
  have hval : ∀ is, InRange is (N.map fun x => x.leaf.fns.length) → ∀ ρ,
      (QRule.tensor (N.map NodalFactor.rule)).pointSet.Valid ρ → t.eval ρ is =
        (fun p => prodValue (leafVals F R) (N.map fun x => .leaf x.leaf)
          (List.replicate (N.map fun x => x.leaf.cell.spatialDim).sum 0) (N.map fun x => (x.leaf.cell.dimension, 0)) p is [])
          ((QRule.tensor (N.map NodalFactor.rule)).pointSet.pointAt ρ) := by
    intro is hi ρ hV
    have := hT.value _ _ ht ρ is [] hV (by rw [hish]; exact hi) .nil
    simp only [List.append_nil, basisValue, Option.getD_none, hents] at this
    exact this
  rw [formEntry_eq hok hnd hW
    (f := fun p => prodValue (leafVals F R) (N.map fun x => .leaf x.leaf)
      (List.replicate (N.map fun x => x.leaf.cell.spatialDim).sum 0) (N.map fun x => (x.leaf.cell.dimension, 0)) p is [])
    (g := fun p => prodValue (leafVals F R) (N.map fun x => .leaf x.leaf)
      (List.replicate (N.map fun x => x.leaf.cell.spatialDim).sum 0) (N.map fun x => (x.leaf.cell.dimension, 0)) p js [])
    (hval is hi) (hval js hj) ρ]
  simp only [iterSum]
  exact lumped hN hi hj

/-! ### Examples -/

namespace KroneckerCases

/-- A rule with two points on the interval. -/
def line (cls : PSClass) (k : Nat) : QRule ℤ := .rule (.points cls [[0], [1]] [⟨k, 2⟩]) [3, 5]

theorem line_wf (cls : PSClass) {k n : Nat} (h : k < n) : (line cls k).pointSet.WF n := by
  simp only [line, QRule.pointSet, PSet.WF]
  exact ⟨by simpa using h, rfl, 1, by simp⟩

/-- CG2 on the interval, at the points of the rule, is a factor as C104 needs it. -/
theorem run (order : Nat) {k n : Nat} (h : k < n) : ∃ x : FactorRun ℤ, x.elem = .leaf cg2 ∧ x.rule = line .plain k ∧
    FactorRunOK exFiat exRules order n x (.simplex 1) := by
  have hr : RuleOK (line .plain k) := by
    simp only [line, RuleOK]
    exact ⟨_, _, _, rfl, rfl, rfl⟩
  have ha : Admits (basisSem exFiat exRules) order (.leaf cg2) (line .plain k).pointSet ((Cell.simplex 1).dimension, 0) :=
    (exLeaf order cg2 (.inr (.inl rfl))).1 _ _ ⟨1, by decide, by decide⟩
      ⟨_, _, rfl, by simp, by simp; decide⟩
  obtain ⟨W, n₁, h1, -⟩ := weightExpr_spec (n := n) hr
  obtain ⟨T, n₂, h2, -⟩ := tabulation (basisSem exFiat exRules) (.leaf cg2) (by simp only [Shaped]) order
    (line .plain k).pointSet none (.simplex 1) [] n n (line_wf .plain h) (Nat.le_refl n) rfl rfl ha
  exact ⟨⟨.leaf cg2, line .plain k, W, T⟩, rfl, rfl, hr, line_wf .plain h,
    PSet.fits_of (by simp [line, QRule.pointSet, PSet.pts]) (by simp [line, QRule.pointSet, PSet.pts, Cell.spatialDim])
      (fun _ _ _ h => by cases h), ha, ⟨_, h1⟩, ⟨_, h2⟩⟩

/-- The hypotheses of C104 are met by CG2 x CG2 on the square. -/
theorem square (order : Nat) : ∃ L : List (FactorRun ℤ), L.map FactorRun.elem = [.leaf cg2, .leaf cg2] ∧
    List.Forall₂ (FactorRunOK exFiat exRules order 2) L [.simplex 1, .simplex 1] ∧
    ((QRule.tensor (L.map FactorRun.rule)).pointSet.indices.map Index.id).Nodup := by
  obtain ⟨x, x1, x2, x3⟩ := run order (k := 0) (n := 2) (by decide)
  obtain ⟨y, y1, y2, y3⟩ := run order (k := 1) (n := 2) (by decide)
  refine ⟨[x, y], by simp [x1, y1], .cons x3 (.cons y3 .nil), ?_⟩
  simp only [List.map_cons, List.map_nil, x2, y2]
  decide

example (order : Nat) (L : List (FactorRun ℤ)) (h1 : L.map FactorRun.elem = [.leaf cg2, .leaf cg2])
    (h2 : List.Forall₂ (FactorRunOK exFiat exRules order 2) L [.simplex 1, .simplex 1])
    (h3 : ((QRule.tensor (L.map FactorRun.rule)).pointSet.indices.map Index.id).Nodup) :=
  C104_kronecker exFiat exRules order 2 L [.simplex 1, .simplex 1] [] (by rintro rfl; cases h2)
    (by rw [h1]; simp only [Shaped]; simp [Shaped]) (by rw [h1]; rfl) (by rw [h1]; rfl) h2 h3

example (order : Nat) := C104_cube exFiat exRules order [.leaf cg2, .leaf cg2] [.simplex 1, .simplex 1] .quad rfl rfl
  (isCube_standard (.inl rfl))

/-- The example FIAT with CG1 as spectral element: its nodes are the end points. -/
noncomputable def nodalFiat : Fiat ℤ := { exFiat with spectral := fun _ => some .gaussLobattoLegendre }

/-- CG1 with the trapezoidal rule, up to scaling. -/
def trapezoid (k : Nat) : NodalFactor ℤ := ⟨cg1, .gaussLobattoLegendre, [[0], [1]], ⟨k, 2⟩, [3, 5]⟩

theorem trapezoid_ok (order : Nat) {k n : Nat} (h : k < n) : NodalFactorOK nodalFiat order n (trapezoid k) where
  unmapped := rfl
  spectral := rfl
  leaf := ⟨⟨fun _ _ _ h => (by cases h), by simp [trapezoid, NodalFactor.points, PSet.pts],
    fiatPoly_of rfl (fun _ => exPoly cg1) (exEmb cg1 _) (fun _ _ _ _ => rfl)
      (fun _ => exPoly_degree cg1 (.inl rfl)) (fun _ _ _ _ _ => rfl), show ([] : List Nat).prod ≠ 0 by decide, .inl rfl⟩,
    fun _ cls hc => by
      cases hc
      intro _ _
      exact ⟨⟨_, rfl⟩, rfl, (nodal_cg1 rfl rfl).2.2⟩⟩
  length := rfl
  weights := rfl
  extent := rfl
  fresh := h
  width := by simp [trapezoid]; rfl

/-- On the square with three factors: the mass matrix of CG1 x CG1 x CG1 is diagonal. -/
example (order : Nat) := C104_lumped nodalFiat exRules order 3 [trapezoid 0, trapezoid 1, trapezoid 2] (by simp)
  (by
    intro x hx
    simp only [List.mem_cons, List.not_mem_nil, or_false] at hx
    rcases hx with rfl | rfl | rfl <;> exact trapezoid_ok order (by decide)) (by decide)

end KroneckerCases

end FInAT.Props
