import Verif.Lemmas.Support
import Verif.Lemmas.TabSem
import Verif.Lemmas.Quadrature
import Mathlib.Algebra.MvPolynomial.Funext
import Mathlib.RingTheory.MvPolynomial.Basic
import Mathlib.Algebra.Order.Ring.Nat
import Mathlib.Order.Interval.Set.Infinite

/-!
# Supports by integration
-/

set_option linter.unusedSectionVars false

namespace FInAT

open Spec

section poly

variable {K : Type} [Field K]

/-- The polynomial with the given terms. -/
noncomputable def toMv (n : Nat) (ts : List (K × List Nat)) : MvPolynomial (Fin n) K :=
  (ts.map fun t => MvPolynomial.monomial (Finsupp.equivFunOnFinite.symm fun i : Fin n => t.2.getD i 0) t.1).sum

theorem monoVal_ofFn : ∀ {n : Nat} (x : Fin n → K) (α : List Nat), α.length = n →
    monoVal (List.ofFn x) α = ∏ i, x i ^ α.getD i 0
  | 0, x, α, h => by
    have : α = [] := List.length_eq_zero_iff.1 h
    subst this
    simp [monoVal]
  | n + 1, x, [], h => by simp at h
  | n + 1, x, a :: α, h => by
    have ih := monoVal_ofFn (fun i : Fin n => x i.succ) α (by simpa using h)
    rw [List.ofFn_succ, monoVal, ih, Fin.prod_univ_succ]
    simp

theorem eval_toMv {n : Nat} (x : Fin n → K) (ts : List (K × List Nat)) (h : ∀ t ∈ ts, t.2.length = n) :
    MvPolynomial.eval x (toMv n ts) = polyVal ts (List.ofFn x) := by
  unfold toMv polyVal
  rw [map_list_sum, List.map_map]
  congr 1
  refine List.map_congr_left fun t ht => ?_
  simp only [Function.comp]
  rw [MvPolynomial.eval_monomial, monoVal_ofFn x t.2 (h t ht), Finsupp.prod_fintype _ _ (by simp)]
  simp

/-- The integral as a linear form. -/
noncomputable def momentForm (c : Cell) (n : Nat) : MvPolynomial (Fin n) K →ₗ[K] K :=
  (MvPolynomial.basisMonomials (Fin n) K).constr K fun s => moment c (List.ofFn s)

theorem momentForm_toMv (c : Cell) (n : Nat) (ts : List (K × List Nat)) (h : ∀ t ∈ ts, t.2.length = n) :
    momentForm c n (toMv n ts) = polyInt c ts := by
  unfold toMv polyInt
  rw [map_list_sum, List.map_map]
  congr 1
  refine List.map_congr_left fun t ht => ?_
  simp only [Function.comp]
  have e1 : (MvPolynomial.monomial (Finsupp.equivFunOnFinite.symm fun i : Fin n => t.2.getD i 0) t.1 :
      MvPolynomial (Fin n) K) = t.1 • MvPolynomial.basisMonomials (Fin n) K
        (Finsupp.equivFunOnFinite.symm fun i : Fin n => t.2.getD i 0) := by
    rw [MvPolynomial.coe_basisMonomials, MvPolynomial.smul_monomial, smul_eq_mul, mul_one]
  rw [e1, map_smul, momentForm, Module.Basis.constr_basis, smul_eq_mul]
  congr 2
  have hl := h t ht
  apply List.ext_getElem
  · simp [hl]
  · intro i h1 h2
    simp [h2]

/-- A polynomial vanishing on a box has integral zero. -/
theorem polyInt_zero {c : Cell} {n : Nat} {ts : List (K × List Nat)} (h : ∀ t ∈ ts, t.2.length = n)
    {s : Set K} (hs : s.Infinite) (hv : ∀ x : List K, x.length = n → (∀ a ∈ x, a ∈ s) → polyVal ts x = 0) :
    polyInt c ts = 0 := by
  have : toMv n ts = 0 := by
    refine MvPolynomial.funext_set (fun _ => s) (fun _ => hs) fun x hx => ?_
    rw [eval_toMv x ts h, map_zero]
    refine hv _ (by simp) fun a ha => ?_
    obtain ⟨i, rfl⟩ := (List.mem_ofFn' x a).1 ha
    exact hx i (Set.mem_univ i)
  rw [← momentForm_toMv c n ts h, this, map_zero]

end poly

variable {K : Type} [Field K] [LinearOrder K] [IsStrictOrderedRing K]

theorem sum_le_of_le {x : List K} {δ : K} (h : ∀ a ∈ x, a ≤ δ) : x.sum ≤ x.length * δ := by
  induction x with
  | nil => simp
  | cons a x ih =>
    have h1 := ih fun b hb => h b (List.mem_cons_of_mem a hb)
    have h2 := h a List.mem_cons_self
    simp only [List.sum_cons, List.length_cons, Nat.cast_add, Nat.cast_one]
    linarith

mutual
/-- Small boxes at the origin are contained in every entity. -/
theorem inEntity_box {N : Nat} {δ : K} (h0 : 0 ≤ δ) (h1 : (N : K) * δ ≤ 1) (hδ : δ ≤ 1) : ∀ {c : Cell} {d : Dim} {n : Nat},
    (d, n) ∈ c.topology → d.total ≤ N → ∀ x : List K, x.length = d.total → (∀ a ∈ x, 0 ≤ a ∧ a ≤ δ) → InEntity c d x
  | .simplex m, d, n, hd, hN, x, hx, ha => by
    simp only [Cell.topology, List.mem_map, List.mem_range, Prod.mk.injEq] at hd
    obtain ⟨k, hk, rfl, _⟩ := hd
    simp only [Dim.total] at hx hN
    simp only [InEntity]
    refine ⟨hx, fun a h => (ha a h).1, (sum_le_of_le fun a h => (ha a h).2).trans (le_trans ?_ h1)⟩
    rw [hx]
    exact mul_le_mul_of_nonneg_right (by exact_mod_cast hN) h0
  | .quad, d, n, hd, hN, x, hx, ha => by
    rw [Cell.topology_quad_eq] at hd
    simp only [List.mem_map, Prod.mk.injEq] at hd
    obtain ⟨k, _, rfl, _⟩ := hd
    simp only [Dim.total] at hx
    simp only [InEntity]
    exact ⟨hx, fun a h => ⟨(ha a h).1, (ha a h).2.trans hδ⟩⟩
  | .hex, d, n, hd, hN, x, hx, ha => by
    rw [Cell.topology_hex_eq] at hd
    simp only [List.mem_map, Prod.mk.injEq] at hd
    obtain ⟨k, _, rfl, _⟩ := hd
    simp only [Dim.total] at hx
    simp only [InEntity]
    exact ⟨hx, fun a h => ⟨(ha a h).1, (ha a h).2.trans hδ⟩⟩
  | .prod cs, d, n, hd, hN, x, hx, ha => by
    simp only [Cell.topology, Cell.prodTop, List.mem_map, Prod.mk.injEq] at hd
    obtain ⟨ps, hps, rfl, _⟩ := hd
    simp only [Dim.total] at hx hN
    simp only [InEntity]
    exact inEntityL_box h0 h1 hδ hps hN x hx ha
theorem inEntityL_box {N : Nat} {δ : K} (h0 : 0 ≤ δ) (h1 : (N : K) * δ ≤ 1) (hδ : δ ≤ 1) : ∀ {cs : List Cell}
    {ps : List (Dim × Nat)}, ps ∈ product (Cell.topologyL cs) → Dim.totalL (ps.map Prod.fst) ≤ N → ∀ x : List K,
    x.length = Dim.totalL (ps.map Prod.fst) → (∀ a ∈ x, 0 ≤ a ∧ a ≤ δ) → InEntityL cs (ps.map Prod.fst) x
  | [], ps, hps, hN, x, hx, ha => by
    simp only [Cell.topologyL, product_nil, List.mem_singleton] at hps
    subst hps
    simp only [List.map_nil, InEntityL, Dim.totalL] at hx ⊢
    exact List.length_eq_zero_iff.1 hx
  | c :: cs, ps, hps, hN, x, hx, ha => by
    simp only [Cell.topologyL, product_cons, List.mem_flatMap, List.mem_map] at hps
    obtain ⟨p, hp, qs, hqs, rfl⟩ := hps
    simp only [List.map_cons, Dim.totalL] at hx hN
    simp only [List.map_cons, InEntityL]
    exact ⟨inEntity_box h0 h1 hδ (d := p.1) (n := p.2) hp (by omega) _ (by simp; omega)
        fun a h => ha a (List.mem_of_mem_take h),
      inEntityL_box h0 h1 hδ hqs (by omega) _ (by simp; omega) fun a h => ha a (List.mem_of_mem_drop h)⟩
end

/-- A polynomial vanishing on an entity has integral zero. -/
theorem polyInt_entity {c sub : Cell} {d : Dim} {n : Nat} (hd : (d, n) ∈ c.topology) {ts : List (K × List Nat)}
    (h : ∀ t ∈ ts, t.2.length = d.total) (hv : ∀ x : List K, InEntity c d x → polyVal ts x = 0) :
    polyInt sub ts = 0 := by
  have hpos : (0 : K) < (d.total + 1 : ℕ) := by exact_mod_cast Nat.succ_pos _
  have hδ : (0 : K) < 1 / (d.total + 1 : ℕ) := by positivity
  have h1 : ((d.total + 1 : ℕ) : K) * (1 / (d.total + 1 : ℕ)) ≤ 1 := by
    rw [mul_one_div_cancel hpos.ne']
  have h2 : (1 : K) / (d.total + 1 : ℕ) ≤ 1 := by
    rw [div_le_one hpos]; exact_mod_cast Nat.succ_pos _
  refine polyInt_zero h (s := Set.Icc 0 (1 / (d.total + 1 : ℕ) : K)) (Set.Icc_infinite hδ) fun x hx ha => ?_
  exact hv x (inEntity_box hδ.le h1 h2 hd (Nat.le_succ _) x hx ha)

/-! ### One entity -/

theorem squareSum_eq_zero {φ : LeafVals K} {e : Elem} {c : Cell} {ent : Dim × Nat} {i : List Nat} {x : List K} :
    squareSum φ e c ent i x = 0 ↔
      ∀ z, InRange z (vshape e) → basisValue φ e (List.replicate c.spatialDim 0) ent x i z = 0 := by
  unfold squareSum
  have : ∀ (l : List (List Nat)) (f : List Nat → K), (l.map fun z => f z ^ 2).sum = 0 ↔ ∀ z ∈ l, f z = 0 := by
    intro l f
    induction l with
    | nil => simp
    | cons a l ih =>
      have hnn : 0 ≤ (l.map fun z => f z ^ 2).sum := by
        apply List.sum_nonneg
        intro y hy
        obtain ⟨z, _, rfl⟩ := List.mem_map.1 hy
        exact sq_nonneg _
      rw [List.map_cons, List.sum_cons, add_eq_zero_iff_of_nonneg (sq_nonneg _) hnn, ih]
      simp
  rw [this]
  simp only [mem_ndindex]

theorem filter_enum {ι : Type} (P : ι → Bool) : ∀ (s : Nat) (l : List ι),
    ((enumFrom s l).filter fun p => P p.2).map Prod.fst =
      ((List.range l.length).filter fun j => (l[j]?.map P).getD false).map (s + ·)
  | s, [] => by simp [enumFrom]
  | s, a :: l => by
    have ih := filter_enum P (s + 1) l
    simp only [enumFrom, List.filter_cons, List.length_cons, List.range_succ_eq_map]
    have e : ((List.map Nat.succ (List.range l.length)).filter fun j => (((a :: l)[j]?).map P).getD false).map (s + ·)
        = ((List.range l.length).filter fun j => (l[j]?.map P).getD false).map (s + 1 + ·) := by
      rw [List.filter_map, List.map_map]
      congr 1
      · funext j; simp only [Function.comp, Nat.succ_eq_add_one]; omega
    by_cases h : P a = true
    · simp only [h, if_true, List.map_cons, ih, e, List.getElem?_cons_zero, Option.map_some, Option.getD_some,
        Nat.add_zero]
    · simp only [h, List.getElem?_cons_zero, Option.map_some, Option.getD_some, Bool.false_eq_true, if_false, ih, e]

theorem supportOn_spec {I : Interp K (PSet K)} {φ : LeafVals K} (S : Sem I φ)
    (hat : ∀ (p : PSet K) ρ, S.at_ p ρ = p.pointAt ρ) (hvalid : ∀ (p : PSet K) ρ, S.valid p ρ ↔ p.Valid ρ)
    (hwf : ∀ n (p : PSet K), S.wf n p ↔ PSet.WF n p)
    {e : Elem} {c : Cell} {vs : List Nat} {ent : Dim × Nat} {q : QRule K} {beta zeta : List Index}
    {m0 m1 m2 m3 m : Nat} (hsh : Shaped e) (hc : e.cell = .ok c) (hv : e.valueShape = .ok vs)
    (hbeta : Fresh m0 m1 beta) (hbe : beta.map Index.extent = e.indexShape)
    (hzeta : Fresh m1 m2 zeta) (hze : zeta.map Index.extent = vs)
    (hok : RuleOK q) (hq : Fresh m2 m3 q.pointSet.indices) (hw : q.pointSet.WF m3) (hm : m3 ≤ m)
    (ha : Admits S 0 e q.pointSet ent) :
    Runs (supportOn I e beta zeta q ent) m fun l m' => m ≤ m' ∧
      l = (List.range e.spaceDim).filter fun j =>
        decide (supportEps < iterSum q (squareSum φ e c ent (unravel e.indexShape j))) := by
  unfold supportOn
  apply Runs.bind
  unfold supportExpr
  apply Runs.bind
  refine (evaluate_ok S e hsh 0 q.pointSet (some ent) c vs m3 m ((hwf _ _).2 hw) hm hc hv ha).mono ?_
  rintro T m' ⟨hmm, hT⟩
  have hkey : T.keys = [List.replicate c.spatialDim 0] := by
    have hmem : ∀ α, α ∈ T.keys ↔ α = List.replicate c.spatialDim 0 := by
      intro α
      rw [hT.keys]
      constructor
      · rintro ⟨h1, h2⟩
        rw [List.eq_replicate_iff]
        refine ⟨h1, fun b hb => ?_⟩
        have := List.single_le_sum (fun _ _ => Nat.zero_le _) b hb
        omega
      · rintro rfl; simp
    exact List.perm_singleton.1 ((List.perm_ext_iff_of_nodup hT.nodup (List.nodup_singleton _)).2 fun α => by
      rw [hmem]; simp)
  obtain ⟨t, rfl⟩ : ∃ t, T = [(List.replicate c.spatialDim 0, t)] := by
    match T, hkey with
    | [(k, t)], h => simp only [Dict.keys, List.map_cons, List.map_nil, List.cons.injEq, and_true] at h; exact ⟨t, by rw [h]⟩
    | [], h => simp [Dict.keys] at h
    | _ :: _ :: _, h => simp [Dict.keys] at h
  have hden := hT.den (List.replicate c.spatialDim 0) t (by simp [Dict.get?])
  apply Runs.bind
  apply Runs.pure
  have hfit : fitsShape ((beta ++ zeta).map Ix.free) t.shape = true :=
    fitsShape_free (by rw [hden.shape, List.map_append, hbe, hze])
  apply Runs.bind
  apply Runs.mkIndexed hfit
  intro x hx1 hx2
  apply Runs.bind
  apply Runs.mkIndexed hfit
  intro y hy1 hy2
  apply Runs.bind
  apply Runs.mkProduct hx1 hy1
  intro xy hxy1 hxy2
  apply Runs.bind
  apply Runs.mkIndexSum hxy1
  intro s hs1 hs2
  apply Runs.bind
  refine (weightExpr_spec hok).mono ?_
  rintro W m'' ⟨rfl, hW1, hW2⟩
  apply Runs.bind
  apply Runs.mkProduct hs1 hW1
  intro sw hsw1 hsw2
  apply Runs.bind
  apply Runs.mkIndexSum hsw1
  intro i hi1 hi2
  apply Runs.mkComponentTensor hi1
  intro r hr1 hr2
  refine Runs.pure ⟨hmm, ?_⟩
  have hval : ∀ v, InRange v e.indexShape → r.eval (fun _ => 0) v = iterSum q (squareSum φ e c ent v) := by
    intro v hvr
    have hvl : v.length = beta.length := by rw [InB.length hvr, ← hbe, List.length_map]
    rw [hr2 _ v hvl, hi2, ← quadSum_eq hok hq.1 hW2 (bindIx (fun _ => 0) beta v)]
    show lsum _ _ = lsum _ _
    refine lsum_congr fun u hu => ?_
    beta_reduce
    have hu' := mem_ndindex.1 hu
    have hul : u.length = q.pointSet.indices.length := by rw [hu'.length_eq]; simp
    set ρ1 := bindIx (fun _ => 0) beta v with hρ1
    set ρ2 := bindIx ρ1 q.pointSet.indices u with hρ2
    have hb1 : beta.map (fun i => ρ1 i.id) = v := map_bindIx _ hbeta.1 hvl
    have hb2 : beta.map (fun i => ρ2 i.id) = v := by
      rw [← hb1]
      exact (bindIx_agree hq u ρ1).map fun i hi => Nat.lt_of_lt_of_le (hbeta.2.1 i hi).2 hzeta.2.2
    have hu2 : q.pointSet.indices.map (fun i => ρ2 i.id) = u := map_bindIx _ hq.1 hul
    rw [hsw2, mul_comm]
    congr 1
    rw [hs2, hze, squareSum, vshape_eq hv]
    show lsum _ _ = lsum _ _
    refine lsum_congr fun z hz => ?_
    beta_reduce
    have hz' := mem_ndindex.1 hz
    have hzl : z.length = zeta.length := by rw [hz'.length_eq, ← hze, List.length_map]
    set ρ3 := bindIx ρ2 zeta z with hρ3
    have hb3 : beta.map (fun i => ρ3 i.id) = v := by
      rw [← hb2]
      exact (bindIx_agree hzeta z ρ2).map fun i hi => (hbeta.2.1 i hi).2
    have hz3 : zeta.map (fun i => ρ3 i.id) = z := map_bindIx _ hzeta.1 hzl
    have hu3 : q.pointSet.indices.map (fun i => ρ3 i.id) = q.pointSet.indices.map fun i => ρ2 i.id := by
      refine List.map_congr_left fun a ha' => bindIx_of_not_mem ?_
      intro hmem
      obtain ⟨b, hb, hab⟩ := List.mem_map.1 hmem
      have h1 := (hq.2.1 a ha').1
      have h2 := (hzeta.2.1 b hb).2
      omega
    have hV : S.valid q.pointSet ρ3 := by
      rw [hvalid]
      rw [hu2] at hu3
      rw [← hu3, List.forall₂_map_left_iff, List.forall₂_map_right_iff, List.forall₂_same] at hu'
      exact hu'
    have hpt : q.pointSet.pointAt ρ3 = q.pointSet.pointAt ρ2 := by
      rw [PSet.at_eq hq.1 hu3, PSet.at_eq hq.1 rfl]
    rw [hxy2, hx2, hy2, map_val_free, List.map_append, hb3, hz3, hden.val ρ3 _ hV (InB.append hvr hz'), elemF, hat,
      ← InB.length hvr, List.take_left, List.drop_left, hpt, sq]
    rfl
  rw [filter_enum (fun a => decide (supportEps < a)), hbe]
  simp only [Nat.zero_add, List.map_id', List.length_map]
  rw [ndindex_eq_map_unravel, List.length_map, List.length_range, Elem.indexShape_prod]
  refine List.filter_congr fun j hj => ?_
  have hj' := List.mem_range.1 hj
  rw [List.getElem?_map, List.getElem?_map, List.getElem?_range hj']
  simp only [Option.map_some, Option.getD_some]
  rw [hval _ (unravel_bounds (by rw [Elem.indexShape_prod]; exact hj'))]

/-- What the integration needs: the element has a cell, a value shape, dofs on all entities and a degree;
for every dimension of entities the cell has a reference cell for which FIAT provides rules of the doubled
degree, and the element can be tabulated at the points of every rule obtained. -/
structure Integrable {I : Interp K (PSet K)} {φ : LeafVals K} (S : Sem I φ) (F : FiatQuad K) (D : Nat) (e : Elem)
    (c : Cell) (deg2 : Degree) (sub : Dim → Cell) : Prop where
  shaped : Shaped e
  cell : e.cell = .ok c
  value : ∃ vs, e.valueShape = .ok vs
  dofs : ∃ d, e.entityDofs = .ok d ∧ Covers d c.topology
  degree : ∃ t, e.degree = .ok t ∧ t.double = .ok deg2
  rules : FiatExact F "default" D
  entity : ∀ p ∈ c.topology, c.subelement p.1 = .ok (sub p.1)
  good : ∀ p ∈ c.topology, GoodDegree F "default" D (sub p.1) deg2
  admits : ∀ p ∈ c.topology, ∀ n q n', makeQuadrature F "default" (sub p.1) deg2 n = .ok (q, n') → ∀ k < p.2,
    Admits S 0 e q.pointSet (p.1, k)

mutual
theorem subelement_dim : ∀ {c : Cell} {d : Dim} {s : Cell}, c.subelement d = .ok s → s.spatialDim = d.total
  | .simplex m, .int k, s, h => by
    rw [Cell.subelement] at h
    split at h
    · cases h; rfl
    · cases h
  | .quad, .int 0, s, h => by cases h; rfl
  | .quad, .int 1, s, h => by cases h; rfl
  | .quad, .int 2, s, h => by cases h; rfl
  | .quad, .int (k + 3), s, h => by simp [Cell.subelement] at h
  | .hex, .int 0, s, h => by cases h; rfl
  | .hex, .int 1, s, h => by cases h; rfl
  | .hex, .int 2, s, h => by cases h; rfl
  | .hex, .int 3, s, h => by cases h; rfl
  | .hex, .int (k + 4), s, h => by simp [Cell.subelement] at h
  | .prod cs, .tup ds, s, h => by
    simp only [Cell.subelement, bind_ok] at h
    obtain ⟨l, hl, h⟩ := h
    cases h
    simp only [Cell.spatialDim, Dim.total]
    exact subelementL_dim hl
  | .simplex _, .tup _, s, h => by simp [Cell.subelement] at h
  | .quad, .tup _, s, h => by simp [Cell.subelement] at h
  | .hex, .tup _, s, h => by simp [Cell.subelement] at h
  | .prod _, .int _, s, h => by simp [Cell.subelement] at h
theorem subelementL_dim : ∀ {cs : List Cell} {ds : List Dim} {l : List Cell}, Cell.subelementL cs ds = .ok l →
    Cell.spatialDimL l = Dim.totalL ds
  | [], [], l, h => by cases h; rfl
  | c :: cs, d :: ds, l, h => by
    simp only [Cell.subelementL, bind_ok] at h
    obtain ⟨x, hx, xs, hxs, h⟩ := h
    cases h
    simp only [Cell.spatialDimL, Dim.totalL, subelement_dim hx, subelementL_dim hxs]
  | [], _ :: _, l, h => by simp [Cell.subelementL] at h
  | _ :: _, [], l, h => by simp [Cell.subelementL] at h
end

theorem forall₂_eq_map {α β : Type} {f : α → β} : ∀ {l : List α} {bs : List β}, List.Forall₂ (fun a b => b = f a) l bs →
    bs = l.map f
  | [], [], _ => rfl
  | a :: l, b :: bs, .cons h t => by rw [List.map_cons, h, forall₂_eq_map t]

theorem baseSupport_spec {I : Interp K (PSet K)} {φ : LeafVals K} (S : Sem I φ)
    (hat : ∀ (p : PSet K) ρ, S.at_ p ρ = p.pointAt ρ) (hvalid : ∀ (p : PSet K) ρ, S.valid p ρ ↔ p.Valid ρ)
    (hwf : ∀ n (p : PSet K), S.wf n p ↔ PSet.WF n p) {F : FiatQuad K} {D : Nat} {e : Elem} {c : Cell} {deg2 : Degree}
    {sub : Dim → Cell} {ts : Dim → Nat → Nat → List (K × List Nat)} (h : Integrable S F D e c deg2 sub)
    (hp : SquarePoly φ e c deg2 sub ts) (m : Nat) :
    Runs (baseSupport F I e) m fun d m' => m ≤ m' ∧ Covers d c.topology ∧
      ∀ p ∈ c.topology, ∀ k < p.2, dofsOn d p.1 k =
        (List.range e.spaceDim).filter fun j => decide (supportEps < polyInt (sub p.1) (ts p.1 k j)) := by
  obtain ⟨vs, hv⟩ := h.value
  obtain ⟨d, hd, hcov⟩ := h.dofs
  obtain ⟨t, ht, ht2⟩ := h.degree
  unfold baseSupport
  apply Runs.bind
  apply Runs.liftE h.cell
  have hstep : ∀ p ∈ c.topology, ∀ m', m ≤ m' → Runs (do
      let beta ← freshIndices e.indexShape
      let vs ← liftE e.valueShape
      let zeta ← freshIndices vs
      let sub ← liftE (c.subelement p.1)
      let deg ← liftE e.degree
      let deg2 ← liftE deg.double
      let q ← makeQuadrature F "default" sub deg2
      let d ← liftE e.entityDofs
      let ents ← liftE (d.get p.1)
      let result ← ents.keys.mapM fun f => do
        let l ← supportOn I e beta zeta q (p.1, f)
        pure (f, l)
      pure (p.1, result)) m' fun (b : Dim × Dict Nat (List Nat)) m'' => m' ≤ m'' ∧ b = (p.1,
        (((d.get? p.1).getD []).keys.map fun k => (k, (List.range e.spaceDim).filter fun j =>
          decide (supportEps < polyInt (sub p.1) (ts p.1 k j))))) := by
    intro p hpt m' _
    apply Runs.bind
    apply Runs.freshIndices
    intro beta m1 hbeta hbe
    apply Runs.bind
    apply Runs.liftE hv
    apply Runs.bind
    apply Runs.freshIndices
    intro zeta m2 hzeta hze
    apply Runs.bind
    apply Runs.liftE (h.entity p hpt)
    apply Runs.bind
    apply Runs.liftE ht
    apply Runs.bind
    apply Runs.liftE ht2
    apply Runs.bind
    obtain ⟨q, m3, hq, made⟩ := makeQuadrature_spec h.rules (sub p.1) deg2 m2 (h.good p hpt)
    refine ⟨q, m3, hq, ?_⟩
    apply Runs.bind
    apply Runs.liftE hd
    obtain ⟨ents, g1, g2, g3⟩ := Covers.get hcov c.topology_nodup hpt
    apply Runs.bind
    apply Runs.liftE (Dict.get_eq_ok_iff.2 g1)
    apply Runs.bind
    refine (Runs.mapM (l := ents.keys) (n := m3) (Q := fun k b => b = (k, (List.range e.spaceDim).filter fun j =>
      decide (supportEps < polyInt (sub p.1) (ts p.1 k j)))) ?_).mono ?_
    · intro k hk m4 hm4
      have hk' : k < p.2 := List.mem_range.1 (g3.mem_iff.1 hk)
      apply Runs.bind
      refine (supportOn_spec S hat hvalid hwf h.shaped h.cell hv hbeta hbe hzeta hze made.ok made.fresh made.wf hm4
        (h.admits p hpt m2 q m3 hq k hk')).mono ?_
      rintro l m5 ⟨hm5, rfl⟩
      refine Runs.pure ⟨hm5, ?_⟩
      congr 1
      refine List.filter_congr fun j hj => ?_
      have hj' := List.mem_range.1 hj
      congr 2
      rw [made.dim _ (polyVal (ts p.1 k j)) (hp.value p.1 p.2 hpt k hk' j hj')]
      unfold polyVal polyInt
      rw [show (fun x => ((ts p.1 k j).map fun t => t.1 * monoVal x t.2).sum) =
        fun x => lsum (ts p.1 k j) fun t => t.1 * monoVal x t.2 from rfl, iterSum_sum]
      refine lsum_congr fun t ht' => ?_
      have hw := hp.within p.1 p.2 hpt k hk' j hj' t ht'
      rw [iterSum_mul, made.exact t.2 hw.1 hw.2]
    · rintro bs m4 ⟨hm4, hbs⟩
      refine Runs.pure ⟨?_, ?_⟩
      · have h1 := hbeta.2.2
        have h2 := hzeta.2.2
        have h3 := made.fresh.2.2
        omega
      · rw [forall₂_eq_map hbs, g1]
        rfl
  refine (Runs.mapM hstep).mono ?_
  rintro ds m' ⟨hm', hds⟩
  have hdse := forall₂_eq_map hds
  subst hdse
  have hkeys : ∀ p ∈ c.topology, ∃ ents, d.get? p.1 = some ents ∧ (ents.keys).Perm (List.range p.2) := by
    intro p hp
    obtain ⟨ents, g1, g2, g3⟩ := Covers.get hcov c.topology_nodup hp
    exact ⟨ents, g1, g3⟩
  refine ⟨hm', ⟨?_, ?_⟩, ?_⟩
  · rw [List.map_map]; exact .refl _
  · intro p hp
    obtain ⟨ents, g1, g3⟩ := hkeys p hp
    refine ⟨_, List.mem_map.2 ⟨p, hp, rfl⟩, ?_⟩
    rw [List.map_map, g1, Option.getD_some]
    simpa [Function.comp_def] using g3
  · intro p hp k hk
    obtain ⟨ents, g1, g3⟩ := hkeys p hp
    unfold dofsOn
    rw [Dict.get?_eq_some_of_mem (v := ((d.get? p.1).getD []).keys.map fun k => (k, (List.range e.spaceDim).filter fun j =>
          decide (supportEps < polyInt (sub p.1) (ts p.1 k j)))) ?_ (List.mem_map.2 ⟨p, hp, rfl⟩)]
    · simp only [Option.bind_some]
      rw [get?_map_self (by rw [g1, Option.getD_some]; exact g3.mem_iff.2 (List.mem_range.2 hk)), Option.getD_some]
    · have : Dict.keys (List.map (fun p => (p.1, ((d.get? p.1).getD []).keys.map fun k =>
          (k, (List.range e.spaceDim).filter fun j => decide (supportEps < polyInt (sub p.1) (ts p.1 k j))))) c.topology) =
          c.topology.map Prod.fst := by
        simp [Dict.keys, Function.comp_def]
      rw [this]
      exact c.topology_nodup

end FInAT
