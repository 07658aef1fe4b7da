import Verif.Lemmas.Quadrature
import Verif.Props.PointEval
import Mathlib.Data.Rat.Cast.CharZero
import Mathlib.Order.Bounds.Defs

/-!
# C27-C29: quadrature
-/

namespace FInAT.Props

open FInAT Spec

variable {K : Type}

/-- C27, points. The points array of any point set, in particular a tensor product of point sets of any
depth, lists in row-major order of the point indices the points its symbolic expression selects; in a tensor
product the selected point is the concatenation of the points selected in the factors. -/
theorem C27_points {p : PSet K} {n : Nat} (h : p.WF n) (hn : (p.indices.map Index.id).Nodup) (ρ : Nat → Nat) :
    p.pts = (ndindex (p.indices.map Index.extent)).map (fun v => p.pointAt (bindIx ρ p.indices v)) ∧
    (∀ fs, p = .tensor fs → p.indices = (fs.map PSet.indices).flatten ∧
      ∀ ρ, p.pointAt ρ = (fs.map (PSet.pointAt ρ)).flatten) := by
  constructor
  · obtain ⟨h1, h2⟩ := PSet.pts_at h
    rw [ndindex_eq_map_unravel, List.map_map]
    apply List.ext_getElem
    · simp [h1]
    · intro k hk hk'
      have hk2 : k < (p.indices.map Index.extent).prod := by rw [← h1]; exact hk
      have hv : InB (unravel (p.indices.map Index.extent) k) (p.indices.map Index.extent) := by
        have : unravel (p.indices.map Index.extent) k ∈ ndindex (p.indices.map Index.extent) := by
          rw [ndindex_eq_map_unravel]
          exact List.mem_map_of_mem (List.mem_range.2 hk2)
        exact mem_ndindex.1 this
      have h3 := h2 (ρ := bindIx ρ p.indices (unravel (p.indices.map Index.extent) k)) (PSet.valid_bindIx hn _ hv)
      rw [map_bindIx _ hn (by rw [hv.length]; simp), ravel_unravel hk2, List.getElem?_eq_getElem hk] at h3
      simp only [List.getElem_map, List.getElem_range, Function.comp]
      exact Option.some.inj h3
  · rintro fs rfl
    refine ⟨?_, fun ρ => ?_⟩
    · rw [PSet.indices]
      clear h hn
      induction fs with
      | nil => rfl
      | cons p fs ih => simp [PSet.indicesL, ih]
    · rw [PSet.pointAt]
      clear h hn
      induction fs with
      | nil => rfl
      | cons p fs ih => simp [PSet.pointAtL, ih]

/-- C27, weights. The weight expression of a rule is a scalar whose value, at every assignment of the point
indices, is the weight there: for product rules the product of the factor weights. Nothing else is
created. -/
theorem C27_weights [CommRing K] {q : QRule K} (h : RuleOK q) (n : Nat) :
    Yields q.weightExpr n fun W => W.shape = [] ∧
      ∀ ρ, W.eval ρ [] = weightAt q (q.pointSet.indices.map fun i => ρ i.id) := by
  obtain ⟨W, n', h1, -, h2⟩ := weightExpr_spec (n := n) h
  exact ⟨W, n', h1, h2⟩

/-- C27, sums. The sum over all values of the point indices of weight times function value is the nested
sum over the factors' points with the factors' weights, for every function of the concatenated point. -/
theorem C27_sum [CommRing K] {q : QRule K} (h : RuleOK q) (hn : (q.pointSet.indices.map Index.id).Nodup) (n : Nat) :
    Yields q.weightExpr n fun W => ∀ ρ f, quadSum W q.pointSet ρ f = iterSum q f := by
  obtain ⟨W, n', h1, -, -, h2⟩ := weightExpr_spec (n := n) h
  exact ⟨W, n', h1, fun ρ f => quadSum_eq h hn h2 ρ f⟩

/-- C28, generic. If every factor rule is exact on a class of functions, the product rule is exact on all
finite sums of products of such functions. -/
theorem C28_product [CommRing K] {es : List (Factor K)} (hne : es ≠ []) (he : ∀ e ∈ es, e.Exact)
    (hn : ((QRule.tensor (es.map Factor.rule)).pointSet.indices.map Index.id).Nodup) (n : Nat) :
    Yields (QRule.tensor (es.map Factor.rule)).weightExpr n fun W =>
      ∀ (ts : List (K × List (List K → K))), (∀ t ∈ ts, List.Forall₂ (fun e f => e.cls f) es t.2) → ∀ ρ,
        quadSum W (QRule.tensor (es.map Factor.rule)).pointSet ρ
          (fun x => (ts.map fun t => t.1 * splitProd (es.map Factor.dim) t.2 x).sum) =
        (ts.map fun t => t.1 * (List.zipWith (fun e f => Factor.integral e f) es t.2).prod).sum := by
  have hok : RuleOK (QRule.tensor (es.map Factor.rule)) := by
    rw [RuleOK]
    refine ⟨by simpa using hne, ?_⟩
    clear hne hn
    induction es with
    | nil => simp [RuleOKL]
    | cons e es ih =>
      rw [List.map_cons, RuleOKL]
      exact ⟨(he e List.mem_cons_self).ok, ih fun x hx => he x (List.mem_cons_of_mem _ hx)⟩
  obtain ⟨W, n', h1, -, -, h2⟩ := weightExpr_spec (n := n) hok
  refine ⟨W, n', h1, fun ts hts ρ => ?_⟩
  rw [quadSum_eq hok hn h2]
  show iterSum _ (fun x => lsum ts fun t => _) = lsum ts _
  rw [iterSum_sum]
  refine lsum_congr fun t ht => ?_
  beta_reduce
  rw [iterSum_mul, iterSum]
  congr 1
  exact iterSumL_splitProd es he t.2 (hts t ht)

/-- C28, polynomials. If FIAT's Gauss rules with `m` points are exact to degree `2 m - 1` and its other rules
to the requested degree, then the rule `make_quadrature` makes for a cell (of any product structure) integrates
exactly every polynomial whose degree in the coordinates of each simple cell is at most the degree given for
it. -/
theorem C28_make_quadrature [Field K] [CharZero K] {F : FiatQuad K} {scheme : String} {D : Nat}
    (hF : FiatExact F scheme D) (c : Cell) (deg : Degree) (hd : GoodDegree F scheme D c deg) (n : Nat) :
    Yields (do let q ← makeQuadrature F scheme c deg; let W ← q.weightExpr; pure (q, W)) n fun qW =>
      ∀ ts : List (K × List Nat), (∀ t ∈ ts, t.2.length = c.spatialDim ∧ Within c deg t.2) → ∀ ρ,
        quadSum qW.2 qW.1.pointSet ρ (polyVal ts) = polyInt c ts := by
  suffices h : Runs (do let q ← makeQuadrature F scheme c deg; let W ← q.weightExpr; pure (q, W)) n fun qW _ =>
      ∀ ts : List (K × List Nat), (∀ t ∈ ts, t.2.length = c.spatialDim ∧ Within c deg t.2) → ∀ ρ,
        quadSum qW.2 qW.1.pointSet ρ (polyVal ts) = polyInt c ts from h
  apply Runs.bind
  refine (makeQuadrature_spec hF c deg n hd).mono fun q n1 m => ?_
  apply Runs.bind
  refine (weightExpr_spec m.ok).mono ?_
  rintro W n2 ⟨-, -, hW⟩
  refine Runs.pure fun ts hts ρ => ?_
  rw [quadSum_eq m.ok m.fresh.1 hW]
  show iterSum _ (fun x => lsum ts fun t => _) = lsum ts _
  rw [iterSum_sum]
  refine lsum_congr fun t ht => ?_
  beta_reduce
  rw [iterSum_mul, m.exact _ (hts t ht).1 (hts t ht).2]

/-- C29, interval. On an interval (that is not a macro cell) the rule has the points and weights of the
Gauss-Legendre rule with the least number `m` of points such that `2 m - 1` is at least the degree. -/
theorem C29_interval [Zero K] (F : FiatQuad K) (scheme : String) (d n : Nat)
    (hm : F.isMacro (.simplex 1) = false) (hl : ∀ m, (F.gauss m).1.length = (F.gauss m).2.length) :
    ∃ m, IsLeast {m : Nat | (d : ℤ) ≤ 2 * m - 1} m ∧
      makeQuadrature F scheme (.simplex 1) (.int d) n =
        .ok (.rule (.points .gaussLegendre (F.gauss m).1 [⟨n, (F.gauss m).1.length⟩]) (F.gauss m).2, n + 1) := by
  refine ⟨(d + 1 + 1) / 2, ⟨?_, ?_⟩, ?_⟩
  · show (d : ℤ) ≤ 2 * ((d + 1 + 1) / 2 : ℕ) - 1
    omega
  · intro m hm
    have : (d : ℤ) ≤ 2 * m - 1 := hm
    omega
  · have hneg : ¬ ((d : Int) < 0) := by omega
    simp only [makeQuadrature, makeSimple, if_neg hneg, hm, and_self, if_true, Int.toNat_natCast, mkRule, hl,
      decide_true]
    rfl

/-- C29, negative degrees. On every cell a negative degree raises `ValueError`. -/
theorem C29_negative [Zero K] (F : FiatQuad K) (scheme : String) : ∀ (c : Cell), NoEmpty c → ∀ (d : Int), d < 0 →
    ∀ n, makeQuadrature F scheme c (.int d) n = .error .valueError
  | .prod [], hc, d, hd, n => by simp [NoEmpty] at hc
  | .prod (c :: cs), hc, d, hd, n => by
    have H := C29_negative F scheme c (by rw [NoEmpty, NoEmptyL] at hc; exact hc.2.1) d hd n
    rw [makeQuadrature, Degree.expand]
    simp only [List.length_replicate, decide_true]
    rw [List.length_cons, List.replicate_succ, makeQuadratureL]
    show (((makeQuadrature F scheme c (.int d) n) >>= _ : Except Err _) >>= _ : Except Err _) = _
    rw [H]
    rfl
  | .quad, _, d, hd, n => by simp [makeQuadrature, Degree.expand, makeSimple, hd]; rfl
  | .simplex k, _, d, hd, n => by simp [makeQuadrature, makeSimple, hd]; rfl
  | .hex, _, d, hd, n => by simp [makeQuadrature, makeSimple, hd]; rfl

/-- C29, product cells. A successful call on a product cell gives a tensor rule with one factor per sub-cell,
each made for that sub-cell with the matching degree: the same integer for all, or the entry of the tuple. -/
theorem C29_product [Zero K] (F : FiatQuad K) (scheme : String) (cs : List Cell) (deg : Degree) (n n' : Nat)
    (q : QRule K) (h : makeQuadrature F scheme (.prod cs) deg n = .ok (q, n')) :
    ∃ (ds : List Degree) (rs : List (QRule K)),
      ((∃ d, deg = .int d ∧ ds = List.replicate cs.length (.int d)) ∨ deg = .tup ds) ∧
      q = .tensor rs ∧ ds.length = cs.length ∧ rs.length = cs.length ∧
      ∀ (k : Nat) (c : Cell) (d : Degree), cs[k]? = some c → ds[k]? = some d →
        ∃ r m m', rs[k]? = some r ∧ makeQuadrature F scheme c d m = .ok (r, m') := by
  rw [makeQuadrature] at h
  obtain ⟨_, n1, h1, h⟩ := bind_inv h
  replace h1 := assertM_inv h1
  obtain ⟨rs, n2, h2, h⟩ := bind_inv h
  have hq : q = .tensor rs := by
    cases h; rfl
  have H : ∀ (cs : List Cell) (ds : List Degree) (n n' : Nat) (rs : List (QRule K)), cs.length = ds.length →
      makeQuadratureL F scheme cs ds n = .ok (rs, n') → rs.length = cs.length ∧
      ∀ (k : Nat) (c : Cell) (d : Degree), cs[k]? = some c → ds[k]? = some d →
        ∃ r m m', rs[k]? = some r ∧ makeQuadrature F scheme c d m = .ok (r, m') := by
    intro cs
    induction cs with
    | nil =>
      intro ds n n' rs hl h
      cases ds with
      | nil => rw [makeQuadratureL] at h; cases h; simp; all_goals simp
      | cons => simp at hl
    | cons c cs ih =>
      intro ds n n' rs hl h
      cases ds with
      | nil => simp at hl
      | cons d ds =>
        rw [makeQuadratureL] at h
        obtain ⟨r, n1, h1, h⟩ := bind_inv h
        obtain ⟨rs', n2, h2, h⟩ := bind_inv h
        cases h
        obtain ⟨e1, e2⟩ := ih ds n1 n' rs' (by simpa using hl) h2
        refine ⟨by simp [e1], fun k c' d' hc hd => ?_⟩
        cases k with
        | zero =>
          simp only [List.getElem?_cons_zero, Option.some.injEq] at hc hd
          subst hc; subst hd
          exact ⟨r, n, n1, rfl, h1⟩
        | succ k => exact e2 k c' d' (by simpa using hc) (by simpa using hd)
  have h1' : cs.length = (deg.expand cs.length).length := by simpa using h1
  obtain ⟨e1, e2⟩ := H cs _ n1 n2 rs h1' h2
  refine ⟨deg.expand cs.length, rs, ?_, hq, h1'.symm, e1, e2⟩
  cases deg with
  | int d => exact .inl ⟨d, rfl, rfl⟩
  | tup ds => exact .inr rfl

/-- C29. A tuple of degrees of the wrong length is refused. -/
theorem C29_tuple_length [Zero K] (F : FiatQuad K) (scheme : String) (cs : List Cell) (ds : List Degree)
    (h : cs.length ≠ ds.length) (n : Nat) :
    makeQuadrature F scheme (.prod cs) (.tup ds) n = .error .assertionError := by
  simp [makeQuadrature, Degree.expand, h]
  rfl

/-- C29, quadrilaterals. A quadrilateral is treated as the product of two intervals. -/
theorem C29_quadrilateral [Zero K] (F : FiatQuad K) (scheme : String) (deg : Degree) :
    makeQuadrature F scheme .quad deg = makeQuadrature F scheme (.prod [.simplex 1, .simplex 1]) deg := by
  simp only [makeQuadrature, List.length_cons, List.length_nil]
  by_cases h : 2 = (deg.expand 2).length
  · congr 1
    funext _
    match hd : deg.expand 2, h with
    | [d, e], _ => simp [makeQuadratureL, makeQuadrature]
  · simp only [Nat.zero_add, Nat.reduceAdd, h, decide_false]
    rfl

/-! ### The hypotheses are met -/

/-- Midpoint and Simpson's rule standing in for the Gauss rules of one and two points, the centroid rule on
triangles; no other rule. -/
def exF : FiatQuad ℚ where
  isMacro _ := false
  gauss n := if n = 1 then ([[1 / 2]], [1]) else ([[0], [1 / 2], [1]], [1 / 6, 2 / 3, 1 / 6])
  scheme c d _ := if c = .simplex 2 ∧ d ≤ 1 then .ok ([[1 / 3, 1 / 3]], [1 / 2]) else .error .notImplemented

theorem exF_exact : FiatExact exF "default" 3 where
  gauss := by
    intro n h1 h2
    have : n = 1 ∨ n = 2 := by omega
    rcases this with rfl | rfl
    · refine ⟨rfl, by simp [exF, Cell.spatialDim], fun α ha hs => ?_⟩
      match α, ha with
      | [a], _ =>
        have : a = 0 ∨ a = 1 := by simp at hs; omega
        rcases this with rfl | rfl <;> simp [exF, monoVal, moment, Nat.factorial]
    · refine ⟨rfl, by simp [exF, Cell.spatialDim], fun α ha hs => ?_⟩
      match α, ha with
      | [a], _ =>
        have : a = 0 ∨ a = 1 ∨ a = 2 ∨ a = 3 := by simp at hs; omega
        rcases this with rfl | rfl | rfl | rfl <;> simp [exF, monoVal, moment, Nat.factorial] <;> norm_num
  scheme := by
    intro c d pw hd h
    by_cases hc : c = .simplex 2 ∧ d ≤ 1
    · simp only [exF, if_pos hc, Except.ok.injEq] at h
      subst h
      obtain ⟨rfl, hd1⟩ := hc
      refine ⟨rfl, by simp [Cell.spatialDim], fun α ha hs => ?_⟩
      match α, ha with
      | [a, b], _ =>
        have : (a = 0 ∧ b = 0) ∨ (a = 0 ∧ b = 1) ∨ (a = 1 ∧ b = 0) := by simp at hs; omega
        rcases this with ⟨rfl, rfl⟩ | ⟨rfl, rfl⟩ | ⟨rfl, rfl⟩ <;>
          simp [monoVal, moment, Nat.factorial] <;> norm_num
    · simp [exF, if_neg hc] at h

/-- A prism over a triangle times a quadrilateral: degree 1 on the triangle, degrees 2 and 3 on the sides of
the quadrilateral. -/
example := C28_make_quadrature exF_exact (.prod [.simplex 2, .quad])
  (.tup [.int 1, .tup [.int 2, .int 3]])
  (by simp [GoodDegree, GoodDegreeL, Degree.expand, Available, exF]; exact ⟨2, 3, by simp⟩) 0

/-- ... where `x y^2 z^3` is among the polynomials. -/
example : Within (.prod [.simplex 2, .quad]) (.tup [.int 1, .tup [.int 2, .int 3]]) [0, 1, 2, 3] := by
  simp [Within, WithinL, Degree.expand, Cell.spatialDim]

/-- A product of three factors, one of them itself a product. -/
def exRule : QRule ℚ :=
  .tensor [.rule (.points .plain [[1], [2]] [⟨0, 2⟩]) [3, 4],
    .tensor [.rule (.points .plain [[5, 6]] [⟨1, 1⟩]) [7], .rule (.points .plain [[0], [1], [2]] [⟨2, 3⟩]) [8, 9, 10]]]

theorem exRule_ok : RuleOK exRule := by
  simp [exRule, RuleOK, RuleOKL]

example := C27_points (p := exRule.pointSet) (n := 3)
  (by
    simp [exRule, QRule.pointSet, QRule.pointSetL, PSet.WF, PSet.WFL])
  (by simp [exRule, QRule.pointSet, QRule.pointSetL, PSet.indices, PSet.indicesL])
example := C27_weights exRule_ok 3
example := C27_sum exRule_ok (by simp [exRule, QRule.pointSet, QRule.pointSetL, PSet.indices, PSet.indicesL]) 3

/-- The midpoint rule with the affine functions, twice. -/
def exFactor (k : Nat) : Factor ℚ where
  rule := .rule (.points .plain [[1 / 2]] [⟨k, 1⟩]) [1]
  dim := 1
  cls f := ∃ a b, ∀ x, f x = a + b * x.headD 0
  integral f := (f [0] + f [1]) / 2

theorem exFactor_exact (k : Nat) : (exFactor k).Exact where
  ok := by simp [exFactor, RuleOK]
  width := by simp [exFactor, QRule.pointSet, PSet.pts]
  exact := by
    rintro f ⟨a, b, h⟩
    simp [exFactor, iterSum, PSet.pts, h]
    ring

example := C28_product (es := [exFactor 0, exFactor 1]) (by simp)
  (by simp only [List.mem_cons, List.not_mem_nil, or_false, forall_eq_or_imp, forall_eq]
      exact ⟨exFactor_exact 0, exFactor_exact 1⟩)
  (by simp [exFactor, QRule.pointSet, QRule.pointSetL, PSet.indices, PSet.indicesL]) 2

example := C29_interval exF "default" 4 0 rfl (fun m => by by_cases h : m = 1 <;> simp [exF, h])
example := C29_negative exF "default" (.prod [.simplex 2, .prod [.quad, .simplex 1]]) (by simp [NoEmpty, NoEmptyL])
  (-1) (by decide) 0
example : ∃ q n', makeQuadrature exF "default" (.prod [.simplex 1, .quad]) (.int 3) 0 = .ok (q, n') :=
  ⟨_, _, rfl⟩
example := C29_tuple_length exF "default" [.simplex 1, .simplex 1] [.int 2] (by simp) 0

end FInAT.Props
