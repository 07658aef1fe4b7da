import Verif.Lemmas.Unity
import Verif.Props.Complete
import Verif.Props.Exact

/-!
# C108: products of Lagrange elements sum to one, and coefficients of Bernstein elements bound their functions
-/

namespace FInAT.Props

open FInAT Spec Elem MvPolynomial

section
variable {K : Type} [CommRing K]

/-- **C108.** If the basis functions of the leaves sum to one (as those of Lagrange and Bernstein elements do), so do those
of the element, in each component and at each point; the derivatives of any order sum to zero. -/
theorem C108_sum (φ : LeafVals K) (S : Nat → List K → Prop) (h0 : S 0 []) (e : Elem)
    (h : ProductTree (fun l => SumsToOne φ S (.leaf l)) e) : SumsToOne φ S e := sumsToOne h0 e h

theorem partialD_sum (ps : List (MvPolynomial ℕ K)) : ∀ (o : Nat) (α : List Nat),
    partialD o α ps.sum = (ps.map (partialD o α)).sum
  | _, [] => by simp [partialD]
  | o, a :: α => by
    have h : ∀ (l : List (MvPolynomial ℕ K)), (pderiv o)^[a] l.sum = (l.map (pderiv o)^[a]).sum := by
      induction a with
      | zero => intro l; simp
      | succ a ih =>
        intro l
        rw [Function.iterate_succ_apply, map_list_sum, ih, List.map_map]
        rfl
    rw [partialD, partialD_sum ps, h, List.map_map]
    rfl

theorem partialD_one : ∀ (o : Nat) (α : List Nat),
    partialD o α (1 : MvPolynomial ℕ K) = if α = List.replicate α.length 0 then 1 else 0
  | _, [] => by simp [partialD]
  | o, a :: α => by
    rw [partialD, partialD_one (o + 1) α]
    simp only [List.length_cons, List.replicate_succ, List.cons.injEq]
    by_cases h : α = List.replicate α.length 0
    · rw [if_pos h]
      cases a with
      | zero => rw [if_pos ⟨rfl, h⟩]; rfl
      | succ a => rw [Function.iterate_succ_apply, pderiv_one, iter_zero, if_neg fun h => by cases h.1]
    · rw [if_neg h, iter_zero, if_neg fun h' => h h'.2]

/-- **C108**, leaves: an element of FIAT whose basis functions are polynomials that add up to the polynomial 1. -/
theorem C108_leaf (φ : LeafVals K) (S : Nat → List K → Prop) (Q : Leaf → Nat → List Nat → MvPolynomial ℕ K) (l : Leaf)
    (hl : LeafIsPoly φ Q l) (h : ∀ z, InRange z l.valueShape → ((List.range l.fns.length).map fun i => Q l i z).sum = 1) :
    SumsToOne φ S (.leaf l) := by
  rw [sumsToOne_eq]
  intro c vs hc hv α x z hα hx hz
  cases hc
  cases hv
  simp only [Elem.indexShape, basisValue]
  rw [lsum_ndindex_one, lsum_congr (g := fun i => evalAt x (partialD 0 α (Q l i z))) (fun i _ => by
    rw [hl.2 α x [i] z hα (inCell_length hx)]
    rfl)]
  have h2 := congrArg (fun p => evalAt x (partialD 0 α p)) (h z hz)
  simp only [partialD_sum, partialD_one, map_list_sum, List.map_map] at h2
  rw [hα] at h2
  refine Eq.trans ?_ (h2.trans ?_)
  · rfl
  · split_ifs
    · exact map_one _
    · exact map_zero _

variable [DecidableEq K]

/-- **C108**, tables: tabulate such an element at points of the cell. The entries of each table, added up over the basis
functions, give one for the values and zero for the derivatives. -/
theorem C108_tables (F : Fiat K) (R : Rules K) (S : Nat → List K → Prop) (h0 : S 0 []) (e : Elem) (c : Cell) (vs : List Nat)
    (order n : Nat) (p : PSet K) (hs : Shaped e) (hq : Cubes e) (hl : AllLeaves (PlainLeafOK F order) e)
    (h : ProductTree (fun l => SumsToOne (leafVals F R) S (.leaf l)) e) (hc : e.cell = .ok c) (hv : e.valueShape = .ok vs)
    (hw : p.WF n) (hp : PlainPoints p c.spatialDim) (hin : ∀ x ∈ p.pts, InCell S c x) :
    Yields (evaluate (basisInterp F R) e order p none) n fun T =>
      (∀ α, α ∈ T.keys ↔ α.length = c.spatialDim ∧ α.sum ≤ order) ∧
      ∀ α table, T.get? α = some table → ∀ ρ z, p.Valid ρ → InRange z vs →
        ((ndindex e.indexShape).map fun i => table.eval ρ (i ++ z)).sum =
          if α = List.replicate c.spatialDim 0 then 1 else 0 := by
  obtain ⟨T, m, h1, hT⟩ := tabulation (basisSem F R) e hs order p none c vs n n hw (Nat.le_refl n) hc hv
    (admits_plain F R order e p (c.dimension, 0) c hq hl hc (cell_isEntity c) (by rwa [Cell.total_dimension]))
  refine ⟨T, m, h1, hT.keys, fun α table hα ρ z hρ hz => ?_⟩
  have hk := (hT.keys α).1 (List.mem_map.2 ⟨_, Dict.mem_of_get?_eq_some hα, rfl⟩)
  rw [← sumsToOne h0 e h c vs hc hv α (p.pointAt ρ) z hk.1 (hin _ (PSet.pointAt_mem hw hρ)) hz]
  exact lsum_congr fun i hi => hT.value α table hα ρ i z hρ (mem_ndindex.1 hi) hz

end

section
variable {K : Type} [CommRing K] [PartialOrder K] [IsOrderedRing K]

/-- **C108**, signs: if the basis functions of the leaves are nowhere negative, neither are those of the element. -/
theorem C108_nonnegative (φ : LeafVals K) (S : Nat → List K → Prop) (h0 : S 0 []) (e : Elem)
    (h : ProductTree (fun l => NonNegative φ S (.leaf l)) e) : NonNegative φ S e := nonNegative h0 e h

/-- **C108**, bounds: for leaves with both properties (Bernstein elements of any degree, Lagrange elements of degree one),
bounds on the coefficients are bounds on the function: it is nowhere less than the smallest and nowhere more than the largest
coefficient. -/
theorem C108_bounds (φ : LeafVals K) (S : Nat → List K → Prop) (h0 : S 0 []) (e : Elem) (c : Cell) (vs : List Nat)
    (h1 : ProductTree (fun l => SumsToOne φ S (.leaf l)) e) (h2 : ProductTree (fun l => NonNegative φ S (.leaf l)) e)
    (hc : e.cell = .ok c) (hv : e.valueShape = .ok vs) (a : List Nat → K) (lo hi : K)
    (ha : ∀ j, InRange j e.indexShape → lo ≤ a j ∧ a j ≤ hi) (x : List K) (z : List Nat) (hx : InCell S c x)
    (hz : InRange z vs) : lo ≤ feFunction φ e c a x z ∧ feFunction φ e c a x z ≤ hi := by
  have hsum := (sumsToOne_eq e).1 (sumsToOne h0 e h1) c vs hc hv (List.replicate c.spatialDim 0) x z (by simp) hx hz
  rw [if_pos rfl] at hsum
  have hnn := fun j hj => nonNegative h0 e h2 c vs hc hv x j z hx hj hz
  rw [feFunction_eq]
  have hlo := lsum_mul_left lo (ndindex e.indexShape)
    (fun j => basisValue φ e (List.replicate c.spatialDim 0) (c.dimension, 0) x j z)
  have hhi := lsum_mul_left hi (ndindex e.indexShape)
    (fun j => basisValue φ e (List.replicate c.spatialDim 0) (c.dimension, 0) x j z)
  rw [hsum, mul_one] at hlo hhi
  constructor
  · refine le_of_eq_of_le hlo.symm (lsum_le fun j hj => ?_)
    have hj : InRange j _ := mem_ndindex.1 hj
    exact mul_le_mul_of_nonneg_right (ha j hj).1 (hnn j hj)
  · refine le_of_le_of_eq (lsum_le fun j hj => ?_) hhi
    have hj : InRange j _ := mem_ndindex.1 hj
    exact mul_le_mul_of_nonneg_right (ha j hj).2 (hnn j hj)

/-- **C108**, bounds, as a client of FInAT sees them: the expression made by tabulating the element at points of the cell
and contracting with a tensor of coefficients has values between the bounds on the coefficients. -/
theorem C108_tabulated [DecidableEq K] (F : Fiat K) (R : Rules K) (S : Nat → List K → Prop) (h0 : S 0 []) (e : Elem) (c : Cell)
    (vs : List Nat) (n : Nat) (p : PSet K) (hs : Shaped e) (hq : Cubes e) (hl : AllLeaves (PlainLeafOK F 0) e)
    (h1 : ProductTree (fun l => SumsToOne (leafVals F R) S (.leaf l)) e)
    (h2 : ProductTree (fun l => NonNegative (leafVals F R) S (.leaf l)) e)
    (hc : e.cell = .ok c) (hv : e.valueShape = .ok vs) (hw : p.WF n) (hp : PlainPoints p c.spatialDim)
    (hin : ∀ x ∈ p.pts, InCell S c x) (a : List Nat → K) (lo hi : K)
    (ha : ∀ j, InRange j e.indexShape → lo ≤ a j ∧ a j ≤ hi) :
    Yields (feExpression F R e (.literal e.indexShape a) p) n fun t => t.shape = vs ∧
      ∀ ρ z, p.Valid ρ → InRange z vs → lo ≤ t.eval ρ z ∧ t.eval ρ z ≤ hi := by
  obtain ⟨t, m, ht, _, hden⟩ := feExpression_spec (F := F) (R := R) (coeffs := .literal e.indexShape a) hs hc hv hw
    (admits_plain F R 0 e p (c.dimension, 0) c hq hl hc (cell_isEntity c) (by rwa [Cell.total_dimension])) rfl
    (fun _ _ _ => rfl)
  refine ⟨t, m, ht, hden.shape, fun ρ z hρ hz => ?_⟩
  rw [hden.val ρ z hρ hz]
  exact C108_bounds _ S h0 e c vs h1 h2 hc hv _ lo hi ha _ z (hin _ (PSet.pointAt_mem hw hρ)) hz

end

/-! ### The hypotheses are met -/

namespace UnityCases

open ExactCases

/-- The points with coordinates between 0 and 1. -/
def unit : Nat → List ℚ → Prop := fun _ x => ∀ t ∈ x, 0 ≤ t ∧ t ≤ 1

theorem unit_zero : unit 0 [] := by simp [unit]

theorem hat_sum : SumsToOne (leafVals fiat rules) unit (.leaf cg1) :=
  C108_leaf _ _ poly cg1 (leaf_ok 0 cg1 (.inl rfl)).2.1 fun z _ => by
    have : List.range cg1.fns.length = [0, 1] := rfl
    rw [this]
    simp [poly, cg1]

theorem hat_nonnegative : NonNegative (leafVals fiat rules) unit (.leaf cg1) := by
  intro c vs hc hv x j z hx hj hz
  have hc : c = .simplex 1 := (Except.ok.inj hc).symm
  subst hc
  obtain ⟨s, rfl⟩ := List.length_eq_one_iff.1 (inCell_length hx)
  have hs := hx.2 s List.mem_cons_self
  cases hj with
  | @cons k _ t _ hk ht =>
  cases ht
  have hk : k < 2 := hk
  have he : basisValue (leafVals fiat rules) (.leaf cg1) (List.replicate (Cell.simplex 1).spatialDim 0)
      ((Cell.simplex 1).dimension, 0) [s] [k] z = evalAt [s] (poly cg1 k z) := rfl
  rw [he]
  rcases (by omega : k = 0 ∨ k = 1) with rfl | rfl
  · simpa [poly, cg1, evalAt] using hs.2
  · simpa [poly, cg1, evalAt] using hs.1

/-- A vector-valued bilinear element. -/
def vector : Elem := .tensorFE q1 [3] false

/-- Points of the square. -/
def points : PSet ℚ := .points .plain [[0, 1], [1 / 2, 1 / 3]] [⟨0, 2⟩]

theorem points_wf : points.WF 1 := by
  simp only [points, PSet.WF]
  exact ⟨by simp, by decide, 2, by simp⟩

theorem points_in : ∀ x ∈ points.pts, InCell unit .quad x := by
  intro x hx
  have : points.pts = [[0, 1], [1 / 2, 1 / 3]] := rfl
  rw [this] at hx
  simp only [List.mem_cons, List.not_mem_nil, or_false] at hx
  rcases hx with rfl | rfl
  · exact ⟨rfl, fun t ht => by simp only [List.mem_cons, List.not_mem_nil, or_false] at ht; rcases ht with rfl | rfl <;> simp [unit]⟩
  · exact ⟨rfl, fun t ht => by
      simp only [List.mem_cons, List.not_mem_nil, or_false] at ht
      rcases ht with rfl | rfl <;> (simp only [unit, List.mem_singleton, forall_eq]; norm_num)⟩

theorem vector_cubes : Cubes vector := by
  simp only [vector, q1, Cubes, CubesL]
  exact ⟨⟨trivial, trivial, trivial⟩, fun c hc => by cases hc; exact ⟨Nat.le_refl 1, Nat.le_refl 1, trivial⟩⟩

theorem vector_of {P : Leaf → Prop} (h : P cg1) : ProductTree P vector := by
  simp only [vector, q1, ProductTree, ProductTreeL]
  exact ⟨⟨h, h, trivial⟩, fun c hc => by cases hc; exact ⟨Nat.le_refl 1, Nat.le_refl 1, trivial⟩⟩

theorem vector_leaves (order : Nat) : AllLeaves (PlainLeafOK fiat order) vector := by
  have h : PlainLeafOK fiat order cg1 := polyFiat_ok order (poly_degree cg1 (.inl rfl)) (by decide)
  simp only [vector, q1, AllLeaves, AllLeavesL]
  exact ⟨h, h, trivial⟩

example (order : Nat) := C108_tables fiat rules unit unit_zero vector .quad [3] order 1 points (by simp [vector, q1, Shaped])
  vector_cubes (vector_leaves order) (vector_of hat_sum) rfl rfl points_wf ⟨_, _, rfl, by simp, by simp [Cell.spatialDim]⟩ points_in

/-- Coefficients between 2 and 5. -/
example := C108_tabulated fiat rules unit unit_zero vector .quad [3] 1 points (by simp [vector, q1, Shaped])
  vector_cubes (vector_leaves 0) (vector_of hat_sum) (vector_of hat_nonnegative) rfl rfl points_wf
  ⟨_, _, rfl, by simp, by simp [Cell.spatialDim]⟩ points_in (fun j => if j.headD 0 = 0 then 2 else 5) 2 5
  (fun j _ => by show 2 ≤ (if j.headD 0 = 0 then (2 : ℚ) else 5) ∧ (if j.headD 0 = 0 then (2 : ℚ) else 5) ≤ 5
                 split_ifs <;> norm_num)

/-- Sums are left out: the functions of an element added to itself sum to two. -/
example : ¬ SumsToOne (leafVals fiat rules) unit (.enriched [.leaf cg1, .leaf cg1]) := by
  intro h
  have h1 := h (.simplex 1) [] rfl rfl [0] [0] [] rfl ⟨rfl, by simp [unit]⟩ .nil
  have hi : ndindex (Elem.enriched [.leaf cg1, .leaf cg1]).indexShape = [[0], [1], [2], [3]] := by decide +kernel
  rw [hi] at h1
  have e0 : ∀ k : Nat, basisValue (leafVals fiat rules) (.leaf cg1) [0] ((Cell.simplex 1).dimension, 0) [0] [k] [] =
      evalAt [0] (poly cg1 k []) := fun _ => rfl
  have hb : ∀ k, k < 4 → basisValue (leafVals fiat rules) (.enriched [.leaf cg1, .leaf cg1]) [0]
      ((Cell.simplex 1).dimension, 0) [0] [k] [] = evalAt [0] (poly cg1 (k % 2) []) := by
    intro k hk
    rcases (by omega : k = 0 ∨ k = 1 ∨ k = 2 ∨ k = 3) with rfl | rfl | rfl | rfl <;> rfl
  simp only [List.map_cons, List.map_nil, hb 0 (by decide), hb 1 (by decide), hb 2 (by decide), hb 3 (by decide)] at h1
  simp [poly, cg1, evalAt, Cell.spatialDim] at h1

end UnityCases

end FInAT.Props
