import Verif.Lemmas.Mapping
import Verif.Lemmas.InterpMap
import Verif.Props.Tabulation
import Verif.Props.TabExamples

/-!
# C71: which elements can be tabulated with a coordinate mapping

`mappedInterp F R` is `basis_evaluation` with an argument `(ps, true)` for a call with a coordinate mapping and
`(ps, false)` for a call without.
-/

namespace FInAT.Props

open FInAT Spec Elem MvPolynomial

section
variable {K : Type} [CommRing K] (F : Fiat K) (R : Rules K)

/-- **C71** (without a mapping). An element with a physically mapped part is never tabulated without a
coordinate mapping, at any points, on any entity, for any order. -/
theorem C71_without (e : Elem) (h : Contains (fun l => F.mapped l ≠ none) e) (order : Nat) (ps : PSet K)
    (entity : Option (Dim × Nat)) (n : Nat) :
    ∀ T m, evaluate (mappedInterp F R) e order (ps, false) entity n ≠ .ok (T, m) :=
  unmapped_fails F R e h order ps entity n

/-- **C71** (defect). A physically mapped part below a tensor product, a flattened product or an
H(div)/H(curl) wrapper never receives the coordinate mapping: tabulating such an element fails whether or not the caller
passes one. -/
theorem C71_lost (e : Elem) (h : ¬ Reached (fun l => F.mapped l ≠ none) e) (order : Nat) (ps : PSet K)
    (mapping : Bool) (entity : Option (Dim × Nat)) (n : Nat) :
    ∀ T m, evaluate (mappedInterp F R) e order (ps, mapping) entity n ≠ .ok (T, m) :=
  unreached_fails F R e h order (ps, mapping) entity n

/-- **C71** (the default). Leaving the coordinate mapping out is passing `None`: `basisInterp`, the tabulation
that C12-C18 speak about, is the tabulation without a mapping; in particular it fails for elements with a physically
mapped part. -/
theorem C71_default (e : Elem) (order : Nat) (ps : PSet K) (entity : Option (Dim × Nat)) :
    evaluate (basisInterp F R) e order ps entity = evaluate (mappedInterp F R) e order (ps, false) entity ∧
    (Contains (fun l => F.mapped l ≠ none) e → ∀ n T m, evaluate (basisInterp F R) e order ps entity n ≠ .ok (T, m)) := by
  have h := (evaluate_maps (basis_maps F R) e order ps entity).symm
  exact ⟨h, fun hc n T m => by rw [h]; exact C71_without F R e hc order ps entity n T m⟩

/-- **C61** (quadrature elements). Quadrature elements have no values away from their points: an element with a
quadrature element anywhere in it is never evaluated at a point, on any entity, for any order. -/
theorem C61_quadrature (S : SymTab K) (e : Elem) (h : HasQuadrature e) (order : Nat) (p : Gem K)
    (entity : Option (Dim × Nat)) (n : Nat) : ∀ T m, evaluate (pointInterp F S) e order p entity n ≠ .ok (T, m) :=
  part_fails (I := pointInterp F S) (fun _ _ _ _ _ _ _ _ _ h => by cases h)
    (fun _ _ _ _ _ _ h => factorPoint_length h) e h order p entity n

/-- **C18** (points known at run time). A FIAT element cannot be tabulated at points that are known only at run
time. -/
theorem C18_needs_points (l : Leaf) (order : Nat) (pts : List (List K)) (d : Nat) (i : Index) (entity : Option (Dim × Nat)) (n : Nat)
    (hm : F.mapped l = none) (hs : F.spectral l = none) :
    evaluate (mappedInterp F R) (.leaf l) order (.unknown pts d i, false) entity n = .error .typeError := by
  simp only [evaluate, mappedInterp, leafBasisWith, hm, Option.isSome_none, Bool.false_and, Bool.false_eq_true, if_false,
    leafBasisEvaluation, hs, fiatBasisEvaluation]
  rfl

/-- **C14** (vector valued factors). A product of which two factors are not scalar is refused, and one of which at
most one is not is made. -/
theorem C14_refused (fs : List Elem) (vs : List (List Nat)) (h : Elem.valueShapeL fs = .ok vs) :
    (2 ≤ (vs.filter (· ≠ [])).length → mkTensorProduct fs = .error .notImplemented) ∧
    ((vs.filter (· ≠ [])).length ≤ 1 → mkTensorProduct fs = .ok (.tensorProduct fs)) := by
  unfold mkTensorProduct prodValueShape
  rw [h]
  simp only [bind, Except.bind, pure, Except.pure]
  generalize vs.filter (fun s => decide (s ≠ [])) = l
  match l with
  | [] => exact ⟨fun h => by simp at h, fun _ => rfl⟩
  | [s] => exact ⟨fun h => by simp at h, fun _ => rfl⟩
  | _ :: _ :: _ => exact ⟨fun _ => rfl, fun h => by simp at h⟩

variable [DecidableEq K]

/-- **C71** (with a mapping). All other elements built from FIAT leaves are tabulated at unstructured points on
every entity of the cell, and the table holds the composite basis functions, physically mapped leaves
contributing their transformed functions. -/
theorem C71_reached_partial (e : Elem) (c : Cell) (vs : List Nat) (order n : Nat) (ps : PSet K)
    (entity : Option (Dim × Nat)) (hs : Shaped e) (hcube : Cubes e)
    (hl : AllLeaves (MappedLeafOK F order) e) (hr : Reached (fun l => F.mapped l ≠ none) e)
    (hc : e.cell = .ok c) (hv : e.valueShape = .ok vs) (hw : ps.WF n)
    (hent : IsEntity c (entity.getD (c.dimension, 0)))
    (hp : PlainPoints ps (entity.getD (c.dimension, 0)).1.total) :
    Yields (evaluate (mappedInterp F R) e order (ps, true) entity) n fun T =>
      IsTable ps.Valid T c.spatialDim order e.indexShape vs fun α ρ i z =>
        basisValue (leafVals F R) e α (entity.getD (c.dimension, 0)) (ps.pointAt ρ) i z :=
  tabulation (mappedSem F R) e hs order (ps, true) entity c vs n n hw (Nat.le_refl n) hc hv
    (admits_reached F R order e ps _ c hcube hl hr hc hent hp)

/-- **C71.** Under the same conditions the two cases exclude each other: with a coordinate mapping the element
is tabulated if and only if no physically mapped part is hidden below a product or wrapper. -/
theorem C71_iff (e : Elem) (c : Cell) (vs : List Nat) (order n : Nat) (ps : PSet K)
    (entity : Option (Dim × Nat)) (hs : Shaped e) (hcube : Cubes e)
    (hl : AllLeaves (MappedLeafOK F order) e)
    (hc : e.cell = .ok c) (hv : e.valueShape = .ok vs) (hw : ps.WF n)
    (hent : IsEntity c (entity.getD (c.dimension, 0)))
    (hp : PlainPoints ps (entity.getD (c.dimension, 0)).1.total) :
    (∃ T m, evaluate (mappedInterp F R) e order (ps, true) entity n = .ok (T, m)) ↔
      Reached (fun l => F.mapped l ≠ none) e := by
  constructor
  · rintro ⟨T, m, h⟩
    by_contra hr
    exact C71_lost F R e hr order ps true entity n T m h
  · intro hr
    obtain ⟨T, m, h, _⟩ := C71_reached_partial F R e c vs order n ps entity hs hcube hl hr hc hv hw hent hp
    exact ⟨T, m, h⟩

end

/-! ### A concrete case -/

namespace MappingExample

/-- CG1 is mapped by the matrix with rows (1, 1) and (0, 1), the other leaves are not mapped. -/
noncomputable def mapFiat : Fiat ℤ :=
  { exFiat with mapped := fun l => if l.id = 0 then some ⟨l.fns.length, fun i j => if i ≤ j then 1 else 0⟩ else none }

/-- A vector-valued sum of the mapped element and a constant. -/
def good : Elem := .tensorFE (.enriched [.leaf cg1, .discontinuous (.leaf dg0)]) [2] false

/-- The mapped element in a product. -/
def bad : Elem := .enriched [.flattened (.tensorProduct [.leaf cg1, .leaf dg0]), q2]

theorem reached_good : Reached (fun l => mapFiat.mapped l ≠ none) good := by
  simp [good, Reached, ReachedL]

theorem unreached_bad : ¬ Reached (fun l => mapFiat.mapped l ≠ none) bad := by
  simp [bad, Reached, ReachedL, Contains, ContainsL, mapFiat, cg1]

theorem leafOK (order : Nat) (l : Leaf) (hl : l = cg1 ∨ l = cg2 ∨ l = dg0) : MappedLeafOK mapFiat order l := by
  rintro p ent hent ⟨pts, idx, rfl, hne, hd⟩
  refine ⟨⟨fun _ _ _ h => (by cases h), by simpa [PSet.pts] using hne,
    fiatPoly_of rfl (fun _ => exPoly l) (exEmb l ent) (fun _ _ _ _ => rfl) (fun _ => exPoly_degree l hl)
      (fun _ _ _ _ _ => rfl), ?_, .inl ?_⟩, fun _ cls h => (by cases h)⟩
  · rcases hl with rfl | rfl | rfl <;> decide
  · rcases hl with rfl | rfl | rfl <;> rfl

theorem leaves_good (order : Nat) : AllLeaves (MappedLeafOK mapFiat order) good := by
  simp only [good, AllLeaves, AllLeavesL]
  exact ⟨leafOK order cg1 (.inl rfl), leafOK order dg0 (.inr (.inr rfl)), trivial⟩

/-- Three points of the interval. -/
def pts : PSet ℤ := .points .plain [[0], [1], [2]] [⟨0, 3⟩]

theorem pts_wf : pts.WF 1 := by
  simp only [pts, PSet.WF]
  exact ⟨by simp, by decide, 1, by simp⟩

example (order : Nat) : Yields (evaluate (mappedInterp mapFiat exRules) good order (pts, true) none) 1 fun T =>
    IsTable pts.Valid T 1 order [3, 2] [2] fun α ρ i z =>
      basisValue (leafVals mapFiat exRules) good α (.int 1, 0) (pts.pointAt ρ) i z :=
  C71_reached_partial mapFiat exRules good (.simplex 1) [2] order 1 pts none
    (by simp [good, Shaped]) (by simp [good, Cubes, CubesL]) (leaves_good order) reached_good rfl rfl pts_wf
    ⟨1, Cell.dimension_mem _, by simp⟩ ⟨_, _, rfl, by simp, by simp [Cell.dimension, Dim.total]⟩

example (order : Nat) (p : PSet ℤ) (b : Bool) (entity : Option (Dim × Nat)) (n : Nat) :
    ∀ T m, evaluate (mappedInterp mapFiat exRules) bad order (p, b) entity n ≠ .ok (T, m) :=
  C71_lost mapFiat exRules bad unreached_bad order p b entity n

example (order : Nat) (p : PSet ℤ) (entity : Option (Dim × Nat)) (n : Nat) :
    ∀ T m, evaluate (mappedInterp mapFiat exRules) good order (p, false) entity n ≠ .ok (T, m) :=
  C71_without mapFiat exRules good (by simp [good, Contains, ContainsL, mapFiat, cg1]) order p entity n

/- Without a mapping the sum with CG1 in it fails; the two ways of saying so agree. -/
example (order : Nat) (p : PSet ℤ) (n : Nat) :=
  (C71_default mapFiat exRules good order p none).2 (by simp [good, Contains, ContainsL, mapFiat, cg1]) n

/- A quadrature element times CG1. -/
example (S : SymTab ℤ) (order : Nat) (p : Gem ℤ) (n : Nat) :=
  C61_quadrature mapFiat S (.tensorProduct [.leaf cg1, .quadrature 0 (.simplex 1) [3]])
    (by simp [HasQuadrature, HasQuadratureL]) order p none n

/- CG2 is neither mapped nor spectral here. -/
example (order : Nat) (i : Index) := C18_needs_points mapFiat exRules cg2 order [[0], [1]] 1 i none 0
  (by simp [mapFiat, cg2]) (by simp [mapFiat, exFiat, polyFiat])

/- Two vector elements are not multiplied; a vector element and a scalar one are. -/
example := (C14_refused [.tensorFE (.leaf cg1) [2] false, .tensorFE (.leaf cg1) [2] false] [[2], [2]] rfl).1 (by decide)
example := (C14_refused [.tensorFE (.leaf cg1) [2] false, .leaf cg1] [[2], []] rfl).2 (by decide)

/-- The first basis function of the mapped leaf is the sum of the two FIAT functions. -/
example (x : List ℤ) : basisValue (leafVals mapFiat exRules) (.leaf cg1) [0] (.int 1, 0) x [0] [] =
    evalAt x (exPoly cg1 0 []) + evalAt x (exPoly cg1 1 []) := by
  simp [basisValue, leafVals, leafFn, mapFiat, cg1, List.range_succ, exFiat, polyFiat, exEmb, partialD]

end MappingExample

end FInAT.Props
