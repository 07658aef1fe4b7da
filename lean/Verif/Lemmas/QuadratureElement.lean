import Verif.Spec.QuadratureElement
import Verif.Lemmas.Quadrature
import Verif.Lemmas.Interpolate
import Verif.Props.Leaves

/-!
# Quadrature elements of constructed rules
-/

namespace FInAT

open Spec

variable {K : Type}

mutual
theorem arrays_of_ok : ∀ {q : QRule K}, RuleOK q → Props.Arrays q.pointSet
  | .rule ps w, h => by
    rw [RuleOK] at h
    obtain ⟨cls, pts, i, rfl, -, -⟩ := h
    simp [QRule.pointSet, Props.Arrays]
  | .tensor fs, h => by
    rw [RuleOK] at h
    simp only [QRule.pointSet, Props.Arrays]
    exact arraysL_of_ok h.2
theorem arraysL_of_ok : ∀ {qs : List (QRule K)}, RuleOKL qs → Props.ArraysL (QRule.pointSetL qs)
  | [], _ => by simp [QRule.pointSetL, Props.ArraysL]
  | q :: qs, h => by
    rw [RuleOKL] at h
    simp only [QRule.pointSetL, Props.ArraysL]
    exact ⟨arrays_of_ok h.1, arraysL_of_ok h.2⟩
end

theorem indices_of_ok : ∀ {q : QRule K}, RuleOK q → q.pointSet.indices ≠ []
  | .rule ps w, h => by
    rw [RuleOK] at h
    obtain ⟨cls, pts, i, rfl, -, -⟩ := h
    simp [QRule.pointSet, PSet.indices]
  | .tensor [], h => by
    rw [RuleOK] at h
    exact absurd rfl h.1
  | .tensor (q :: qs), h => by
    rw [RuleOK, RuleOKL] at h
    simp only [QRule.pointSet, QRule.pointSetL, PSet.indices, PSet.indicesL]
    intro h0
    exact indices_of_ok h.2.1 (List.append_eq_nil_iff.1 h0).1

/-- A rule whose points all have `d` coordinates has dimension `d`. -/
theorem dimension_of_width {p : PSet K} {d : Nat} (ha : Props.Arrays p) (hne : p.pts ≠ [])
    (hw : ∀ x ∈ p.pts, x.length = d) : p.dimension = .ok d := by
  cases p with
  | unknown pts e idx => simp [Props.Arrays] at ha
  | singleton p => simp [Props.Arrays] at ha
  | points cls pts idx =>
    simp only [PSet.dimension]
    cases hp : (PSet.points cls pts idx).pts with
    | nil => exact absurd hp hne
    | cons x l => rw [hp] at hw; simpa using hw x (by simp)
  | tensor fs =>
    simp only [PSet.dimension]
    cases hp : (PSet.tensor fs).pts with
    | nil => exact absurd hp hne
    | cons x l => rw [hp] at hw; simpa using hw x (by simp)

section
variable [Field K] [CharZero K]

/-- The construction succeeds. -/
theorem makeQuadratureElement_spec {F : FiatQuad K} {s : String} {D : Nat} (hF : FiatExact F s D) (r : Nat)
    (c : Cell) (deg : Degree) (n : Nat) (hd : GoodDegree F s D c deg) :
    Runs (makeQuadratureElement F s r c deg) n fun qe n' => Made qe.1 c deg n n' ∧
      qe.2 = .quadrature r c (qe.1.pointSet.indices.map Index.extent) := by
  unfold makeQuadratureElement
  apply Runs.bind
  refine (makeQuadrature_spec hF c deg n hd).mono fun q n1 m => ?_
  apply Runs.bind
  refine Runs.liftE (a := .quadrature r c (q.pointSet.indices.map Index.extent)) ?_ (Runs.pure ⟨m, rfl⟩)
  have h : q.pointSet.dimension = .ok c.spatialDim := dimension_of_width (arrays_of_ok m.ok) m.ne m.width
  simp only [newQuadratureElement, h]
  show (if c.spatialDim ≠ c.spatialDim then _ else _) = _
  rw [if_neg (by simp)]

end

/-- The point selected by a value of the indices, by its number. -/
theorem at_getD {p : PSet K} {n : Nat} (hw : p.WF n) (hn : (p.indices.map Index.id).Nodup) {v : List Nat}
    (hv : InB v (p.indices.map Index.extent)) :
    p.at_ v = p.pts.getD (ravel (p.indices.map Index.extent) v) [] := by
  have h := (PSet.pts_at hw).2 (ρ := bindIx (fun _ => 0) p.indices v) (PSet.valid_bindIx hn _ hv)
  rw [map_bindIx _ hn (by rw [hv.length]; simp)] at h
  rw [List.getD_eq_getElem?_getD, h]
  rfl

variable [CommRing K]

/-- With the identity table the sum over the degrees of freedom picks one coefficient. -/
theorem formSum_identity {q : QRule K} (h : RuleOK q) (hn : (q.pointSet.indices.map Index.id).Nodup) {W t : Gem K}
    (hW : ∀ ρ, W.eval ρ [] = weightAt q (q.pointSet.indices.map fun i => ρ i.id))
    (ht : ∀ ρ v, InB v (q.pointSet.indices.map Index.extent) → t.eval ρ v =
      if (q.pointSet.indices.map fun i => ρ i.id) = v then 1 else 0)
    (ρ : Nat → Nat) (a : List Nat → K) (g : List K → K) :
    formSum W q.pointSet ρ (q.pointSet.indices.map Index.extent) t a g =
      lsum (ndindex (q.pointSet.indices.map Index.extent)) fun v => weightAt q v * a v * g (q.pointSet.at_ v) := by
  refine lsum_congr fun v hv => ?_
  have hv' : InB v _ := mem_ndindex.1 hv
  have hb := map_bindIx ρ hn (v := v) (by rw [hv'.length]; simp)
  have hs : ((ndindex (q.pointSet.indices.map Index.extent)).map fun i =>
      a i * t.eval (bindIx ρ q.pointSet.indices v) i).sum = a v := by
    show lsum _ _ = _
    rw [lsum_congr (g := fun i => if v = i then a i else 0) fun i hi => by
      rw [ht _ _ (mem_ndindex.1 hi), hb, mul_ite, mul_one, mul_zero]]
    exact lsum_delta (nodup_ndindex _) hv a
  rw [hs, hW, hb, PSet.at_eq hn hb]

end FInAT
