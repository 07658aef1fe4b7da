import Verif.Model.Ufl.Query
import Verif.Props.UflComponent
import Verif.Props.UflConstant

/-!
# C88: questions about one component
-/

namespace FInAT.Props

open FInAT FInAT.Ufl

/-- Elements that consist of other elements side by side. -/
def SideBySide : UElem → Prop
  | .mixed .. | .vector .. | .tensor .. => True
  | _ => False

/-- Elements that are asked as a whole: no sub-elements, a parameter for the component. -/
def AskedWhole : UElem → Prop
  | .mixed .. | .vector .. | .tensor .. | .enriched .. | .restricted .. => False
  | _ => True

/-- **C88** is false of all mixed, vector and tensor elements: asking for the degree of one component, or
whether one component is constant, raises `TypeError` for every component, whatever the sub-elements would
have answered. -/
theorem C88_raises (e : UElem) (h : SideBySide e) (i : List Nat)
    (subDegree : Nat → List Nat → Except Err Deg) (subConstant : Nat → List Nat → Except Err Bool) :
    degreeAt subDegree e (some i) = .error .typeError ∧
    constantAt subConstant e (some i) = .error .typeError := by
  cases e <;> first | exact h.elim | exact ⟨rfl, rfl⟩

/-- ... and asking enriched and restricted elements whether one component is constant raises `TypeError`. -/
theorem C88_no_parameter (e : UElem) (i : List Nat) (subConstant : Nat → List Nat → Except Err Bool) :
    (∀ b nodal subs, e = .enriched b nodal subs → constantAt subConstant e (some i) = .error .typeError) ∧
    (∀ b s d, e = .restricted b s d → constantAt subConstant e (some i) = .error .typeError) := by
  refine ⟨?_, ?_⟩
  · rintro b nodal subs rfl
    rfl
  · rintro b s d rfl
    rfl

/-- **C88**, the part that holds: an element without sub-elements answers for each of its components what
it answers as a whole, and that is the answer of the part to which the component belongs, the element itself. -/
theorem C88_whole_partial (e : UElem) (h : AskedWhole e) (i : List Nat) (j : List Int) (p : UElem)
    (hp : extractRef e (i.map Int.ofNat) = .ok (j, p))
    (subDegree : Nat → List Nat → Except Err Deg) (subConstant : Nat → List Nat → Except Err Bool) :
    degreeAt subDegree e (some i) = .ok p.degree ∧ constantAt subConstant e (some i) = .ok (isConstant p) := by
  have hpe : p = e := by
    cases e <;> first | exact h.elim | skip
    all_goals
      rw [extractRef] at hp
      · obtain ⟨_, _, hp⟩ := bind_ok hp
        obtain ⟨_, _, hp⟩ := bind_ok hp
        cases hp
        rfl
      all_goals simp
  subst hpe
  cases p <;> first | exact h.elim | exact ⟨rfl, rfl⟩

/-- **C88**, sums: the degree of an enriched or restricted element is answered for each component. -/
theorem C88_sums (e : UElem) (h : ¬ SideBySide e) (i : List Nat)
    (subDegree : Nat → List Nat → Except Err Deg) : degreeAt subDegree e (some i) = degreeAt subDegree e none := by
  cases e <;> first | rfl | exact absurd trivial h

/-- **C88**, without a component: the element answers for itself, and the answer that it is constant is right
for all its simple parts (those of C74). -/
theorem C88_no_component {e : UElem} (h : Built e) (hg : ∀ l ∈ simpleParts e, Graded l)
    (subDegree : Nat → List Nat → Except Err Deg) (subConstant : Nat → List Nat → Except Err Bool) :
    degreeAt subDegree e none = .ok e.degree ∧ ∃ b, constantAt subConstant e none = .ok b ∧
      (b = true → ∀ l ∈ simpleParts e, ConstantPart l) ∧
      (b = false → Unfactored e → ∃ l ∈ simpleParts e, l.degree ≠ .int 0) := by
  refine ⟨by cases e <;> rfl, isConstant e, rfl, C74_sound_partial h hg, fun hb hu => ?_⟩
  by_contra hn
  push_neg at hn
  rw [C74_complete_partial h hu hn] at hb
  cases hb

namespace UflQueryExample

open UflTreeCases

/-- The velocity and pressure of Taylor-Hood: component 2 is the pressure, which has degree 1 ... -/
example : extractRef taylorHood [2] = .ok ([], lag 1) := by rfl

/-- ... but asking for it raises. -/
example := C88_raises taylorHood trivial [2]

/-- A piecewise constant element says so. -/
example := C88_no_component ConstantExample.dg_built (by
  simp [ConstantExample.dg, simpleParts, Graded, UElem.degree, UElem.family, UElem.base])

/-- A Lagrange element has one component. -/
example := C88_whole_partial (lag 2) trivial [] [] (lag 2) rfl

end UflQueryExample

end FInAT.Props
