import Verif.Model.Ufl.Pullback

/-!
# Specification vocabulary: the simple elements of a UFL element tree
-/

namespace FInAT.Ufl

mutual
/-- The simple elements (`FiniteElement`) that an element is made of. A vector or tensor
element with no components is made of nothing. -/
def simpleParts : UElem → List UElem
  | .fe b o s m v emb => [.fe b o s m v emb]
  | .mixed _ subs => simplePartss subs
  | .vector _ e dim _ => if dim = 0 then [] else simpleParts e
  | .tensor _ e _ _ _ count _ _ => if count = 0 then [] else simpleParts e
  | .product _ subs => simplePartss subs
  | .enriched _ _ subs => simplePartss subs
  | .hdiv _ e => simpleParts e
  | .hcurl _ e => simpleParts e
  | .withMapping e _ => simpleParts e
  | .restricted _ e _ => simpleParts e
  | .broken _ e => simpleParts e
/-- The simple elements that several elements are made of. -/
def simplePartss : List UElem → List UElem
  | [] => []
  | e :: es => simpleParts e ++ simplePartss es
end

/-- The functions of a simple element are constant: they are the same on all cells, or
the smallest Lagrange space that contains them has degree zero. -/
def ConstantPart (e : UElem) : Prop :=
  e.family = "Real" ∨ embeddedSuper e = .ok (.int 0)

/-- A simple element with a degree, of a family where the degree says how large the space
is. The degree of the two families of bubbles is not checked against anything. -/
def Graded (e : UElem) : Prop :=
  e.degree ≠ .none ∧ e.family ≠ "Bernardi-Raugel Bubble" ∧ e.family ≠ "Guzman-Neilan Bubble"

mutual
/-- There are no products and no nodal enriched elements in the tree, and no mixed, vector
or tensor elements without components. -/
def Unfactored : UElem → Prop
  | .fe .. => True
  | .mixed _ subs => subs ≠ [] ∧ Unfactoreds subs
  | .vector _ e dim _ => 0 < dim ∧ Unfactored e
  | .tensor _ e _ _ _ count _ _ => 0 < count ∧ Unfactored e
  | .product _ _ => False
  | .enriched _ nodal subs => nodal = false ∧ Unfactoreds subs
  | .hdiv _ e => Unfactored e
  | .hcurl _ e => Unfactored e
  | .withMapping e _ => Unfactored e
  | .restricted _ e _ => Unfactored e
  | .broken _ e => Unfactored e
/-- All elements of a list are so. -/
def Unfactoreds : List UElem → Prop
  | [] => True
  | e :: es => Unfactored e ∧ Unfactoreds es
end

/-- The name of the mapping that a pullback performs; mixed and symmetric pullbacks, which
apply several, have none. -/
def Pull.name : Pull → Option String
  | .identity => some "identity"
  | .l2Piola => some "L2 Piola"
  | .covariantPiola => some "covariant Piola"
  | .contravariantPiola => some "contravariant Piola"
  | .doubleCovariantPiola => some "double covariant Piola"
  | .doubleContravariantPiola => some "double contravariant Piola"
  | .covariantContravariantPiola => some "covariant contravariant Piola"
  | .custom => some "custom"
  | .physical => some "physical"
  | .mixed _ => none
  | .symmetric _ _ => none

mutual
/-- The parts of an element whose mapping is their own: simple elements, and the wrappers
that give their content a new mapping. -/
def mappedParts : UElem → List UElem
  | .fe b o s m v emb => [.fe b o s m v emb]
  | .mixed _ subs => mappedPartss subs
  | .vector _ e _ _ => mappedParts e
  | .tensor _ e _ _ _ _ _ _ => mappedParts e
  | .product _ subs => mappedPartss subs
  | .enriched _ _ subs => mappedPartss subs
  | .hdiv b e => [.hdiv b e]
  | .hcurl b e => [.hcurl b e]
  | .withMapping e m => [.withMapping e m]
  | .restricted _ e _ => mappedParts e
  | .broken _ e => mappedParts e
/-- The parts of several elements. -/
def mappedPartss : List UElem → List UElem
  | [] => []
  | e :: es => mappedParts e ++ mappedPartss es
end

mutual
/-- Elements that are added have the same mapping, everywhere in the tree. -/
def SumsAgree : UElem → Prop
  | .fe .. => True
  | .mixed _ subs => SumsAgrees subs
  | .vector _ e _ _ => SumsAgree e
  | .tensor _ e _ _ _ _ _ _ => SumsAgree e
  | .product _ subs => SumsAgrees subs
  | .enriched _ _ subs => (∀ a ∈ subs, ∀ b ∈ subs, a.mapping = b.mapping) ∧ SumsAgrees subs
  | .hdiv _ e => SumsAgree e
  | .hcurl _ e => SumsAgree e
  | .withMapping e _ => SumsAgree e
  | .restricted _ e _ => SumsAgree e
  | .broken _ e => SumsAgree e
/-- So do all elements of a list. -/
def SumsAgrees : List UElem → Prop
  | [] => True
  | e :: es => SumsAgree e ∧ SumsAgrees es
end

mutual
/-- No `WithMapping` in the tree. -/
def NoRemap : UElem → Prop
  | .fe .. => True
  | .mixed _ subs => NoRemaps subs
  | .vector _ e _ _ => NoRemap e
  | .tensor _ e _ _ _ _ _ _ => NoRemap e
  | .product _ subs => NoRemaps subs
  | .enriched _ _ subs => NoRemaps subs
  | .hdiv _ e => NoRemap e
  | .hcurl _ e => NoRemap e
  | .withMapping _ _ => False
  | .restricted _ e _ => NoRemap e
  | .broken _ e => NoRemap e
/-- Nor in the trees of a list. -/
def NoRemaps : List UElem → Prop
  | [] => True
  | e :: es => NoRemap e ∧ NoRemaps es
end

end FInAT.Ufl
