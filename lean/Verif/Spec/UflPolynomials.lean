import Verif.Spec.UflConstant
import Verif.Spec.Quadrature
import Mathlib.LinearAlgebra.Span.Basic
import Mathlib.Algebra.Module.Submodule.Map
import Mathlib.Algebra.Module.Pi
import Mathlib.Algebra.Module.LinearMap.Defs
import Mathlib.Algebra.Field.Defs

/-!
# Specification vocabulary: the functions of a UFL element

The space of functions on the reference cell that an element stands for, given those of its simple elements.
-/

namespace FInAT.Ufl

open FInAT FInAT.Spec

/-- Functions of a point, with components numbered from zero. -/
abbrev Fn (K : Type) : Type := List K → Nat → K

/-- The topological dimension of the cell of an element. -/
def dimOf (e : UElem) : Nat := (e.cell.map UCell.tdim).getD 0

/-- The number of components: the product of the `reference_value_shape`. -/
def valueSize (e : UElem) : Nat :=
  match e.shape with
  | .ok s => prodNat s
  | .error _ => 0

variable {K : Type} [Field K]

/-- The monomial with exponents `α` as component `j`, all other components being zero. -/
def term (α : List Nat) (j : Nat) : Fn K := fun x c => if c = j then monoVal x α else 0

/-- The polynomials of total degree at most `q`. -/
def Poly (K : Type) [Field K] (q : Int) : Submodule K (List K → K) :=
  Submodule.span K {p | ∃ α : List Nat, (α.sum : Int) ≤ q ∧ p = fun x => monoVal x α}

/-- Functions whose components are polynomials of total degree at most `q`. -/
def Polys (K : Type) [Field K] (q : Int) : Submodule K (Fn K) where
  carrier := {f | ∀ c, (fun x => f x c) ∈ Poly K q}
  add_mem' hf hg c := (Poly K q).add_mem (hf c) (hg c)
  zero_mem' _ := (Poly K q).zero_mem
  smul_mem' a _ hf c := (Poly K q).smul_mem a (hf c)

/-- All polynomials of total degree at most `q` in `d` coordinates, with `n` components. -/
def AllPolys (K : Type) [Field K] (d n : Nat) (q : Int) : Submodule K (Fn K) :=
  Submodule.span K {f | ∃ α j, α.length ≤ d ∧ j < n ∧ (α.sum : Int) ≤ q ∧ f = term α j}

/-- A function with `n` components as components `off` to `off + n - 1`. -/
def block (off n : Nat) : Fn K →ₗ[K] Fn K where
  toFun f := fun x c => if off ≤ c ∧ c < off + n then f x (c - off) else 0
  map_add' f g := by
    funext x c
    by_cases h : off ≤ c ∧ c < off + n <;> simp [h]
  map_smul' a f := by
    funext x c
    by_cases h : off ≤ c ∧ c < off + n <;> simp [h]

/-- Each component is zero, or a component of the given function, or its negative. -/
def place (p : Nat → Option (Bool × Nat)) : Fn K →ₗ[K] Fn K where
  toFun f := fun x c => match p c with
    | none => 0
    | some (neg, k) => if neg then - f x k else f x k
  map_add' f g := by
    funext x c
    cases h : p c with
    | none => simp [h]
    | some r => cases hr : r.1 <;> simp [h, hr, add_comm]
  map_smul' a f := by
    funext x c
    cases h : p c with
    | none => simp [h]
    | some r => cases hr : r.1 <;> simp [h, hr]

/-- Sums of products of a function of the first `d` coordinates and one of the others, which has `n` components. -/
def productFunctions (d n : Nat) (A B : Submodule K (Fn K)) : Submodule K (Fn K) :=
  Submodule.span K {h | ∃ f ∈ A, ∃ g ∈ B, h = fun x c => f (x.take d) (c / n) * g (x.drop d) (c % n)}

/-- What is given from outside: the functions of simple elements, which components an H(div) or H(curl)
wrapper fills, and what a restriction keeps. -/
structure Spaces (K : Type) [Field K] where
  simple : UElem → Submodule K (Fn K)
  comps : UElem → Nat → Option (Bool × Nat)
  kept : UElem → Submodule K (Fn K)

mutual
/-- The functions of an element. -/
noncomputable def functions (G : Spaces K) : UElem → Submodule K (Fn K)
  | .fe b o s m v emb => G.simple (.fe b o s m v emb)
  | .mixed _ subs => blocks G 0 subs
  | .vector _ e dim _ => ⨆ i : Fin dim, (functions G e).map (block (i * valueSize e) (valueSize e))
  | .tensor _ e _ _ _ count _ _ => ⨆ i : Fin count, (functions G e).map (block (i * valueSize e) (valueSize e))
  | .product _ subs => products G subs
  | .enriched _ _ subs => sums G subs
  | .hdiv b e => (functions G e).map (place (G.comps (.hdiv b e)))
  | .hcurl b e => (functions G e).map (place (G.comps (.hcurl b e)))
  | .withMapping e _ => functions G e
  | .restricted b e d => functions G e ⊓ G.kept (.restricted b e d)
  | .broken _ e => functions G e
/-- Each element fills its own components. -/
noncomputable def blocks (G : Spaces K) (off : Nat) : List UElem → Submodule K (Fn K)
  | [] => ⊥
  | e :: es => (functions G e).map (block off (valueSize e)) ⊔ blocks G (off + valueSize e) es
/-- Sums of products of functions of the elements, each of its own coordinates. -/
noncomputable def products (G : Spaces K) : List UElem → Submodule K (Fn K)
  | [] => Submodule.span K {term [] 0}
  | e :: es => productFunctions (dimOf e) (es.map valueSize).prod (functions G e) (products G es)
/-- Sums of functions of the elements. -/
noncomputable def sums (G : Spaces K) : List UElem → Submodule K (Fn K)
  | [] => ⊥
  | e :: es => functions G e ⊔ sums G es
end

/-- The degree of a simple element is a number, and both of its embedded degrees. -/
def Told (l : UElem) : Prop :=
  ∃ k : Int, l.degree = .int k ∧ embeddedSub l = .ok (.int k) ∧ embeddedSuper l = .ok (.int k)

mutual
/-- In products and restrictions, the simple elements have embedded degrees equal to their degree. -/
def ToldBelow : UElem → Prop
  | .fe .. => True
  | .mixed _ subs => ToldBelows subs
  | .vector _ e _ _ => ToldBelow e
  | .tensor _ e _ _ _ _ _ _ => ToldBelow e
  | .product _ subs => ∀ l ∈ simplePartss subs, Told l
  | .enriched _ _ subs => ToldBelows subs
  | .hdiv _ e => ToldBelow e
  | .hcurl _ e => ToldBelow e
  | .withMapping e _ => match e with
    | .restricted _ e' _ => ToldBelow e'
    | e => ToldBelow e
  | .restricted _ e _ => ∀ l ∈ simpleParts e, Told l
  | .broken _ e => ToldBelow e
/-- So it is for all elements of a list. -/
def ToldBelows : List UElem → Prop
  | [] => True
  | e :: es => ToldBelow e ∧ ToldBelows es
end

mutual
/-- No element in the tree takes functions away or leaves components out: there are no restrictions, no H(div)
or H(curl) wrappers, and the cells and shapes of composed elements are those of the parts. -/
def Filled : UElem → Prop
  | .fe .. => True
  | .mixed b subs => (∀ s ∈ subs, dimOf s = dimOf (.mixed b subs)) ∧ Filleds subs
  | .vector _ e _ _ => Filled e
  | .tensor b e shape sym number count m v =>
    valueSize (.tensor b e shape sym number count m v) = count * valueSize e ∧
      dimOf (.tensor b e shape sym number count m v) = dimOf e ∧ Filled e
  | .product b subs => dimOf (.product b subs) = (subs.map dimOf).sum ∧ Factors subs
  | .enriched _ _ subs => Filleds subs
  | .hdiv _ _ => False
  | .hcurl _ _ => False
  | .withMapping e m => valueSize (.withMapping e m) = valueSize e ∧ Filled e
  | .restricted _ _ _ => False
  | .broken _ e => Filled e
/-- So it is for all elements of a list. -/
def Filleds : List UElem → Prop
  | [] => True
  | e :: es => Filled e ∧ Filleds es
/-- ... and none of them contains a mixed element. -/
def Factors : List UElem → Prop
  | [] => True
  | e :: es => Factor e ∧ Factors es
/-- The same for one element. -/
def Factor : UElem → Prop
  | .fe .. => True
  | .mixed _ _ => False
  | .vector _ e _ _ => Factor e
  | .tensor b e shape sym number count m v =>
    valueSize (.tensor b e shape sym number count m v) = count * valueSize e ∧
      dimOf (.tensor b e shape sym number count m v) = dimOf e ∧ Factor e
  | .product b subs => dimOf (.product b subs) = (subs.map dimOf).sum ∧ Factors subs
  | .enriched _ _ subs => Factors subs
  | .hdiv _ _ => False
  | .hcurl _ _ => False
  | .withMapping e m => valueSize (.withMapping e m) = valueSize e ∧ Factor e
  | .restricted _ _ _ => False
  | .broken _ e => Factor e
end

end FInAT.Ufl
