import Verif.Py.Basic
import Mathlib.Algebra.Ring.Defs
import Mathlib.Algebra.BigOperators.Group.List.Basic

/-!
# GEM expressions

FInAT does not compute numbers, it builds GEM expressions. GEM is not part of the repository; this
file gives the fragment that FInAT builds, the assertions that GEM's constructors make and the value
of an expression for an assignment of its free indices. Simplifications made by GEM constructors
(folding of `Zero`, of `Indexed(ComponentTensor)`, ...) do not change values and are not modelled.
-/

namespace FInAT

/-- `gem.Index`: identity (Python object identity, here a number) and extent.
External; used at `finat/tensorfiniteelement.py` 133-134. -/
structure Index where
  id : Nat
  extent : Nat
deriving DecidableEq, Repr

/-- An entry of a GEM multi-index: a free index or a fixed integer.
External; used at `finat/mixed.py` 75. -/
inductive Ix where
  | free (i : Index)
  | fixed (n : Nat)
deriving DecidableEq, Repr

/-- Value of a multi-index entry under an assignment of the free indices.
External; used at `finat/mixed.py` 75. -/
def Ix.val (ρ : Nat → Nat) : Ix → Nat
  | .free i => ρ i.id
  | .fixed n => n

/-- Is the entry admissible for an axis of the given extent? (`Index.set_extent` raises when extents
disagree; literal indices must be in range.)
External; used at `finat/tensor_product.py` 131. -/
def Ix.fits : Ix → Nat → Bool
  | .free i, n => decide (i.extent = n)
  | .fixed k, n => decide (k < n)

/-- Expressions. `literal` carries its array as a function of the multi-index, `listTensor` its
entries in row-major order.
External; used at `finat/tensor_product.py` 131-137; `finat/enriched.py` 104-112. -/
inductive Gem (K : Type) where
  | literal (shape : List Nat) (data : List Nat → K)
  | zero (shape : List Nat)
  | indexed (e : Gem K) (ixs : List Ix)
  | componentTensor (e : Gem K) (ixs : List Index)
  | product (a b : Gem K)
  | delta (i j : Index)
  | indexSum (e : Gem K) (ixs : List Index)
  | listTensor (shape : List Nat) (es : List (Gem K))
  | concatenate (es : List (Gem K))

/-- Assign the values `v` to the indices `ixs`.
External; used at `finat/tensor_product.py` 134-137. -/
def bindIx (ρ : Nat → Nat) : List Index → List Nat → Nat → Nat
  | i :: is, v :: vs => bindIx (Function.update ρ i.id v) is vs
  | _, _ => ρ

namespace Gem

variable {K : Type}

mutual
/-- `expression.shape`.
External; used at `finat/fiat_elements.py` 257-260. -/
def shape : Gem K → List Nat
  | .literal s _ => s
  | .zero s => s
  | .indexed _ _ => []
  | .componentTensor _ ixs => ixs.map Index.extent
  | .product _ _ => []
  | .delta _ _ => []
  | .indexSum _ _ => []
  | .listTensor s _ => s
  | .concatenate es => [sizeSum es]
/-- Total number of entries of a list of expressions (`gem.Concatenate` flattens its arguments).
External; used at `finat/enriched.py` 110. -/
def sizeSum : List (Gem K) → Nat
  | [] => 0
  | e :: es => e.shape.prod + sizeSum es
end

section eval

variable [CommRing K]

mutual
/-- Value of the entry `v` of an expression when the free indices have the values `ρ`.
External; used at `finat/tensor_product.py` 131-137; `finat/enriched.py` 104-112. -/
def eval (ρ : Nat → Nat) : Gem K → List Nat → K
  | .literal _ data, v => data v
  | .zero _, _ => 0
  | .indexed e ixs, _ => eval ρ e (ixs.map (Ix.val ρ))
  | .componentTensor e ixs, v => eval (bindIx ρ ixs v) e []
  | .product a b, _ => eval ρ a [] * eval ρ b []
  | .delta i j, _ => if ρ i.id = ρ j.id then 1 else 0
  | .indexSum e ixs, _ =>
    ((ndindex (ixs.map Index.extent)).map fun v => eval (bindIx ρ ixs v) e []).sum
  | .listTensor s es, v => evalNth ρ es (ravel s v)
  | .concatenate es, v => evalFlat ρ es (v.headD 0)
/-- Value of the `k`-th (scalar) expression of a list.
External; used at `finat/hdivcurl.py` 67. -/
def evalNth (ρ : Nat → Nat) : List (Gem K) → Nat → K
  | [], _ => 0
  | e :: _, 0 => eval ρ e []
  | _ :: es, k + 1 => evalNth ρ es k
/-- Entry `k` of the concatenation of the flattened expressions.
External; used at `finat/enriched.py` 110. -/
def evalFlat (ρ : Nat → Nat) : List (Gem K) → Nat → K
  | [], _ => 0
  | e :: es, k => if k < e.shape.prod then eval ρ e (unravel e.shape k) else evalFlat ρ es (k - e.shape.prod)
end

end eval

end Gem

/-! ### Construction of expressions: fresh indices and assertions -/

/-- Construction steps: the state is the number of indices created so far, exceptions are values.
External; used at `finat/fiat_elements.py` 143. -/
abbrev M (α : Type) := StateT Nat (Except Err) α

/-- Raise an exception or return.
Source: `finat/quadrature.py` 43. -/
def liftE {α : Type} (x : Except Err α) : M α := fun n => x.map fun a => (a, n)

/-- `assert b`.
Source: `finat/fiat_elements.py` 144. -/
def assertM (b : Bool) : M Unit := liftE (if b then .ok () else .error .assertionError)

/-- `tuple(gem.Index(extent=d) for d in extents)`: new indices.
Source: `finat/tensorfiniteelement.py` 133-134. -/
def freshIndices (extents : List Nat) : M (List Index) := fun n =>
  .ok (mk n extents, n + extents.length)
where
  /-- Indices numbered from `n`. -/
  mk (n : Nat) : List Nat → List Index
    | [] => []
    | d :: ds => ⟨n, d⟩ :: mk (n + 1) ds

variable {K : Type}

/-- Do the multi-index entries fit the shape (same length, extents agree)?
External; used at `finat/tensor_product.py` 131. -/
def fitsShape : List Ix → List Nat → Bool
  | [], [] => true
  | i :: is, n :: ns => i.fits n && fitsShape is ns
  | _, _ => false

/-- `gem.Indexed(e, ixs)`: the multi-index must have the length of the shape and matching extents; an
empty multi-index returns the expression.
External; used at `finat/tensor_product.py` 131. -/
def mkIndexed (e : Gem K) (ixs : List Ix) : M (Gem K) := do
  assertM (fitsShape ixs e.shape)
  pure (if ixs = [] then e else .indexed e ixs)

/-- `gem.ComponentTensor(e, ixs)`: the expression must be scalar; an empty multi-index returns the
expression.
External; used at `finat/tensor_product.py` 134-137. -/
def mkComponentTensor (e : Gem K) (ixs : List Index) : M (Gem K) := do
  assertM (decide (e.shape = []))
  pure (if ixs = [] then e else .componentTensor e ixs)

/-- `gem.Product(a, b)`: both must be scalar.
External; used at `finat/tensor_product.py` 135. -/
def mkProduct (a b : Gem K) : M (Gem K) := do
  assertM (decide (a.shape = []) && decide (b.shape = []))
  pure (.product a b)

/-- `reduce(gem.Product, l)`: `TypeError` for an empty sequence.
Source: `finat/tensor_product.py` 135; `finat/quadrature.py` 140. -/
def reduceProduct : List (Gem K) → M (Gem K)
  | [] => liftE (.error .typeError)
  | e :: es => es.foldlM mkProduct e

/-- `gem.IndexSum(e, ixs)`: the expression must be scalar.
External; used at `finat/physically_mapped.py` 278; `finat/finiteelementbase.py` 269. -/
def mkIndexSum (e : Gem K) (ixs : List Index) : M (Gem K) := do
  assertM (decide (e.shape = []))
  pure (if ixs = [] then e else .indexSum e ixs)

/-- `gem.ListTensor(array)` with an array of shape `s` given in row-major order; the array must not be
empty (`assert numpy.prod(array.shape)`) and all entries must be scalar (GEM also accepts entries of a
common shape, which FInAT does not use: with such entries the subsequent `gem.Indexed` raises).
External; used at `finat/fiat_elements.py` 149-151; `finat/hdivcurl.py` 67. -/
def mkListTensor (s : List Nat) (es : List (Gem K)) : M (Gem K) := do
  assertM (decide (es ≠ []) && decide (es.length = s.prod) && es.all fun e => decide (e.shape = []))
  pure (.listTensor s es)

/-- `gem.partial_indexed(e, ixs)`: index the first axes, leave the others as shape; `ValueError` when
there are more indices than axes.
External; used at `finat/fiat_elements.py` 136-139; `finat/hdivcurl.py` 66. -/
def partialIndexed (e : Gem K) (ixs : List Ix) : M (Gem K) := do
  if e.shape.length < ixs.length then liftE (.error .valueError)
  else if e.shape.length = ixs.length then mkIndexed e ixs
  else
    let rest ← freshIndices (e.shape.drop ixs.length)
    let x ← mkIndexed e (ixs ++ rest.map .free)
    mkComponentTensor x rest

/-- A tabulation: derivative multi-index to expression.
Source: `finat/tensor_product.py` 120-138. -/
abbrev Tab (K : Type) := Dict (List Nat) (Gem K)

end FInAT
