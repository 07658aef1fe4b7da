import Verif.Model.PointSet

/-!
# The same results at two moments

A call is made at two moments, before which different numbers of indices have been created. The results are
compared by what can be observed of them: exceptions, keys, shapes and values. Indices created during the call
are different objects; where a result has such indices free, the values are compared at the same values of
corresponding indices.
-/

namespace FInAT

variable {K : Type}

/-! ### Names of indices -/

/-- Indices numbered from `t` on are moved by `d`. -/
def shift (t d k : Nat) : Nat := if k < t then k else k + d

/-- An index under another name. -/
def Index.ren (f : Nat → Nat) (i : Index) : Index := ⟨f i.id, i.extent⟩

/-- An entry of a multi-index under another name. -/
def Ix.ren (f : Nat → Nat) : Ix → Ix
  | .free i => .free (i.ren f)
  | .fixed k => .fixed k

mutual
/-- An expression with renamed indices. -/
def Gem.ren (f : Nat → Nat) : Gem K → Gem K
  | .literal s d => .literal s d
  | .zero s => .zero s
  | .indexed e ixs => .indexed (e.ren f) (ixs.map (Ix.ren f))
  | .componentTensor e ixs => .componentTensor (e.ren f) (ixs.map (Index.ren f))
  | .product a b => .product (a.ren f) (b.ren f)
  | .delta i j => .delta (i.ren f) (j.ren f)
  | .indexSum e ixs => .indexSum (e.ren f) (ixs.map (Index.ren f))
  | .listTensor s es => .listTensor s (Gem.renL f es)
  | .concatenate es => .concatenate (Gem.renL f es)
/-- Expressions with renamed indices. -/
def Gem.renL (f : Nat → Nat) : List (Gem K) → List (Gem K)
  | [] => []
  | e :: es => e.ren f :: Gem.renL f es
end

mutual
/-- A point set with renamed indices. -/
def PSet.ren (f : Nat → Nat) : PSet K → PSet K
  | .singleton p => .singleton p
  | .points c pts idx => .points c pts (idx.map (Index.ren f))
  | .unknown pts d idx => .unknown pts d (idx.ren f)
  | .tensor fs => .tensor (PSet.renL f fs)
/-- Point sets with renamed indices. -/
def PSet.renL (f : Nat → Nat) : List (PSet K) → List (PSet K)
  | [] => []
  | p :: ps => p.ren f :: PSet.renL f ps
end

mutual
/-- The index with number `n` occurs in the expression, free or bound. -/
def Gem.Uses (n : Nat) : Gem K → Prop
  | .literal _ _ => False
  | .zero _ => False
  | .indexed e ixs => e.Uses n ∨ ∃ i, Ix.free i ∈ ixs ∧ i.id = n
  | .componentTensor e ixs => e.Uses n ∨ n ∈ ixs.map Index.id
  | .product a b => a.Uses n ∨ b.Uses n
  | .delta i j => i.id = n ∨ j.id = n
  | .indexSum e ixs => e.Uses n ∨ n ∈ ixs.map Index.id
  | .listTensor _ es => Gem.UsesL n es
  | .concatenate es => Gem.UsesL n es
/-- The index occurs in one of the expressions. -/
def Gem.UsesL (n : Nat) : List (Gem K) → Prop
  | [] => False
  | e :: es => e.Uses n ∨ Gem.UsesL n es
end

/-- A function that builds an expression for given points treats names of indices as names: called later, with points
whose later indices have the names they would have then, it does the same and gives the same expression with those
names. (A Python function cannot see names at all; it can create indices and use those it has.) -/
def NamesOnly (fn : PSet K → M (Gem K)) : Prop := ∀ t d n ps, t ≤ n →
  fn (ps.ren (shift t d)) (n + d) = (fn ps n).map (fun r => (r.1.ren (shift t d), r.2 + d)) ∧
    ∀ e m, fn ps n = .ok (e, m) → n ≤ m

/-! ### Comparison of results -/

/-- Both calls return, with results related by `R`, or both raise the same exception. -/
def SameOutcome {α : Type} (R : α → α → Prop) (x y : Except Err (α × Nat)) : Prop :=
  (∃ a m b m', x = .ok (a, m) ∧ y = .ok (b, m') ∧ R a b) ∨ ∃ err, x = .error err ∧ y = .error err

/-- Two assignments give the same values to corresponding indices of two lists. -/
def SameOn (ixs ixs' : List Index) (ρ ρ' : Nat → Nat) : Prop :=
  ixs.map (fun i => ρ i.id) = ixs'.map fun i => ρ' i.id

/-- Point sets with the same points in the same arrangement. -/
def SamePoints (ps ps' : PSet K) : Prop :=
  ps.pts = ps'.pts ∧ ps.indices.map Index.extent = ps'.indices.map Index.extent ∧
    ∀ ρ ρ', SameOn ps.indices ps'.indices ρ ρ' → ps.pointAt ρ = ps'.pointAt ρ'

variable [CommRing K]

/-- Expressions of the same shape whose entries are equal when corresponding indices of the two lists have the same
values, whatever the values of other indices. -/
def SameValuesOn (ixs ixs' : List Index) (e e' : Gem K) : Prop :=
  e.shape = e'.shape ∧ ∀ ρ ρ', SameOn ixs ixs' ρ ρ' → ∀ v, v.length = e.shape.length → e.eval ρ v = e'.eval ρ' v

/-- Tables with the same keys in the same order and the same values. -/
def SameTable (ixs : List Index) (T T' : Tab K) : Prop :=
  List.Forall₂ (fun p q => p.1 = q.1 ∧ SameValuesOn ixs ixs p.2 q.2) T T'

end FInAT
