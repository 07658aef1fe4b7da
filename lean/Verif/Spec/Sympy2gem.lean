import Verif.Model.Sympy2gem
import Mathlib.Algebra.Order.Field.Basic
import Mathlib.Data.Rat.Cast.Defs
import Mathlib.Algebra.BigOperators.Group.List.Basic
import Mathlib.Algebra.Order.Group.Unbundled.Abs

/-!
# Meaning of symbolic expressions and of GEM expressions

Numbers are those of an ordered field; powers are a partial function given from outside. The two
meanings only share the syntax trees and the arithmetic of values.
-/

namespace FInAT.Spec.Sympy2gem

open FInAT.Sympy2gem

variable {K : Type} [Field K] [LinearOrder K]

/-- A number, a truth value, or not a number. -/
inductive Val (K : Type) where
  | num (x : K)
  | bool (b : Bool)
  | nan
deriving DecidableEq

/-- The number, if it is one. -/
def Val.num? : Val K → Option K
  | .num x => some x
  | _ => none

/-- The truth value, if it is one. -/
def Val.bool? : Val K → Option Bool
  | .bool b => some b
  | _ => none

/-- A sum or product of several values: not a number if one of them is not, undefined for truth
values. -/
def collect (f : List K → K) (vs : List (Val K)) : Option (Val K) :=
  if vs.all (fun v => v.bool?.isNone) then
    match vs.mapM Val.num? with
    | some xs => some (.num (f xs))
    | none => some .nan
  else none

/-- Truth value of a comparison of numbers. -/
def holds (op : Cmp) (x y : K) : Bool :=
  match op with
  | .eq => decide (x = y)
  | .gt => decide (y < x)
  | .ge => decide (y ≤ x)
  | .lt => decide (x < y)
  | .le => decide (x ≤ y)

mutual

/-- Value of a symbolic expression, where it has one: sums, products, disjunctions and conjunctions
of any number of operands; a `Piecewise` has the value of the first piece whose condition is true,
later pieces need not have a value, and it is not a number when no condition is true. -/
def value (pw : K → K → Option K) (env : String → Option (Val K)) : Sym → Option (Val K)
  | .add args => do collect List.sum (← values pw env args)
  | .mul args => do collect List.prod (← values pw env args)
  | .pow b e => do
      let x ← (← value pw env b).num?
      let y ← (← value pw env e).num?
      return .num (← pw x y)
  | .bool b => some (.bool b)
  | .npBool b => some (.bool b)
  | .int z => some (.num z)
  | .float q => some (.num q)
  | .symbol s => env s
  | .rational p q => if q = 0 then none else some (.num ((p : K) / (q : K)))
  | .abs a => do return .num |(← (← value pw env a).num?)|
  | .not a => do return .bool (! (← (← value pw env a).bool?))
  | .or args => do return .bool ((← (← values pw env args).mapM Val.bool?).any id)
  | .and args => do return .bool ((← (← values pw env args).mapM Val.bool?).all id)
  | .cmp op a b => do
      let x ← (← value pw env a).num?
      let y ← (← value pw env b).num?
      return .bool (holds op x y)
  | .piecewise args => firstTrue pw env args
  | .ite c a b => do
      if (← (← value pw env c).bool?) then value pw env a else value pw env b
  | .expr _ _ => none
  | .alien _ => none

/-- Values of several expressions. -/
def values (pw : K → K → Option K) (env : String → Option (Val K)) : List Sym → Option (List (Val K))
  | [] => some []
  | t :: ts => do return (← value pw env t) :: (← values pw env ts)

/-- Value of the first piece with a true condition. -/
def firstTrue (pw : K → K → Option K) (env : String → Option (Val K)) :
    List (Sym × Sym) → Option (Val K)
  | [] => some .nan
  | (v, c) :: ps => do
      if (← (← value pw env c).bool?) then value pw env v else firstTrue pw env ps

end

/-- Binary arithmetic on values. -/
def arith (f : K → K → Option K) : Val K → Val K → Option (Val K)
  | .num x, .num y => (f x y).map .num
  | .num _, .nan => some .nan
  | .nan, .num _ => some .nan
  | .nan, .nan => some .nan
  | _, _ => none

/-- Value of a GEM expression, where it has one. Comparisons with "not a number" are false; a
`Conditional` only needs the value of the branch it takes. -/
def eval (pw : K → K → Option K) (σ : String → Option (Val K)) : Gem → Option (Val K)
  | .bool b => some (.bool b)
  | .int z => some (.num z)
  | .float q => some (.num q)
  | .nan => some .nan
  | .var s => σ s
  | .sum a b => do arith (fun x y => some (x + y)) (← eval pw σ a) (← eval pw σ b)
  | .product a b => do arith (fun x y => some (x * y)) (← eval pw σ a) (← eval pw σ b)
  | .power a b => do arith pw (← eval pw σ a) (← eval pw σ b)
  | .division a b => do
      arith (fun x y => if y = 0 then none else some (x / y)) (← eval pw σ a) (← eval pw σ b)
  | .mathFunction f a => do
      if f = "abs" then
        match ← eval pw σ a with
        | .num x => some (.num |x|)
        | .nan => some .nan
        | .bool _ => none
      else none
  | .logicalNot a => do return .bool (! (← (← eval pw σ a).bool?))
  | .logicalOr a b => do
      if (← (← eval pw σ a).bool?) then some (.bool true)
      else return .bool (← (← eval pw σ b).bool?)
  | .logicalAnd a b => do
      if (← (← eval pw σ a).bool?) then return .bool (← (← eval pw σ b).bool?)
      else some (.bool false)
  | .comparison op a b => do
      match ← eval pw σ a, ← eval pw σ b with
      | .num x, .num y =>
        if op = "==" then some (.bool (decide (x = y)))
        else if op = ">" then some (.bool (decide (x > y)))
        else if op = ">=" then some (.bool (decide (x ≥ y)))
        else if op = "<" then some (.bool (decide (x < y)))
        else if op = "<=" then some (.bool (decide (x ≤ y)))
        else none
      | .bool _, _ => none
      | _, .bool _ => none
      | _, _ => some (.bool false)
  | .conditional c a b => do
      if (← (← eval pw σ c).bool?) then eval pw σ a else eval pw σ b

mutual

/-- Expressions that consist of supported nodes and bound symbols, as far as they are looked at:
pieces of a `Piecewise` after a literally true condition are not. -/
inductive Accepted (bound : String → Prop) : Sym → Prop
  | add (args) : args ≠ [] → AllAccepted bound args → Accepted bound (.add args)
  | mul (args) : args ≠ [] → AllAccepted bound args → Accepted bound (.mul args)
  | pow (b e) : Accepted bound b → Accepted bound e → Accepted bound (.pow b e)
  | bool (b) : Accepted bound (.bool b)
  | int (z) : Accepted bound (.int z)
  | float (q) : Accepted bound (.float q)
  | symbol (s) : bound s → Accepted bound (.symbol s)
  | rational (p q) : Accepted bound (.rational p q)
  | abs (a) : Accepted bound a → Accepted bound (.abs a)
  | not (a) : Accepted bound a → Accepted bound (.not a)
  | or (args) : args ≠ [] → AllAccepted bound args → Accepted bound (.or args)
  | and (args) : args ≠ [] → AllAccepted bound args → Accepted bound (.and args)
  | cmp (op a b) : Accepted bound a → Accepted bound b → Accepted bound (.cmp op a b)
  | piecewise (ps) : AcceptedPieces bound ps → Accepted bound (.piecewise ps)
  | ite (c a b) : Accepted bound c → Accepted bound a → Accepted bound b →
      Accepted bound (.ite c a b)

/-- All expressions of a list are accepted. -/
inductive AllAccepted (bound : String → Prop) : List Sym → Prop
  | nil : AllAccepted bound []
  | cons (t ts) : Accepted bound t → AllAccepted bound ts → AllAccepted bound (t :: ts)

/-- All pieces up to the first literally true condition are accepted. -/
inductive AcceptedPieces (bound : String → Prop) : List (Sym × Sym) → Prop
  | nil : AcceptedPieces bound []
  | default (v ps) : Accepted bound v → AcceptedPieces bound ((v, .bool true) :: ps)
  | numpyDefault (v ps) : Accepted bound v → AcceptedPieces bound ((v, .npBool true) :: ps)
  | piece (v c ps) : c ≠ .bool true → Accepted bound c → Accepted bound v →
      AcceptedPieces bound ps → AcceptedPieces bound ((v, c) :: ps)

end

end FInAT.Spec.Sympy2gem
