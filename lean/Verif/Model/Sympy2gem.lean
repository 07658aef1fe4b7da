import Verif.Py.Basic

/-!
# Translation of symbolic expressions to GEM (`finat/sympy2gem.py`)

Symbolic expressions and GEM expressions are syntax trees; GEM constructors build plain nodes (the
simplifications they make when built, such as folding of constants, are not modelled).
-/

namespace FInAT.Sympy2gem

/-- The classes of relational nodes.
Source: `finat/sympy2gem.py` 102-127. -/
inductive Cmp where
  | eq | gt | ge | lt | le
deriving DecidableEq, Repr

/-- Nodes of SymPy or symengine expressions, one constructor per handler of
`finat/sympy2gem.py` 16-149. Floating point numbers are rational numbers. `bool` stands for SymPy's
`true` and `false` and for Python booleans, `npBool` for numpy booleans, `expr` for any other
subclass of `Expr`, `alien` for any other object (for instance SymPy's `Ne`, which is no `Expr`). -/
inductive Sym where
  | add (args : List Sym)
  | mul (args : List Sym)
  | pow (base exponent : Sym)
  | bool (b : Bool)
  | npBool (b : Bool)
  | int (z : Int)
  | float (q : Rat)
  | symbol (name : String)
  | rational (numer denom : Int)
  | abs (a : Sym)
  | not (a : Sym)
  | or (args : List Sym)
  | and (args : List Sym)
  | cmp (op : Cmp) (a b : Sym)
  | piecewise (args : List (Sym × Sym))
  | ite (c a b : Sym)
  | expr (name : String) (args : List Sym)
  | alien (name : String)

/-- GEM expressions without shape.
External; used at `finat/sympy2gem.py` 16-149. -/
inductive Gem where
  | bool (b : Bool)
  | int (z : Int)
  | float (q : Rat)
  | nan
  | var (name : String)
  | sum (a b : Gem)
  | product (a b : Gem)
  | power (a b : Gem)
  | division (a b : Gem)
  | mathFunction (name : String) (a : Gem)
  | logicalNot (a : Gem)
  | logicalOr (a b : Gem)
  | logicalAnd (a b : Gem)
  | comparison (op : String) (a b : Gem)
  | conditional (c a b : Gem)
deriving DecidableEq, Repr

/-- `functools.reduce(f, l)`: `TypeError` for an empty list.
Source: `finat/sympy2gem.py` 30, 36, 93, 99. -/
def reduce (f : Gem → Gem → Gem) : List Gem → Except Err Gem
  | [] => .error .typeError
  | a :: l => .ok (l.foldl f a)

/-- The operator in the call of `gem.Comparison` (`finat/sympy2gem.py` 102-127). -/
def Cmp.op : Cmp → String
  | .eq => "=="
  | .gt => ">"
  | .ge => ">="
  | .lt => "<"
  | .le => "<="

/-- `isinstance(c, (bool, numpy.bool, BooleanTrue)) and c` (`finat/sympy2gem.py` 136). -/
def literalTrue : Sym → Bool
  | .bool b => b
  | .npBool b => b
  | _ => false

mutual

/-- `sympy2gem(node, self)` (`finat/sympy2gem.py` 16-149) where `self` applies the same function to
the operands; `bindings` is `self.bindings`. -/
def translate (bindings : String → Option Gem) : Sym → Except Err Gem
  | .add args => do reduce .sum (← translateAll bindings args)
  | .mul args => do reduce .product (← translateAll bindings args)
  | .pow b e => do return .power (← translate bindings b) (← translate bindings e)
  | .bool b => return .bool b
  | .npBool _ => throw .assertionError
  | .int z => return .int z
  | .float q => return .float q
  | .symbol s => match bindings s with
    | some g => return g
    | none => throw .keyError
  | .rational p q => return .division (.int p) (.int q)
  | .abs a => do return .mathFunction "abs" (← translate bindings a)
  | .not a => do return .logicalNot (← translate bindings a)
  | .or args => do reduce .logicalOr (← translateAll bindings args)
  | .and args => do reduce .logicalAnd (← translateAll bindings args)
  | .cmp op a b => do return .comparison op.op (← translate bindings a) (← translate bindings b)
  | .piecewise args => translatePieces bindings args
  | .ite c a b => do
      return .conditional (← translate bindings c) (← translate bindings a) (← translate bindings b)
  | .expr _ _ => throw .notImplemented
  | .alien _ => throw .assertionError

/-- `map(self, node.args)`.
Source: `finat/sympy2gem.py` 30, 36, 93, 99. -/
def translateAll (bindings : String → Option Gem) : List Sym → Except Err (List Gem)
  | [] => return []
  | t :: ts => do return (← translate bindings t) :: (← translateAll bindings ts)

/-- The two loops of `sympy2gem_conditional` (`finat/sympy2gem.py` 132-144). The first loop stops at
a literally true condition; the second wraps the pieces from the last to the first, so that the
expression for the remaining pieces is built first. -/
def translatePieces (bindings : String → Option Gem) : List (Sym × Sym) → Except Err Gem
  | [] => return .nan
  | (v, c) :: ps =>
    if literalTrue c then translate bindings v
    else do
      let rest ← translatePieces bindings ps
      let gc ← translate bindings c
      let gv ← translate bindings v
      return .conditional gc gv rest

end

/-- `mapper.cache`.
External; used at `finat/direct_serendipity.py` 112; `finat/fiat_elements.py` 288. -/
abbrev Cache := List (Sym × Gem)

/-- Computations that use the cache; an exception leaves in it what was stored before.
External; used at `finat/direct_serendipity.py` 112; `finat/fiat_elements.py` 288. -/
abbrev M := ExceptT Err (StateM Cache)

/-- `Memoizer.__call__` (gem/node.py): the stored result of an equal node if there is one; otherwise
the result of the function, which is stored. `same` is Python's equality of nodes. -/
def cached (same : Sym → Sym → Bool) (t : Sym) (compute : M Gem) : M Gem := do
  match (← get).find? (fun p => same p.1 t) with
  | some p => return p.2
  | none =>
    let g ← compute
    modify fun c => (t, g) :: c
    return g

mutual

/-- `mapper(node)` with `mapper = gem.node.Memoizer(sympy2gem)`
(`finat/direct_serendipity.py` 112-113, `finat/fiat_elements.py` 288-289): the functions of
`finat/sympy2gem.py` 16-149 with the memoizer as `self`. -/
def memo (same : Sym → Sym → Bool) (bindings : String → Option Gem) : Sym → M Gem
  | .add args => cached same (.add args) do
      ExceptT.mk (pure (reduce .sum (← memoAll same bindings args)))
  | .mul args => cached same (.mul args) do
      ExceptT.mk (pure (reduce .product (← memoAll same bindings args)))
  | .pow b e => cached same (.pow b e) do
      return .power (← memo same bindings b) (← memo same bindings e)
  | .bool b => cached same (.bool b) do return .bool b
  | .npBool b => cached same (.npBool b) do throw .assertionError
  | .int z => cached same (.int z) do return .int z
  | .float q => cached same (.float q) do return .float q
  | .symbol s => cached same (.symbol s) do
      match bindings s with
      | some g => return g
      | none => throw .keyError
  | .rational p q => cached same (.rational p q) do
      return .division (← cached same (.int p) do return .int p)
        (← cached same (.int q) do return .int q)
  | .abs a => cached same (.abs a) do return .mathFunction "abs" (← memo same bindings a)
  | .not a => cached same (.not a) do return .logicalNot (← memo same bindings a)
  | .or args => cached same (.or args) do
      ExceptT.mk (pure (reduce .logicalOr (← memoAll same bindings args)))
  | .and args => cached same (.and args) do
      ExceptT.mk (pure (reduce .logicalAnd (← memoAll same bindings args)))
  | .cmp op a b => cached same (.cmp op a b) do
      return .comparison op.op (← memo same bindings a) (← memo same bindings b)
  | .piecewise args => cached same (.piecewise args) (memoPieces same bindings args)
  | .ite c a b => cached same (.ite c a b) do
      return .conditional (← memo same bindings c) (← memo same bindings a) (← memo same bindings b)
  | .expr n args => cached same (.expr n args) do throw .notImplemented
  | .alien n => cached same (.alien n) do throw .assertionError

/-- `map(self, node.args)`.
Source: `finat/sympy2gem.py` 30, 36, 93, 99. -/
def memoAll (same : Sym → Sym → Bool) (bindings : String → Option Gem) : List Sym → M (List Gem)
  | [] => return []
  | t :: ts => do return (← memo same bindings t) :: (← memoAll same bindings ts)

/-- The loops of `sympy2gem_conditional` (`finat/sympy2gem.py` 132-144). -/
def memoPieces (same : Sym → Sym → Bool) (bindings : String → Option Gem) :
    List (Sym × Sym) → M Gem
  | [] => return .nan
  | (v, c) :: ps =>
    if literalTrue c then memo same bindings v
    else do
      let rest ← memoPieces same bindings ps
      let gc ← memo same bindings c
      let gv ← memo same bindings v
      return .conditional gc gv rest

end

/-- Call the mapper on each expression in turn, whether or not the calls before it failed; the cache
afterwards.
Source: `finat/direct_serendipity.py` 121; `finat/fiat_elements.py` 291. -/
def runAll (same : Sym → Sym → Bool) (bindings : String → Option Gem) (c : Cache) :
    List Sym → Cache
  | [] => c
  | t :: ts => runAll same bindings (((memo same bindings t).run).run c).2 ts

end FInAT.Sympy2gem
