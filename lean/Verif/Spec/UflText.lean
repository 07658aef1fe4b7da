import Verif.Model.Ufl.Repr

/-!
# Specification for C101: Python's reading of the text of an element

Call expressions, how they are written (`Expr.text`), and what they evaluate to (`Expr.value`) when the names are those of
the classes of `finat.ufl`. The `repr` of a cell, a number, a string, a shape or a dictionary evaluates to that object; this is
outside the model.
-/

namespace FInAT.Ufl

open FInAT

mutual
/-- An expression: an object written down as one piece, or a call. -/
inductive Expr where
  | str (s : String)
  | cell (c : Option UCell)
  | order (o : Order)
  | nat (n : Nat)
  | shape (s : List Nat)
  | sym (d : Symmetry)
  | call (name : String) (args : Args)
/-- Arguments, with or without a keyword. -/
inductive Args where
  | nil
  | cons (key : Option String) (value : Expr) (rest : Args)
end

/-- `key=`, if there is a keyword. -/
def keyText : Option String → List Tok
  | none => []
  | some k => [.kw k]

mutual
/-- How an expression is written. -/
def Expr.text : Expr → List Tok
  | .str s => [.str s]
  | .cell c => [.cell c]
  | .order o => [.order o]
  | .nat n => [.nat n]
  | .shape s => [.shape s]
  | .sym d => [.sym d]
  | .call name args => .name name :: .lpar :: (args.text ++ [.rpar])
/-- How arguments are written: separated by commas. -/
def Args.text : Args → List Tok
  | .nil => []
  | .cons key value rest => keyText key ++ (value.text ++ rest.tail)
/-- The arguments after the first. -/
def Args.tail : Args → List Tok
  | .nil => []
  | .cons key value rest => .comma :: (keyText key ++ (value.text ++ rest.tail))
end

/-- The objects that expressions evaluate to. -/
inductive Val where
  | elem (e : UElem)
  | str (s : String)
  | cell (c : Option UCell)
  | order (o : Order)
  | nat (n : Nat)
  | shape (s : List Nat)
  | sym (d : Symmetry)

/-- Arguments that are all elements. -/
def asElems : List (Option String × Val) → Except Err (List UElem)
  | [] => .ok []
  | (none, .elem e) :: args => do .ok (e :: (← asElems args))
  | _ => .error .typeError

/-- Arguments that are all elements but for a last one, `cell=`. -/
def asElemsCell : List (Option String × Val) → Except Err (List UElem × Option UCell)
  | [] => .ok ([], none)
  | [(some "cell", .cell c)] => .ok ([], c)
  | (none, .elem e) :: args => do
    let p ← asElemsCell args
    .ok (e :: p.1, p.2)
  | _ => .error .typeError

/-- What a class of `finat.ufl` makes of its arguments, in the forms a `repr` uses; a `TypeError` in all others. An element given
to `VectorElement` or `TensorElement` decides on the variant (`finat/ufl/mixedelement.py` 283-286, 370-373). -/
def construct (name : String) (args : List (Option String × Val)) : Except Err UElem :=
  match name, args with
  | "FiniteElement", [(none, .str f), (none, .cell c), (none, .order o)] => newFe f o none none none c
  | "FiniteElement", [(none, .str f), (none, .cell c), (none, .order o), (some "quad_scheme", .str q)] =>
    newFe f o none (some q) none c
  | "FiniteElement", [(none, .str f), (none, .cell c), (none, .order o), (some "variant", .str v)] =>
    newFe f o none none (some v) c
  | "FiniteElement", [(none, .str f), (none, .cell c), (none, .order o), (some "quad_scheme", .str q),
      (some "variant", .str v)] => newFe f o none (some q) (some v) c
  | "MixedElement", args => do mkMixed (← asElems args)
  | "VectorElement", [(none, .elem e), (some "dim", .nat n)] => mkVector e (some n)
  | "VectorElement", [(none, .elem e), (some "dim", .nat n), (some "variant", .str _)] => mkVector e (some n)
  | "TensorElement", [(none, .elem e), (some "shape", .shape s), (some "symmetry", .sym d)] =>
    mkTensor e (some s) (.dict d)
  | "TensorElement", [(none, .elem e), (some "shape", .shape s), (some "symmetry", .sym d), (some "variant", .str _)] =>
    mkTensor e (some s) (.dict d)
  | "TensorProductElement", args => do
    let p ← asElemsCell args
    mkProduct p.1 p.2
  | "EnrichedElement", args => do mkEnriched false (← asElems args)
  | "NodalEnrichedElement", args => do mkEnriched true (← asElems args)
  | "HDivElement", [(none, .elem e)] => mkHDiv e
  | "HCurlElement", [(none, .elem e)] => mkHCurl e
  | "WithMapping", [(none, .elem e), (none, .str m)] => mkWithMapping e m
  | "RestrictedElement", [(none, .elem e), (none, .str d)] => mkRestricted e d
  | "BrokenElement", [(none, .elem e)] => mkBroken e
  | _, _ => .error .typeError

mutual
/-- What an expression evaluates to. -/
def Expr.value : Expr → Except Err Val
  | .str s => .ok (.str s)
  | .cell c => .ok (.cell c)
  | .order o => .ok (.order o)
  | .nat n => .ok (.nat n)
  | .shape s => .ok (.shape s)
  | .sym d => .ok (.sym d)
  | .call name args => do .ok (.elem (← construct name (← args.values)))
/-- The values of arguments, from left to right. -/
def Args.values : Args → Except Err (List (Option String × Val))
  | .nil => .ok []
  | .cons key value rest => do
    let v ← value.value
    .ok ((key, v) :: (← rest.values))
end

end FInAT.Ufl
