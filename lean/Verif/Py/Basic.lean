/-!
# Python and numpy primitives used by the model

Small total functions that stand for the Python/numpy library functions called
by FInAT. Exceptions are values of type `Err`.
-/

namespace FInAT

/-- Python exceptions that the modelled code can raise. -/
inductive Err where
  | keyError
  | valueError
  | indexError
  | typeError
  | assertionError
  | attributeError
  | notImplemented
  | runtimeError
deriving DecidableEq, Repr

/-- A Python dictionary: association list in insertion order. -/
abbrev Dict (κ ν : Type) := List (κ × ν)

namespace Dict

variable {κ ν : Type} [DecidableEq κ]

/-- `d.get(k)`: the value stored under `k`, if any. -/
def get? (d : Dict κ ν) (k : κ) : Option ν :=
  match d with
  | [] => none
  | (k', v) :: t => if k' = k then some v else get? t k

/-- `d[k]`: raises `KeyError` when `k` is missing. -/
def get (d : Dict κ ν) (k : κ) : Except Err ν :=
  match get? d k with
  | some v => .ok v
  | none => .error .keyError

/-- `d[k] = v`: overwrite in place when the key is present, append otherwise. -/
def set (d : Dict κ ν) (k : κ) (v : ν) : Dict κ ν :=
  match d with
  | [] => [(k, v)]
  | (k', v') :: t => if k' = k then (k', v) :: t else (k', v') :: set t k v

/-- `d.keys()` in insertion order. -/
def keys (d : Dict κ ν) : List κ := d.map Prod.fst

/-- `d.values()` in insertion order. -/
def values (d : Dict κ ν) : List ν := d.map Prod.snd

end Dict

/-- `itertools.product(*ls)`: all ways to pick one entry per list, last list fastest. -/
def product {α : Type _} : List (List α) → List (List α)
  | [] => [[]]
  | l :: ls => l.flatMap fun x => (product ls).map (x :: ·)

/-- `numpy.ndindex(*shape)`: all multi-indices of `shape` in row-major order. -/
def ndindex (shape : List Nat) : List (List Nat) :=
  product (shape.map List.range)

/-- The C-order (row-major) position of a multi-index, without bounds check. -/
def ravel : List Nat → List Nat → Nat
  | _ :: ns, i :: is => i * ns.prod + ravel ns is
  | _, _ => 0

/-- Is `idx` a multi-index of `shape`? -/
def inBounds : List Nat → List Nat → Bool
  | [], [] => true
  | n :: ns, i :: is => decide (i < n) && inBounds ns is
  | _, _ => false

/-- `numpy.ravel_multi_index(idx, shape)` for a single multi-index: `ValueError`
when the lengths differ or an entry is out of bounds. -/
def ravelMultiIndex (idx shape : List Nat) : Except Err Nat :=
  if inBounds shape idx then .ok (ravel shape idx) else .error .valueError

/-- The multi-index at row-major position `k`, without bounds check. -/
def unravel : List Nat → Nat → List Nat
  | [], _ => []
  | _ :: ns, k => (k / ns.prod) :: unravel ns (k % ns.prod)

/-- `numpy.unravel_index(k, shape)`: `ValueError` when `k` is out of bounds. -/
def unravelIndex (k : Nat) (shape : List Nat) : Except Err (List Nat) :=
  if k < shape.prod then .ok (unravel shape k) else .error .valueError

/-- Insert into a list sorted with respect to `le` (before the first not smaller entry). -/
def insertBy {α : Type _} (le : α → α → Bool) (a : α) : List α → List α
  | [] => [a]
  | b :: l => if le a b then a :: b :: l else b :: insertBy le a l

/-- `sorted(l)` with comparison `le`. -/
def sortBy {α : Type _} (le : α → α → Bool) : List α → List α
  | [] => []
  | a :: l => insertBy le a (sortBy le l)

/-- `sorted` on a list of integers. -/
def sortNat (l : List Nat) : List Nat := sortBy (fun a b => decide (a ≤ b)) l

/-- Python's lexicographic comparison of tuples of integers. -/
def lexLe : List Nat → List Nat → Bool
  | [], _ => true
  | _ :: _, [] => false
  | a :: as, b :: bs => decide (a < b) || (decide (a = b) && lexLe as bs)

/-- `numpy.cumsum([0] + sizes)`, i.e. the list of offsets followed by the total. -/
def cumsum0 (sizes : List Nat) : List Nat :=
  go 0 sizes
where
  /-- Running sums starting from `acc`. -/
  go (acc : Nat) : List Nat → List Nat
    | [] => [acc]
    | n :: ns => acc :: go (acc + n) ns

/-- `enumerate(l)` as a dictionary: `dict(enumerate(l))`, keys starting at `start`. -/
def enumFrom {α : Type} (start : Nat) : List α → Dict Nat α
  | [] => []
  | a :: l => (start, a) :: enumFrom (start + 1) l

/-- `FIAT.polynomial_set.mis(m, n)`: all `m`-tuples of non-negative integers with sum `n`
(transcription of the FIAT helper; FIAT is not part of the repository).
`mis(0, n)` does not terminate normally in FIAT for `n > 0`; it is only called with
`m ≥ 1` and we return `[()]` for `n = 0` and nothing otherwise. -/
def mis : Nat → Nat → List (List Nat)
  | 0, 0 => [[]]
  | 0, _ + 1 => []
  | 1, n => [[n]]
  | m + 2, n =>
    if n = 0 then [List.replicate (m + 2) 0]
    else (List.range (n + 1)).flatMap fun i => (mis (m + 1) i).map ((n - i) :: ·)

end FInAT
