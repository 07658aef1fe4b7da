import Verif.Lemmas.Sympy2gem
import Mathlib.Data.Rat.Defs
import Mathlib.Algebra.Order.Ring.Rat

/-!
# Translation of symbolic expressions to GEM
-/

set_option linter.unusedSectionVars false

namespace FInAT.Props

open FInAT FInAT.Sympy2gem FInAT.Spec.Sympy2gem

/-- C46, values: whenever the translation succeeds and the GEM expressions bound to the symbols have
the values of the symbols, the translated expression has the value of the symbolic expression: over
every ordered field, for every expression. -/
theorem C46_value {K : Type} [Field K] [LinearOrder K] [IsStrictOrderedRing K]
    (pw : K → K → Option K) (bindings : String → Option Gem) (env σ : String → Option (Val K))
    (hb : ∀ s g v, bindings s = some g → env s = some v → eval pw σ g = some v)
    (t : Sym) (g : Gem) (v : Val K) (ht : translate bindings t = .ok g)
    (hv : value pw env t = some v) : eval pw σ g = some v :=
  sound hb t g v ht hv

/-- C46, rejection: the translation succeeds exactly for the expressions made of supported nodes and
bound symbols. -/
theorem C46_accepts (bindings : String → Option Gem) (t : Sym) :
    (∃ g, translate bindings t = .ok g) ↔ Accepted (fun s => (bindings s).isSome) t :=
  ⟨fun ⟨g, h⟩ => accepted_of_ok t g h, ok_of_accepted⟩

/-- C46, an expression built from nodes without a handler is refused with `NotImplementedError`, an
unbound symbol with `KeyError`, anything that is no expression with `AssertionError`. -/
theorem C46_errors (bindings : String → Option Gem) (name : String) (args : List Sym) :
    translate bindings (.expr name args) = .error .notImplemented ∧
    translate bindings (.alien name) = .error .assertionError ∧
    (bindings name = none → translate bindings (.symbol name) = .error .keyError) :=
  ⟨rfl, rfl, fun h => by simp only [translate, h]; rfl⟩

/-- C46, the memoizer is not observable: after any sequence of calls of the mapper, failed ones
included, the next call gives the plain translation. `same` is the equality with which the cache is
searched; equal nodes are the same expression. -/
theorem C46_memo (same : Sym → Sym → Bool) (hs : ∀ a b, same a b = true → a = b)
    (bindings : String → Option Gem) (history : List Sym) (t : Sym) :
    (((memo same bindings t).run).run (runAll same bindings [] history)).1
      = translate bindings t :=
  (memo_agrees hs t _ (runAll_valid hs history [] (fun _ h => absurd h (by simp)))).1

/-! ## Examples -/

namespace Sympy2gemExamples

/-- `Piecewise((1/x, x > 0), (y + 1/2 + x*x, x >= -1), (0, True), (sin(x), y < 0))`: the last piece
is never looked at. -/
def piece : Sym := .piecewise [
  (.pow (.symbol "x") (.int (-1)), .cmp .gt (.symbol "x") (.int 0)),
  (.add [.symbol "y", .rational 1 2, .mul [.symbol "x", .symbol "x"]],
    .cmp .ge (.symbol "x") (.int (-1))),
  (.int 0, .bool true),
  (.expr "sin" [.symbol "x"], .cmp .lt (.symbol "y") (.int 0))]

/-- The bindings of the coordinates. -/
def bind : String → Option Gem
  | "x" => some (.product (.int 2) (.var "X"))
  | "y" => some (.var "Y")
  | _ => none

/-- Powers with exponent `-1`, undefined at zero. -/
def inv (x y : ℚ) : Option ℚ := if y = -1 ∧ x ≠ 0 then some x⁻¹ else none

/-- The values of the coordinates when `X = a`, `Y = b`. -/
def coords (a b : ℚ) : String → Option (Val ℚ)
  | "x" => some (.num (2 * a))
  | "y" => some (.num b)
  | _ => none

/-- The values of the GEM variables. -/
def vars (a b : ℚ) : String → Option (Val ℚ)
  | "X" => some (.num a)
  | "Y" => some (.num b)
  | _ => none

theorem bound (a b : ℚ) : ∀ s g v, bind s = some g → coords a b s = some v →
    eval inv (vars a b) g = some v := by
  intro s g v h1 h2
  unfold bind at h1
  unfold coords at h2
  split at h1
  · cases h1; cases h2; simp [eval, vars, arith]
  · cases h1; cases h2; simp [eval, vars]
  · simp at h1

/-- The translation of the example exists. -/
def piece' : Gem := .conditional
  (.comparison ">" (.product (.int 2) (.var "X")) (.int 0))
  (.power (.product (.int 2) (.var "X")) (.int (-1)))
  (.conditional (.comparison ">=" (.product (.int 2) (.var "X")) (.int (-1)))
    (.sum (.sum (.var "Y") (.division (.int 1) (.int 2)))
      (.product (.product (.int 2) (.var "X")) (.product (.int 2) (.var "X"))))
    (.int 0))

theorem piece_ok : translate bind piece = .ok piece' := rfl

/-- At `X = 0` the first piece has no value and is not taken; at `X = -1` the default applies. -/
example : eval inv (vars 0 3) piece' = some (.num (7 / 2)) ∧
    eval inv (vars 2 3) piece' = some (.num (1 / 4)) ∧
    eval inv (vars (-1) 3) piece' = some (.num 0) := by
  refine ⟨C46_value inv bind (coords 0 3) _ (bound 0 3) piece _ _ piece_ok ?_,
    C46_value inv bind (coords 2 3) _ (bound 2 3) piece _ _ piece_ok ?_,
    C46_value inv bind (coords (-1) 3) _ (bound (-1) 3) piece _ _ piece_ok ?_⟩ <;> decide +kernel

/-- Without a default the value may be not a number. -/
example : eval inv (vars 0 0) (.conditional (.bool false) (.int 1) .nan) = some .nan :=
  C46_value inv bind (coords 0 0) _ (bound 0 0) (.piecewise [(.int 1, .bool false)]) _ _ rfl
    (by decide +kernel)

/-- Rejected: a function without handler inside a sum. -/
example : ¬ Accepted (fun s => (bind s).isSome) (.add [.int 1, .expr "sin" [.symbol "x"]]) := by
  rw [← C46_accepts]
  rintro ⟨g, h⟩
  cases h

end Sympy2gemExamples

end FInAT.Props
