import Verif.Lemmas.Ufl.ElementList
import Verif.Spec.Ufl

/-!
# Lemmas on the exterior calculus notation

The family found does not depend on the order, and the order found is the given one
shifted.  This reduces the statements about all orders to a finite check.
-/

namespace FInAT.Ufl

/-- Add `r` to an order that is a number. -/
def Order.shift (r : Int) : Order → Order
  | .int z => .int (z + r)
  | o => o

/-- Shift the order of a (family, order) pair. -/
def shiftS (r : Int) (s : String × Order) : String × Order := (s.1, s.2.shift r)

theorem pred_shift (r : Int) (o : Order) : (o.shift r).pred = o.pred.map (Order.shift r) := by
  cases o with
  | int z => simp only [Order.shift, Order.pred, Except.map]; congr 2; omega
  | _ => rfl

theorem feecElement_shift (table : Dict String (List (List (String × Bool)))) (f : String)
    (n : Option Nat) (r : Int) (o : Order) (k : Option Int) :
    feecElement table f n (o.shift r) k = (feecElement table f n o k).map (shiftS r) := by
  unfold feecElement
  rw [pred_shift]
  cases o.pred with
  | error e => rfl
  | ok low =>
    simp only [Except.map, bind, Except.bind]
    cases table.get f with
    | error e => rfl
    | ok rows =>
      simp only
      cases n with
      | none => rfl
      | some n =>
        cases k with
        | none =>
          simp only
          cases pyIndex rows ((n : Int) - 1) <;> rfl
        | some k =>
          simp only
          cases pyIndex rows ((n : Int) - 1) with
          | error e => rfl
          | ok row =>
            simp only
            cases pyIndex row k with
            | error e => rfl
            | ok q =>
              simp only [shiftS]
              cases q.2 <;> rfl

theorem aliasStep_shift (tdim : Option Nat) (k : Option Int) (r : Int) (s : String × Order) :
    aliasStep tdim k (shiftS r s) = (aliasStep tdim k s).map (Except.map (shiftS r)) := by
  unfold aliasStep
  simp only [shiftS]
  cases aliases.get? s.1 with
  | none => rfl
  | some rule =>
    cases tdim with
    | none => rfl
    | some n =>
      simp only [Option.map, Option.some.injEq]
      cases rule with
      | to f => rfl
      | feec => exact feecElement_shift ..
      | feecL2 => exact feecElement_shift ..

/-- The loop, stopped after a number of iterations. -/
def resolveN (tdim : Option Nat) (k : Option Int) : Nat → String × Order →
    Except Err (String × Order)
  | 0, s => .ok s
  | m + 1, s => match aliasStep tdim k s with
    | none => .ok s
    | some (.error e) => .error e
    | some (.ok s') => resolveN tdim k m s'

theorem resolve_eq_resolveN (tdim : Option Nat) (k : Option Int) (m : Nat) (s : String × Order)
    (h : aliasRank s.1 ≤ m) : resolve tdim k s = resolveN tdim k m s := by
  induction m generalizing s with
  | zero =>
    have : aliases.get? s.1 = none := by
      unfold aliasRank at h
      split at h <;> simp_all
    rw [resolve_of_not_alias this, resolveN]
  | succ m ih =>
    rw [resolve, resolveN]
    split
    · next h' => rw [h']
    · next h' => rw [h']
    · next s' h' =>
      rw [h']
      have := aliasStep_rank h'
      exact ih _ (by omega)

theorem aliasRank_le (f : String) : aliasRank f ≤ 2 := by
  unfold aliasRank
  split <;> omega

theorem resolveN_shift (tdim : Option Nat) (k : Option Int) (r : Int) (m : Nat)
    (s : String × Order) :
    resolveN tdim k m (shiftS r s) = (resolveN tdim k m s).map (shiftS r) := by
  induction m generalizing s with
  | zero => rfl
  | succ m ih =>
    rw [resolveN, resolveN, aliasStep_shift]
    cases aliasStep tdim k s with
    | none => rfl
    | some x =>
      cases x with
      | error e => rfl
      | ok s' => exact ih s'

theorem catchFeec_shift (tdim : Option Nat) (k : Option Int) (r : Int) (s : String × Order) :
    catchFeec tdim k (shiftS r s) = (catchFeec tdim k s).map (shiftS r) := by
  have aux : ∀ (c : Bool) (t : Dict String (List (List (String × Bool)))) (s : String × Order),
      (if c then feecElement t (shiftS r s).1 tdim (shiftS r s).2 k else .ok (shiftS r s)) =
      (if c then feecElement t s.1 tdim s.2 k else .ok s : Except Err _).map (shiftS r) := by
    intro c t s
    cases c
    · rfl
    · exact feecElement_shift ..
  unfold catchFeec
  rw [aux]
  have h1 : (shiftS r s).1 = s.1 := rfl
  rw [h1]
  generalize (if k.isSome && (s.1 == "P" || s.1 == "S") then
    feecElement feecTable s.1 tdim s.2 k else .ok s : Except Err (String × Order)) = x
  cases x with
  | error e => rfl
  | ok s' => exact aux _ _ s'

/-- Lines 404-416 together. -/
def front (tdim : Option Nat) (k : Option Int) (s : String × Order) :
    Except Err (String × Order) := do
  let s ← catchFeec tdim k s
  resolveN tdim k 2 s

theorem front_shift (tdim : Option Nat) (k : Option Int) (r : Int) (s : String × Order) :
    front tdim k (shiftS r s) = (front tdim k s).map (shiftS r) := by
  unfold front
  rw [catchFeec_shift]
  cases catchFeec tdim k s with
  | error e => rfl
  | ok s' => exact resolveN_shift ..

/-- The finite check behind the exterior calculus names: the family and the shift of the
order found at order zero. -/
def feecCheck (f : FeecName) (n k : Nat) : Bool :=
  match front (some n) (some (k : Int)) (f.name, .int 0) with
  | .error _ => false
  | .ok (g, o) =>
    match uflElements.get? g with
    | none => false
    | some e =>
      decide (o = .int (if f.trimmed && k == n then -1 else 0)) &&
      (match cubeFamily (some (.named (feecCell f.onCubes n))) e.family (.int 0) with
        | .ok g' => g' == e.family
        | .error _ => false) &&
      cellAllowed (some (.named (feecCell f.onCubes n))) e.cellnames &&
      (match e.kmin with
        | some m => decide (m ≤ (if f.trimmed && k == n then 0 else 1))
        | none => false) &&
      decide (e.kmax = none) &&
      decide (e.valueRank = (formShape n k).length) &&
      decide (e.sobolev = deRham n k) &&
      decide (e.mapping = formPullback (if f.l2 then "L2 Piola" else "identity") n k) &&
      decide (e.family = f.familyOf n k)

theorem feecCheck_all : ∀ f ∈ feecNames, ∀ n ∈ [1, 2, 3], ∀ k ∈ List.range (n + 1),
    feecCheck f n k = true := by
  decide +kernel

theorem cubeFamily_int (cell : Option UCell) (f : String) (r r' : Int) :
    cubeFamily cell f (.int r) = cubeFamily cell f (.int r') := rfl

end FInAT.Ufl
