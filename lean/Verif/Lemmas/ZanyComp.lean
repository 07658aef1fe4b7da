import Verif.Lemmas.ZanyEdge
import Mathlib.Data.Rat.Cast.CharZero
import Mathlib.Algebra.Field.Rat
import Mathlib.Tactic.LinearCombination

/-!
# Computing degrees of freedom of concrete polynomials

Polynomials with rational coefficients as lists, and the degrees of freedom of `Verif.Spec.Zany` computed on them.
Used only for the concrete cases shown beside the theorems.
-/

namespace FInAT.ZanyComp

open Finset FInAT.Spec.Zany MvPolynomial

/-- `Σ c x^a y^b`. -/
abbrev BP := List (ℚ × Nat × Nat)

noncomputable def toMv (l : BP) : MvPolynomial (Fin 2) ℚ := (l.map fun t => C t.1 * X 0 ^ t.2.1 * X 1 ^ t.2.2).sum

@[simp] theorem toMv_nil : toMv [] = 0 := rfl
@[simp] theorem toMv_cons (t) (l : BP) : toMv (t :: l) = C t.1 * X 0 ^ t.2.1 * X 1 ^ t.2.2 + toMv l := rfl

def ev (l : BP) (x y : ℚ) : ℚ := (l.map fun t => t.1 * x ^ t.2.1 * y ^ t.2.2).sum

theorem value_toMv (p : Nat → ℚ) (l : BP) : value p (toMv l) = ev l (p 0) (p 1) := by
  induction l with
  | nil => simp [ev]
  | cons t l ih =>
    rw [toMv_cons, map_add, ih]
    simp [ev, value]

def dx (l : BP) : BP := l.map fun t => (t.1 * t.2.1, t.2.1 - 1, t.2.2)
def dy (l : BP) : BP := l.map fun t => (t.1 * t.2.2, t.2.1, t.2.2 - 1)

theorem D0_toMv (l : BP) : D 0 (toMv l) = toMv (dx l) := by
  induction l with
  | nil => simp [dx, D_zero]
  | cons t l ih =>
    rw [toMv_cons, D_add, ih]
    simp only [dx, List.map_cons, toMv_cons, D, show (0 : Nat) < 2 by omega, dif_pos]
    congr 1
    rw [pderiv_mul, pderiv_mul, pderiv_C, pderiv_pow, pderiv_pow]
    have h1 : pderiv (⟨0, by omega⟩ : Fin 2) (X 0 : MvPolynomial (Fin 2) ℚ) = 1 := pderiv_X_self _
    have h2 : pderiv (⟨0, by omega⟩ : Fin 2) (X 1 : MvPolynomial (Fin 2) ℚ) = 0 := pderiv_X_of_ne (by decide)
    rw [h1, h2, map_mul]
    simp
    ring

theorem D1_toMv (l : BP) : D 1 (toMv l) = toMv (dy l) := by
  induction l with
  | nil => simp [dy, D_zero]
  | cons t l ih =>
    rw [toMv_cons, D_add, ih]
    simp only [dy, List.map_cons, toMv_cons, D, show (1 : Nat) < 2 by omega, dif_pos]
    congr 1
    rw [pderiv_mul, pderiv_mul, pderiv_C, pderiv_pow, pderiv_pow]
    have h1 : pderiv (⟨1, by omega⟩ : Fin 2) (X 1 : MvPolynomial (Fin 2) ℚ) = 1 := pderiv_X_self _
    have h2 : pderiv (⟨1, by omega⟩ : Fin 2) (X 0 : MvPolynomial (Fin 2) ℚ) = 0 := pderiv_X_of_ne (by decide)
    rw [h1, h2, map_mul]
    simp
    ring

/-- `along u`. -/
def al (u : Nat → ℚ) (l : BP) : BP :=
  ((dx l).map fun t => (u 0 * t.1, t.2)) ++ (dy l).map fun t => (u 1 * t.1, t.2)

theorem toMv_append (l m : BP) : toMv (l ++ m) = toMv l + toMv m := by simp [toMv]

theorem toMv_scale (c : ℚ) (l : BP) : toMv (l.map fun t => (c * t.1, t.2)) = C c * toMv l := by
  induction l with
  | nil => simp
  | cons t l ih =>
    rw [List.map_cons, toMv_cons, ih, toMv_cons, map_mul]; ring

theorem along_toMv (u : Nat → ℚ) (l : BP) : along u (toMv l) = toMv (al u l) := by
  rw [along_eq, Finset.sum_range_succ, Finset.sum_range_succ, Finset.sum_range_zero, zero_add, D0_toMv, D1_toMv, al,
    toMv_append, toMv_scale, toMv_scale]

/-- `pull` under `x ↦ (p x, q y)`. -/
def sc (p q : ℚ) (l : BP) : BP := l.map fun t => (t.1 * p ^ t.2.1 * q ^ t.2.2, t.2)

theorem pull_toMv (J : Nat → Nat → ℚ) (h01 : J 0 1 = 0) (h10 : J 1 0 = 0) (l : BP) :
    pull J (fun _ => 0) (toMv l) = toMv (sc (J 0 0) (J 1 1) l) := by
  induction l with
  | nil => simp [sc]
  | cons t l ih =>
    rw [toMv_cons, map_add, ih]
    simp only [sc, List.map_cons, toMv_cons]
    congr 1
    simp only [pull, map_mul, map_pow, aeval_X, Fin.sum_univ_two]
    simp [h01, h10, mul_pow, algebraMap_eq]
    ring

/-! ### One variable -/

abbrev UP := List ℚ

noncomputable def toP : UP → Polynomial ℚ
  | [] => 0
  | a :: l => Polynomial.C a + Polynomial.X * toP l

def addU : UP → UP → UP
  | [], m => m
  | l, [] => l
  | a :: l, b :: m => (a + b) :: addU l m

theorem toP_add (l m : UP) : toP (addU l m) = toP l + toP m := by
  induction l generalizing m with
  | nil => simp [addU, toP]
  | cons a l ih =>
    cases m with
    | nil => simp [addU, toP]
    | cons b m => simp only [addU, toP, ih, map_add]; ring

def smulU (c : ℚ) (l : UP) : UP := l.map (c * ·)

theorem toP_smul (c : ℚ) (l : UP) : toP (smulU c l) = Polynomial.C c * toP l := by
  induction l with
  | nil => simp [smulU, toP]
  | cons a l ih =>
    have : smulU c (a :: l) = c * a :: smulU c l := rfl
    rw [this, toP, ih, toP, map_mul]; ring

def mulU : UP → UP → UP
  | [], _ => []
  | a :: l, m => addU (smulU a m) (0 :: mulU l m)

theorem toP_mul (l m : UP) : toP (mulU l m) = toP l * toP m := by
  induction l with
  | nil => simp [mulU, toP]
  | cons a l ih => rw [mulU, toP_add, toP_smul, toP, ih, toP, map_zero]; ring

def powU (l : UP) : Nat → UP
  | 0 => [1]
  | n + 1 => mulU l (powU l n)

theorem toP_pow (l : UP) (n : Nat) : toP (powU l n) = toP l ^ n := by
  induction n with
  | zero => simp [powU, toP]
  | succ n ih => rw [powU, toP_mul, ih, pow_succ, mul_comm]

/-- Restriction to the segment from `p` to `q`. -/
def tr (p q : Nat → ℚ) : BP → UP
  | [] => []
  | t :: l => addU (smulU t.1 (mulU (powU [p 0, q 0 - p 0] t.2.1) (powU [p 1, q 1 - p 1] t.2.2))) (tr p q l)

theorem trace_toMv (p q : Nat → ℚ) (l : BP) : trace p q (toMv l) = toP (tr p q l) := by
  induction l with
  | nil => simp [tr, toP]
  | cons t l ih =>
    rw [toMv_cons, map_add, ih, tr, toP_add, toP_smul, toP_mul, toP_pow, toP_pow]
    congr 1
    simp [trace, toP, mul_assoc]

/-- `∫_0^1 s^n p(s) ds`. -/
def intFrom : Nat → UP → ℚ
  | _, [] => 0
  | n, a :: l => a / (n + 1) + intFrom (n + 1) l

/-- `∫_a^b s^n p(s) ds`. -/
def intSeg (a b : ℚ) : Nat → UP → ℚ
  | _, [] => 0
  | n, c :: l => c * (b ^ (n + 1) - a ^ (n + 1)) / (n + 1) + intSeg a b (n + 1) l

theorem integral_toP' (a b : ℚ) (n : Nat) (l : UP) :
    integral a b (Polynomial.X ^ n * toP l) = intSeg a b n l := by
  induction l generalizing n with
  | nil => simp [toP, intSeg, integral_zero]
  | cons c l ih =>
    rw [toP, mul_add, integral_add, intSeg, ← ih, mul_comm _ (Polynomial.C c), Polynomial.C_mul_X_pow_eq_monomial,
      integral_monomial, ← mul_assoc, ← pow_succ]

theorem integral_toP (a b : ℚ) (l : UP) : integral a b (toP l) = intSeg a b 0 l := by
  have := integral_toP' a b 0 l
  simpa using this

def evU : UP → ℚ → ℚ
  | [], _ => 0
  | a :: l, x => a + x * evU l x

theorem eval_toP (l : UP) (x : ℚ) : (toP l).eval x = evU l x := by
  induction l with
  | nil => simp [toP, evU]
  | cons a l ih => simp [toP, evU, ih]

theorem degree_toP (l : UP) : (toP l).natDegree ≤ l.length - 1 := by
  induction l with
  | nil => simp [toP]
  | cons a l ih =>
    rw [toP]
    refine (Polynomial.natDegree_add_le _ _).trans ?_
    rw [Polynomial.natDegree_C]
    cases l with
    | nil => simp [toP]
    | cons b l =>
      refine max_le (by omega) ((Polynomial.natDegree_mul_le).trans ?_)
      have := Polynomial.natDegree_X_le (R := ℚ)
      simp only [List.length_cons] at ih ⊢
      omega

theorem toP_zero (l : UP) (h : l.all (· == 0) = true) : toP l = 0 := by
  induction l with
  | nil => rfl
  | cons a l ih =>
    simp only [List.all_cons, Bool.and_eq_true, beq_iff_eq] at h
    rw [toP, ih h.2, h.1]; simp

theorem degree_drop (n : Nat) (l : UP) (h : (l.drop (n + 1)).all (· == 0) = true) : (toP l).natDegree ≤ n := by
  induction n generalizing l with
  | zero =>
    cases l with
    | nil => simp [toP]
    | cons a l =>
      rw [List.drop_succ_cons, List.drop_zero] at h
      rw [toP, toP_zero l h]; simp
  | succ n ih =>
    cases l with
    | nil => simp [toP]
    | cons a l =>
      rw [toP]
      refine (Polynomial.natDegree_add_le _ _).trans (max_le (by simp) ((Polynomial.natDegree_mul_le).trans ?_))
      have := ih l (by rwa [List.drop_succ_cons] at h)
      have := Polynomial.natDegree_X_le (R := ℚ)
      omega

theorem sum_range_list {M : Type} [AddCommMonoid M] (f : Nat → M) (n : Nat) :
    ∑ i ∈ range n, f i = ((List.range n).map f).sum := by
  induction n with
  | zero => simp
  | succ n ih => rw [Finset.sum_range_succ, ih, List.range_succ]; simp

/-- Jacobi polynomial. -/
def jacU (a k : Nat) : UP := (List.range (k + 1)).foldr (fun i s =>
  addU (smulU (((k + a).choose (k - i) * (k + a).choose i : Nat) : ℚ) (mulU (powU [-1, 1] i) (powU [0, 1] (k - i)))) s) []

theorem jacobi_toP (a k : Nat) : (jacobi a k : Polynomial ℚ) = toP (jacU a k) := by
  have h : ∀ l : List Nat, toP (l.foldr (fun i s => addU (smulU (((k + a).choose (k - i) * (k + a).choose i : Nat) : ℚ)
      (mulU (powU [-1, 1] i) (powU [0, 1] (k - i)))) s) []) =
      (l.map fun i => Polynomial.C ((((k + a).choose (k - i) * (k + a).choose i : Nat)) : ℚ) *
    (Polynomial.X - 1) ^ i * Polynomial.X ^ (k - i)).sum := by
    intro l
    induction l with
    | nil => simp [toP]
    | cons i l ih =>
      rw [List.foldr_cons, toP_add, ih, List.map_cons, List.sum_cons, toP_smul, toP_mul, toP_pow, toP_pow]
      congr 1
      have h1 : toP [-1, 1] = Polynomial.X - 1 := by simp [toP]; ring
      have h2 : toP [0, 1] = Polynomial.X := by simp [toP]
      rw [h1, h2]; ring
  rw [jacU, h, jacobi, sum_range_list]

/-! ### Degrees of freedom -/

/-- A piecewise polynomial. -/
structure PF where
  vertex : Nat → BP
  edge : Nat → Nat → BP

noncomputable def PF.toFn (f : PF) : Fn 2 ℚ
  | .vertex v => toMv (f.vertex v)
  | .edge e i => toMv (f.edge e i)
  | .cell _ => 0

/-- A polynomial. -/
def PF.one (l : BP) : PF := ⟨fun _ => l, fun _ _ => l⟩

def PF.sc (p q : ℚ) (f : PF) : PF := ⟨fun v => ZanyComp.sc p q (f.vertex v), fun e i => ZanyComp.sc p q (f.edge e i)⟩

theorem pull_toFn (J : Nat → Nat → ℚ) (h01 : J 0 1 = 0) (h10 : J 1 0 = 0) (f : PF) :
    f.toFn.pull J (fun _ => 0) = (f.sc (J 0 0) (J 1 1)).toFn := by
  funext p
  cases p with
  | vertex v => exact pull_toMv J h01 h10 _
  | edge e i => exact pull_toMv J h01 h10 _
  | cell c => simp [Fn.pull, PF.toFn]

def jetC (x : Nat → ℚ) (h : ℚ) (c : Nat) (l : BP) : ℚ :=
  match c with
  | 0 => ev l (x 0) (x 1)
  | 1 => h * ev (dx l) (x 0) (x 1)
  | 2 => h * ev (dy l) (x 0) (x 1)
  | 3 => h * h * ev (dx (dx l)) (x 0) (x 1)
  | 4 => h * h * ev (dx (dy l)) (x 0) (x 1)
  | 5 => h * h * ev (dy (dy l)) (x 0) (x 1)
  | _ => 0

theorem jet_toMv (x : Nat → ℚ) (h : ℚ) (c : Nat) (hc : c < 6) (l : BP) : jet x h c (toMv l) = jetC x h c l := by
  have hp : pairs 2 = [(0, 0), (0, 1), (1, 1)] := by decide
  unfold jet
  rw [hp]
  match c, hc with
  | 0, _ => simp [jetC, value_toMv]
  | 1, _ => simp [jetC, value_toMv, D0_toMv]
  | 2, _ => simp [jetC, value_toMv, D1_toMv]
  | 3, _ => simp [jetC, value_toMv, D0_toMv]
  | 4, _ => simp [jetC, value_toMv, D0_toMv, D1_toMv]
  | 5, _ => simp [jetC, value_toMv, D1_toMv]
  | n + 6, hc => omega

/-- `normalMoment`. -/
def nmC (G : Tri ℚ) (S : Split ℚ) (e : Nat) (w : UP) (f : PF) : ℚ :=
  G.scale e * ((List.range S.m).map fun i => intSeg (S.pt i) (S.pt (i + 1)) 0
    (mulU (tr (G.vert (ends e).1) (G.vert (ends e).2) (al (G.normal e) (f.edge e i))) w)).sum

theorem normalMoment_toFn (G : Tri ℚ) (S : Split ℚ) (e : Nat) (w : UP) (f : PF) :
    G.normalMoment S e (toP w) f.toFn = nmC G S e w f := by
  unfold Tri.normalMoment nmC Split.integral
  congr 1
  rw [sum_range_list]
  refine congrArg List.sum (List.map_congr_left fun i _ => ?_)
  beta_reduce
  unfold Tri.on
  rw [show f.toFn (.edge e i) = toMv (f.edge e i) from rfl, along_toMv, trace_toMv, ← toP_mul, integral_toP]

/-- `normalMidpoint`. -/
def midC (G : Tri ℚ) (e : Nat) (f : PF) : ℚ :=
  G.scale e * evU (tr (G.vert (ends e).1) (G.vert (ends e).2) (al (G.normal e) (f.edge e 0))) (1 / 2)

theorem normalMidpoint_toFn (G : Tri ℚ) (e : Nat) (f : PF) : G.normalMidpoint e f.toFn = midC G e f := by
  unfold Tri.normalMidpoint midC Tri.on
  rw [show f.toFn (.edge e 0) = toMv (f.edge e 0) from rfl, along_toMv, trace_toMv, eval_toP]

/-- `jetDofs`. -/
def jdC (G : Tri ℚ) (w : Nat) (rest : Nat → PF → ℚ) (k : Nat) (f : PF) : ℚ :=
  if k < 3 * w then jetC (G.vert (k / w)) (G.h (k / w)) (k % w) (f.vertex (k / w)) else rest (k - 3 * w) f

theorem jetDofs_toFn (G : Tri ℚ) (w : Nat) (hw : 0 < w) (hw6 : w ≤ 6) (rest : Nat → Fn 2 ℚ → ℚ) (restC : Nat → PF → ℚ) (f : PF)
    (h : ∀ k, rest k f.toFn = restC k f) (k : Nat) : G.jetDofs w rest k f.toFn = jdC G w restC k f := by
  unfold Tri.jetDofs jdC
  split
  · exact jet_toMv _ _ _ (by have := Nat.mod_lt k hw; omega) _
  · exact h _

/-- `Fits`. -/
def fitsC (G : Tri ℚ) (S : Split ℚ) (w : Nat) (f : PF) : Bool :=
  (List.range 3).all fun e => ((List.range w).all fun c =>
    jetC (G.vert (ends e).1) 1 c (f.edge e 0) == jetC (G.vert (ends e).1) 1 c (f.vertex (ends e).1) &&
    jetC (G.vert (ends e).2) 1 c (f.edge e (S.m - 1)) == jetC (G.vert (ends e).2) 1 c (f.vertex (ends e).2)) &&
    (List.range (S.m - 1)).all fun i =>
      evU (tr (G.vert (ends e).1) (G.vert (ends e).2) (f.edge e i)) (S.pt (i + 1)) ==
      evU (tr (G.vert (ends e).1) (G.vert (ends e).2) (f.edge e (i + 1))) (S.pt (i + 1))

theorem fits_toFn (G : Tri ℚ) (S : Split ℚ) (w : Nat) (hw : w ≤ 6) (f : PF) (h : fitsC G S w f = true) :
    G.Fits S w f.toFn := by
  unfold fitsC at h
  simp only [List.all_eq_true, List.mem_range, Bool.and_eq_true, beq_iff_eq] at h
  refine ⟨fun e he c hc => ?_, fun e he c hc => ?_, fun e he i hi => ?_⟩
  · exact (jet_toMv _ _ _ (by omega) _).trans ((((h e he).1 c hc).1).trans (jet_toMv _ _ _ (by omega) _).symm)
  · exact (jet_toMv _ _ _ (by omega) _).trans ((((h e he).1 c hc).2).trans (jet_toMv _ _ _ (by omega) _).symm)
  · have := (h e he).2 i (by omega)
    unfold Tri.on
    rw [show f.toFn (.edge e i) = toMv (f.edge e i) from rfl, show f.toFn (.edge e (i + 1)) = toMv (f.edge e (i + 1)) from rfl,
      trace_toMv, trace_toMv, eval_toP, eval_toP]
    exact this

end FInAT.ZanyComp
