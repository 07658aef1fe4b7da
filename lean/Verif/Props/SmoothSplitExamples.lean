import Verif.Props.SmoothSplit
import Verif.Props.SmoothExamples

/-!
# Two triangles with a common edge for C94

The triangle with vertices `(0,0), (5,0), (0,12)` and its mirror image with vertices `(0,0), (-5,0), (0,12)`, split in
twelve and in six triangles.
-/

namespace FInAT.Props.SplitExamples

open Finset FInAT.Zany FInAT.Spec.Zany FInAT.ZanyComp FInAT.Props FInAT.Props.ZanyExamples FInAT.Props.SmoothExamples

theorem two : (halves : Split ℚ).Two where
  segments := rfl
  first := rfl
  last := rfl
  left := by decide +kernel
  right := by decide +kernel

theorem toP_eq (l m : UP) (h : (addU l (smulU (-1) m)).all (· == 0) = true) : toP l = toP m := by
  have := toP_zero _ h
  rw [toP_add, toP_smul] at this
  rw [← sub_eq_zero, ← this]
  simp [sub_eq_add_neg]

/-- `Tri.Knots` for edges split in two. -/
def knotsC (G : Tri ℚ) (S : Split ℚ) (f : PF) : Bool := (List.range 3).all fun e =>
  ev (dx (f.edge e 0)) (G.point e (S.pt 1) 0) (G.point e (S.pt 1) 1) ==
    ev (dx (f.edge e 1)) (G.point e (S.pt 1) 0) (G.point e (S.pt 1) 1) &&
  ev (dy (f.edge e 0)) (G.point e (S.pt 1) 0) (G.point e (S.pt 1) 1) ==
    ev (dy (f.edge e 1)) (G.point e (S.pt 1) 0) (G.point e (S.pt 1) 1)

theorem knots_toFn (G : Tri ℚ) (S : Split ℚ) (hS : S.Two) (f : PF) (h : knotsC G S f = true) : G.Knots S f.toFn := by
  unfold knotsC at h
  simp only [List.all_eq_true, List.mem_range, Bool.and_eq_true, beq_iff_eq] at h
  intro e he i hi k hk
  rw [hS.segments] at hi
  obtain rfl : i = 0 := by omega
  show value _ (D k (toMv (f.edge e 0))) = value _ (D k (toMv (f.edge e 1)))
  match k, hk with
  | 0, _ => rw [D0_toMv, D0_toMv, value_toMv, value_toMv]; exact (h e he).1
  | 1, _ => rw [D1_toMv, D1_toMv, value_toMv, value_toMv]; exact (h e he).2

/-- `Tri.Joined`. -/
def joinedC (G : Tri ℚ) (S : Split ℚ) (z : Nat → ℚ) (f : PF) : Bool := (List.range 3).all fun e =>
  (addU (tr (G.point e (S.pt 1)) z (dx (f.edge e 0))) (smulU (-1) (tr (G.point e (S.pt 1)) z (dx (f.edge e 1))))).all (· == 0) &&
  (addU (tr (G.point e (S.pt 1)) z (dy (f.edge e 0))) (smulU (-1) (tr (G.point e (S.pt 1)) z (dy (f.edge e 1))))).all (· == 0)

theorem joined_toFn (G : Tri ℚ) (S : Split ℚ) (z : Nat → ℚ) (f : PF) (h : joinedC G S z f = true) :
    G.Joined S z f.toFn := by
  unfold joinedC at h
  rw [List.all_eq_true] at h
  intro e he k hk
  have := h e (List.mem_range.2 he)
  rw [Bool.and_eq_true] at this
  show trace _ _ (D k (toMv (f.edge e 0))) = trace _ _ (D k (toMv (f.edge e 1)))
  match k, hk with
  | 0, _ => rw [D0_toMv, D0_toMv, trace_toMv, trace_toMv]; exact toP_eq _ _ this.1
  | 1, _ => rw [D1_toMv, D1_toMv, trace_toMv, trace_toMv]; exact toP_eq _ _ this.2

/-! ### Split in twelve -/

theorem ps_total : ∀ j < 12, ∀ e < 3, ∀ i < 2, ∀ t ∈ (split12 (psFam.getD j [])).edge e i, t.2.1 + t.2.2 ≤ 2 := by
  decide +kernel

theorem ps_knots : ∀ j < 12, knotsC (phys R345 g512 (fun _ => 0) false) halves (push (split12 (psFam.getD j []))) = true ∧
    knotsC (phys R345 gMirror (fun _ => 0) false) halves (push' (split12 (psFam.getD j []))) = true := by decide +kernel

theorem ps_fits' : ∀ j < 12, fitsC (phys R345 gMirror (fun _ => 0) false) halves 3 (push' (split12 (psFam.getD j []))) =
    true := by decide +kernel

theorem ps_mirror : ∀ i < 12, ∀ j < 12,
    jdC R345 3 (fun e => nmC R345 halves e [1]) i ((push' (split12 (psFam.getD j []))).sc (-5 / 3) 3) =
      if i = j then 1 else 0 := by decide +kernel

theorem ps_cell : Ps12Cell R345 halves false g512 (fun _ => 0) fun j => (push (split12 (psFam.getD j []))).toFn where
  affine := affine
  fits j hj := fits_toFn _ _ _ (by omega) _ (ps_fits j hj)
  knots j hj := knots_toFn _ _ two _ (ps_knots j hj).1
  degree j hj e he i hi := degree_sc 2 _ _ _ (ps_total j hj e he i hi)
  nodal i hi j hj := by
    beta_reduce
    rw [pull_push, show (1 : Polynomial ℚ) = toP [1] by simp [toP],
      jetDofs_toFn R345 3 (by omega) (by omega) _ (fun e => nmC R345 halves e [1]) _
        (fun k => normalMoment_toFn _ _ _ _ _)]
    exact ps_nodal i hi j hj

theorem ps_cell' : Ps12Cell R345 halves false gMirror (fun _ => 0) fun j => (push' (split12 (psFam.getD j []))).toFn where
  affine := affine'
  fits j hj := fits_toFn _ _ _ (by omega) _ (ps_fits' j hj)
  knots j hj := knots_toFn _ _ two _ (ps_knots j hj).2
  degree j hj e he i hi := degree_sc 2 _ _ _ (ps_total j hj e he i hi)
  nodal i hi j hj := by
    beta_reduce
    rw [pull_push', show (1 : Polynomial ℚ) = toP [1] by simp [toP],
      jetDofs_toFn R345 3 (by omega) (by omega) _ (fun e => nmC R345 halves e [1]) _
        (fun k => normalMoment_toFn _ _ _ _ _)]
    exact ps_mirror i hi j hj

example := C94_powellSabin12 R345 halves two false g512 gMirror (fun _ => 0) (fun _ => 0) _ _ ps_cell ps_cell' 1 1
  (shared false) c1 (c2 3) same3 edge3

/-! ### Split in six -/

/-- The basis of the reference triangle split at its barycentre and at the midpoints of its edges. -/
def centreFam : List (List BP) := [
  [[(1, 0, 0), (-2/9, 2, 0), (-1/6, 1, 1), (-1/8, 0, 2)],
   [(3, 0, 0), (-2, 1, 0), (-3/2, 0, 1), (1/3, 2, 0), (1/2, 1, 1), (3/16, 0, 2)],
   [(3, 0, 0), (-2, 1, 0), (-3/2, 0, 1), (1/3, 2, 0), (1/2, 1, 1), (3/16, 0, 2)],
   [(3, 0, 0), (-2, 1, 0), (-3/2, 0, 1), (1/3, 2, 0), (1/2, 1, 1), (3/16, 0, 2)],
   [(3, 0, 0), (-2, 1, 0), (-3/2, 0, 1), (1/3, 2, 0), (1/2, 1, 1), (3/16, 0, 2)],
   [(1, 0, 0), (-2/9, 2, 0), (-1/6, 1, 1), (-1/8, 0, 2)],
   [(2, 0, 0), (-2/3, 1, 0), (-1, 0, 1), (-1/9, 2, 0), (1/6, 1, 1), (1/8, 0, 2)],
   [(1, 0, 0), (-2/9, 2, 0), (-1/6, 1, 1), (-1/8, 0, 2)],
   [(2, 0, 0), (-4/3, 1, 0), (-1/2, 0, 1), (2/9, 2, 0), (1/6, 1, 1), (-1/16, 0, 2)]],
  [[(1, 1, 0), (-1/2, 2, 0), (-1/4, 1, 1)],
   [(3/2, 0, 0), (-1, 1, 0), (-3/4, 0, 1), (1/6, 2, 0), (1/4, 1, 1), (3/32, 0, 2)],
   [(3/2, 0, 0), (-1, 1, 0), (-3/4, 0, 1), (1/6, 2, 0), (1/4, 1, 1), (3/32, 0, 2)],
   [(3/2, 0, 0), (-1, 1, 0), (-3/4, 0, 1), (1/6, 2, 0), (1/4, 1, 1), (3/32, 0, 2)],
   [(3/2, 0, 0), (-1, 1, 0), (-3/4, 0, 1), (1/6, 2, 0), (1/4, 1, 1), (3/32, 0, 2)],
   [(1, 1, 0), (-1/2, 2, 0), (-1/4, 1, 1)],
   [(1, 1, 0), (-1/2, 2, 0), (-1/4, 1, 1)],
   [(1, 1, 0), (-1/2, 2, 0), (-1/4, 1, 1)],
   [(3/2, 0, 0), (-1, 1, 0), (-3/4, 0, 1), (1/6, 2, 0), (1/4, 1, 1), (3/32, 0, 2)]],
  [[(1, 0, 1), (-1/3, 1, 1), (-3/8, 0, 2)],
   [(2, 0, 0), (-4/3, 1, 0), (-1, 0, 1), (2/9, 2, 0), (1/3, 1, 1), (1/8, 0, 2)],
   [(2, 0, 0), (-4/3, 1, 0), (-1, 0, 1), (2/9, 2, 0), (1/3, 1, 1), (1/8, 0, 2)],
   [(2, 0, 0), (-4/3, 1, 0), (-1, 0, 1), (2/9, 2, 0), (1/3, 1, 1), (1/8, 0, 2)],
   [(2, 0, 0), (-4/3, 1, 0), (-1, 0, 1), (2/9, 2, 0), (1/3, 1, 1), (1/8, 0, 2)],
   [(1, 0, 1), (-1/3, 1, 1), (-3/8, 0, 2)],
   [(2, 0, 0), (-4/3, 1, 0), (-1, 0, 1), (2/9, 2, 0), (1/3, 1, 1), (1/8, 0, 2)],
   [(1, 0, 1), (-1/3, 1, 1), (-3/8, 0, 2)],
   [(1, 0, 1), (-1/3, 1, 1), (-3/8, 0, 2)]],
  [[(1/3, 2, 0)],
   [(-1, 0, 0), (4/3, 1, 0), (1/2, 0, 1), (-2/9, 2, 0), (-1/6, 1, 1), (-1/8, 0, 2)],
   [(-1, 0, 0), (4/3, 1, 0), (1/2, 0, 1), (-1/9, 2, 0), (-1/3, 1, 1), (-1/16, 0, 2)],
   [(-1, 0, 0), (4/3, 1, 0), (1/2, 0, 1), (-2/9, 2, 0), (-1/6, 1, 1), (-1/8, 0, 2)],
   [(-1, 0, 0), (4/3, 1, 0), (1/2, 0, 1), (-1/9, 2, 0), (-1/3, 1, 1), (-1/16, 0, 2)],
   [(1/3, 2, 0)],
   [(1/3, 2, 0)],
   [(2/9, 2, 0), (1/6, 1, 1), (-1/16, 0, 2)],
   [(-1, 0, 0), (4/3, 1, 0), (1/2, 0, 1), (-2/9, 2, 0), (-1/6, 1, 1), (-1/8, 0, 2)]],
  [[(-1/3, 2, 0)],
   [(3/2, 0, 0), (-2, 1, 0), (-3/4, 0, 1), (1/2, 2, 0), (1/4, 1, 1), (3/16, 0, 2)],
   [(3/2, 0, 0), (-2, 1, 0), (-3/4, 0, 1), (1/3, 2, 0), (1/2, 1, 1), (3/32, 0, 2)],
   [(3/2, 0, 0), (-2, 1, 0), (-3/4, 0, 1), (1/2, 2, 0), (1/4, 1, 1), (3/16, 0, 2)],
   [(3/2, 0, 0), (-2, 1, 0), (-3/4, 0, 1), (1/3, 2, 0), (1/2, 1, 1), (3/32, 0, 2)],
   [(-1/3, 2, 0)],
   [(-1/3, 2, 0)],
   [(-1/6, 2, 0), (-1/4, 1, 1), (3/32, 0, 2)],
   [(3/2, 0, 0), (-2, 1, 0), (-3/4, 0, 1), (1/2, 2, 0), (1/4, 1, 1), (3/16, 0, 2)]],
  [[(2/9, 2, 0)],
   [(1/3, 1, 1), (-1/8, 0, 2)],
   [(2/9, 2, 0)],
   [(1/3, 1, 1), (-1/8, 0, 2)],
   [(2/9, 2, 0)],
   [(2/9, 2, 0)],
   [(2/9, 2, 0)],
   [(1/3, 1, 1), (-1/8, 0, 2)],
   [(1/3, 1, 1), (-1/8, 0, 2)]],
  [[(-1/9, 2, 0), (1/6, 1, 1), (1/8, 0, 2)],
   [(-1, 0, 0), (2/3, 1, 0), (1, 0, 1), (-1/9, 2, 0), (-1/3, 1, 1), (-1/16, 0, 2)],
   [(-1, 0, 0), (2/3, 1, 0), (1, 0, 1), (-2/9, 2, 0), (-1/6, 1, 1), (-1/8, 0, 2)],
   [(-1, 0, 0), (2/3, 1, 0), (1, 0, 1), (-1/9, 2, 0), (-1/3, 1, 1), (-1/16, 0, 2)],
   [(-1, 0, 0), (2/3, 1, 0), (1, 0, 1), (-2/9, 2, 0), (-1/6, 1, 1), (-1/8, 0, 2)],
   [(-1/9, 2, 0), (1/6, 1, 1), (1/8, 0, 2)],
   [(-1, 0, 0), (2/3, 1, 0), (1, 0, 1), (-2/9, 2, 0), (-1/6, 1, 1), (-1/8, 0, 2)],
   [(3/16, 0, 2)],
   [(3/16, 0, 2)]],
  [[(-1/6, 2, 0), (1/4, 1, 1)],
   [(3/32, 0, 2)],
   [(-1/6, 2, 0), (1/4, 1, 1)],
   [(3/32, 0, 2)],
   [(-1/6, 2, 0), (1/4, 1, 1)],
   [(-1/6, 2, 0), (1/4, 1, 1)],
   [(-1/6, 2, 0), (1/4, 1, 1)],
   [(3/32, 0, 2)],
   [(3/32, 0, 2)]],
  [[(2/9, 2, 0), (-1/3, 1, 1), (-1/8, 0, 2)],
   [(2, 0, 0), (-4/3, 1, 0), (-2, 0, 1), (2/9, 2, 0), (2/3, 1, 1), (1/4, 0, 2)],
   [(2, 0, 0), (-4/3, 1, 0), (-2, 0, 1), (4/9, 2, 0), (1/3, 1, 1), (3/8, 0, 2)],
   [(2, 0, 0), (-4/3, 1, 0), (-2, 0, 1), (2/9, 2, 0), (2/3, 1, 1), (1/4, 0, 2)],
   [(2, 0, 0), (-4/3, 1, 0), (-2, 0, 1), (4/9, 2, 0), (1/3, 1, 1), (3/8, 0, 2)],
   [(2/9, 2, 0), (-1/3, 1, 1), (-1/8, 0, 2)],
   [(2, 0, 0), (-4/3, 1, 0), (-2, 0, 1), (4/9, 2, 0), (1/3, 1, 1), (3/8, 0, 2)],
   [(-1/4, 0, 2)],
   [(-1/4, 0, 2)]]]

/-- The one of the reference triangle split at the point `(1, 2)`. -/
def middleFam : List (List BP) := [
  [[(1, 0, 0), (-1/3, 2, 0), (-1/8, 0, 2)],
   [(6, 0, 0), (-4, 1, 0), (-3, 0, 1), (2/3, 2, 0), (1, 1, 1), (3/8, 0, 2)],
   [(6, 0, 0), (-4, 1, 0), (-3, 0, 1), (2/3, 2, 0), (1, 1, 1), (3/8, 0, 2)],
   [(6, 0, 0), (-4, 1, 0), (-3, 0, 1), (2/3, 2, 0), (1, 1, 1), (3/8, 0, 2)],
   [(6, 0, 0), (-4, 1, 0), (-3, 0, 1), (2/3, 2, 0), (1, 1, 1), (3/8, 0, 2)],
   [(1, 0, 0), (-1/3, 2, 0), (-1/8, 0, 2)],
   [(2, 0, 0), (-1, 0, 1), (-1/3, 2, 0), (1/8, 0, 2)],
   [(1, 0, 0), (-2/9, 2, 0), (-1/9, 1, 1), (-7/72, 0, 2)],
   [(2, 0, 0), (-4/3, 1, 0), (-1/3, 0, 1), (2/9, 2, 0), (1/9, 1, 1), (-5/72, 0, 2)]],
  [[(1, 1, 0), (-5/12, 2, 0), (-1/4, 1, 1)],
   [(3, 0, 0), (-2, 1, 0), (-3/2, 0, 1), (1/3, 2, 0), (1/2, 1, 1), (3/16, 0, 2)],
   [(3, 0, 0), (-2, 1, 0), (-3/2, 0, 1), (1/3, 2, 0), (1/2, 1, 1), (3/16, 0, 2)],
   [(3, 0, 0), (-2, 1, 0), (-3/2, 0, 1), (1/3, 2, 0), (1/2, 1, 1), (3/16, 0, 2)],
   [(3, 0, 0), (-2, 1, 0), (-3/2, 0, 1), (1/3, 2, 0), (1/2, 1, 1), (3/16, 0, 2)],
   [(1, 1, 0), (-5/12, 2, 0), (-1/4, 1, 1)],
   [(1, 1, 0), (-5/12, 2, 0), (-1/4, 1, 1)],
   [(1, 1, 0), (-1/2, 2, 0), (-1/6, 1, 1), (-1/48, 0, 2)],
   [(3/2, 0, 0), (-1, 1, 0), (-1/2, 0, 1), (1/6, 2, 0), (1/6, 1, 1), (1/48, 0, 2)]],
  [[(1, 0, 1), (-1/3, 2, 0), (-3/8, 0, 2)],
   [(6, 0, 0), (-4, 1, 0), (-3, 0, 1), (2/3, 2, 0), (1, 1, 1), (3/8, 0, 2)],
   [(6, 0, 0), (-4, 1, 0), (-3, 0, 1), (2/3, 2, 0), (1, 1, 1), (3/8, 0, 2)],
   [(6, 0, 0), (-4, 1, 0), (-3, 0, 1), (2/3, 2, 0), (1, 1, 1), (3/8, 0, 2)],
   [(6, 0, 0), (-4, 1, 0), (-3, 0, 1), (2/3, 2, 0), (1, 1, 1), (3/8, 0, 2)],
   [(1, 0, 1), (-1/3, 2, 0), (-3/8, 0, 2)],
   [(2, 0, 0), (-1, 0, 1), (-1/3, 2, 0), (1/8, 0, 2)],
   [(1, 0, 1), (-1/3, 1, 1), (-7/24, 0, 2)],
   [(1, 0, 1), (-1/3, 1, 1), (-7/24, 0, 2)]],
  [[(1/3, 2, 0)],
   [(-5, 0, 0), (4, 1, 0), (3, 0, 1), (-2/3, 2, 0), (-1, 1, 1), (-1/2, 0, 2)],
   [(-4, 0, 0), (4, 1, 0), (2, 0, 1), (-2/3, 2, 0), (-1, 1, 1), (-1/4, 0, 2)],
   [(-5, 0, 0), (4, 1, 0), (3, 0, 1), (-2/3, 2, 0), (-1, 1, 1), (-1/2, 0, 2)],
   [(-4, 0, 0), (4, 1, 0), (2, 0, 1), (-2/3, 2, 0), (-1, 1, 1), (-1/4, 0, 2)],
   [(1/3, 2, 0)],
   [(1/3, 2, 0)],
   [(2/9, 2, 0), (1/9, 1, 1), (-1/36, 0, 2)],
   [(-1, 0, 0), (4/3, 1, 0), (1/3, 0, 1), (-2/9, 2, 0), (-1/9, 1, 1), (-1/18, 0, 2)]],
  [[(-1/3, 2, 0)],
   [(15/2, 0, 0), (-6, 1, 0), (-9/2, 0, 1), (7/6, 2, 0), (3/2, 1, 1), (3/4, 0, 2)],
   [(6, 0, 0), (-6, 1, 0), (-3, 0, 1), (7/6, 2, 0), (3/2, 1, 1), (3/8, 0, 2)],
   [(15/2, 0, 0), (-6, 1, 0), (-9/2, 0, 1), (7/6, 2, 0), (3/2, 1, 1), (3/4, 0, 2)],
   [(6, 0, 0), (-6, 1, 0), (-3, 0, 1), (7/6, 2, 0), (3/2, 1, 1), (3/8, 0, 2)],
   [(-1/3, 2, 0)],
   [(-1/3, 2, 0)],
   [(-1/6, 2, 0), (-1/6, 1, 1), (1/24, 0, 2)],
   [(3/2, 0, 0), (-2, 1, 0), (-1/2, 0, 1), (1/2, 2, 0), (1/6, 1, 1), (1/12, 0, 2)]],
  [[(1/3, 2, 0)],
   [(-6, 0, 0), (4, 1, 0), (4, 0, 1), (-2/3, 2, 0), (-1, 1, 1), (-3/4, 0, 2)],
   [(-4, 0, 0), (4, 1, 0), (2, 0, 1), (-2/3, 2, 0), (-1, 1, 1), (-1/4, 0, 2)],
   [(-6, 0, 0), (4, 1, 0), (4, 0, 1), (-2/3, 2, 0), (-1, 1, 1), (-3/4, 0, 2)],
   [(-4, 0, 0), (4, 1, 0), (2, 0, 1), (-2/3, 2, 0), (-1, 1, 1), (-1/4, 0, 2)],
   [(1/3, 2, 0)],
   [(1/3, 2, 0)],
   [(1/3, 1, 1), (-1/12, 0, 2)],
   [(1/3, 1, 1), (-1/12, 0, 2)]],
  [[(1/8, 0, 2)],
   [(1/8, 0, 2)],
   [(-1, 0, 0), (1, 0, 1), (-1/8, 0, 2)],
   [(1/8, 0, 2)],
   [(-1, 0, 0), (1, 0, 1), (-1/8, 0, 2)],
   [(1/8, 0, 2)],
   [(-1, 0, 0), (1, 0, 1), (-1/8, 0, 2)],
   [(1/8, 0, 2)],
   [(1/8, 0, 2)]],
  [[(-1/4, 2, 0), (1/4, 1, 1)],
   [(9/2, 0, 0), (-3, 1, 0), (-3, 0, 1), (1/2, 2, 0), (1, 1, 1), (9/16, 0, 2)],
   [(3, 0, 0), (-3, 1, 0), (-3/2, 0, 1), (1/2, 2, 0), (1, 1, 1), (3/16, 0, 2)],
   [(9/2, 0, 0), (-3, 1, 0), (-3, 0, 1), (1/2, 2, 0), (1, 1, 1), (9/16, 0, 2)],
   [(3, 0, 0), (-3, 1, 0), (-3/2, 0, 1), (1/2, 2, 0), (1, 1, 1), (3/16, 0, 2)],
   [(-1/4, 2, 0), (1/4, 1, 1)],
   [(-1/4, 2, 0), (1/4, 1, 1)],
   [(1/16, 0, 2)],
   [(1/16, 0, 2)]],
  [[(-1/8, 0, 2)],
   [(-1/8, 0, 2)],
   [(2, 0, 0), (-2, 0, 1), (3/8, 0, 2)],
   [(-1/8, 0, 2)],
   [(2, 0, 0), (-2, 0, 1), (3/8, 0, 2)],
   [(-1/8, 0, 2)],
   [(2, 0, 0), (-2, 0, 1), (3/8, 0, 2)],
   [(-1/8, 0, 2)],
   [(-1/8, 0, 2)]]]

/-- A family is a basis of `QuadraticPowellSabin6` on both triangles, which are split at `(x, y)` and `(-x, y)`. -/
def okC (F : List (List BP)) (x y : ℚ) : Bool := (List.range 9).all fun j =>
  fitsC (phys R345 g512 (fun _ => 0) true) halves 3 (push (split12 (F.getD j []))) &&
  fitsC (phys R345 gMirror (fun _ => 0) true) halves 3 (push' (split12 (F.getD j []))) &&
  joinedC (phys R345 g512 (fun _ => 0) true) halves (fun i => if i = 0 then x else y) (push (split12 (F.getD j []))) &&
  joinedC (phys R345 gMirror (fun _ => 0) true) halves (fun i => if i = 0 then -x else y) (push' (split12 (F.getD j []))) &&
  ((List.range 3).all fun e => (List.range 2).all fun i => ((split12 (F.getD j [])).edge e i).all fun t => t.2.1 + t.2.2 ≤ 2) &&
  (List.range 9).all fun i =>
    jdC R345 3 (fun _ _ => 0) i ((push (split12 (F.getD j []))).sc (5 / 3) 3) == (if i = j then 1 else 0) &&
    jdC R345 3 (fun _ _ => 0) i ((push' (split12 (F.getD j []))).sc (-5 / 3) 3) == (if i = j then 1 else 0)

noncomputable def sixFn (F : List (List BP)) (j : Nat) : Fn 2 ℚ := (push (split12 (F.getD j []))).toFn
noncomputable def sixFn' (F : List (List BP)) (j : Nat) : Fn 2 ℚ := (push' (split12 (F.getD j []))).toFn

theorem six_cell (F : List (List BP)) (x y : ℚ) (h : okC F x y = true) :
    Ps6Cell R345 halves (fun i => if i = 0 then x else y) g512 (fun _ => 0) (sixFn F) ∧
    Ps6Cell R345 halves (fun i => if i = 0 then -x else y) gMirror (fun _ => 0) (sixFn' F) := by
  unfold okC at h
  rw [List.all_eq_true] at h
  have h := fun j (hj : j < 9) => h j (List.mem_range.2 hj)
  simp only [Bool.and_eq_true] at h
  have hd : ∀ j < 9, ∀ e < 3, ∀ i < 2, ∀ t ∈ (split12 (F.getD j [])).edge e i, t.2.1 + t.2.2 ≤ 2 := by
    intro j hj e he i hi t ht
    have := (h j hj).1.2
    rw [List.all_eq_true] at this
    have := this e (List.mem_range.2 he)
    rw [List.all_eq_true] at this
    have := this i (List.mem_range.2 hi)
    rw [List.all_eq_true] at this
    exact of_decide_eq_true (this t ht)
  have hn : ∀ j < 9, ∀ i < 9, _ := fun j hj i hi => List.all_eq_true.1 (h j hj).2 i (List.mem_range.2 hi)
  simp only [Bool.and_eq_true, beq_iff_eq] at hn
  refine ⟨⟨affine, fun _ _ _ _ _ => rfl, fun j hj => ?_, fun j hj => ?_, fun j hj e he i hi => ?_, fun i hi j hj => ?_⟩,
    ⟨affine', fun _ _ _ _ _ => rfl, fun j hj => ?_, fun j hj => ?_, fun j hj e he i hi => ?_, fun i hi j hj => ?_⟩⟩
  · exact fits_toFn _ _ _ (by omega) _ (h j hj).1.1.1.1.1
  · exact joined_toFn _ _ _ _ (h j hj).1.1.1.2
  · exact degree_sc 2 _ _ _ (hd j hj e he i hi)
  · beta_reduce
    rw [sixFn, pull_push, jetDofs_toFn R345 3 (by omega) (by omega) _ (fun _ _ => 0) _ (fun k => rfl)]
    exact (hn j hj i hi).1
  · exact fits_toFn _ _ _ (by omega) _ (h j hj).1.1.1.1.2
  · exact joined_toFn _ _ _ _ (h j hj).1.1.2
  · exact degree_sc 2 _ _ _ (hd j hj e he i hi)
  · beta_reduce
    rw [sixFn', pull_push', jetDofs_toFn R345 3 (by omega) (by omega) _ (fun _ _ => 0) _ (fun k => rfl)]
    exact (hn j hj i hi).2

theorem centre_ok : okC centreFam (5 / 3) 4 = true := by decide +kernel
theorem middle_ok : okC middleFam (5 / 3) 6 = true := by decide +kernel

example := C94_powellSabin6 R345 halves two g512 gMirror (fun _ => 0) (fun _ => 0) _ _ _ _ (six_cell _ _ _ centre_ok).1
  (six_cell _ _ _ centre_ok).2 1 1 (shared true) c1 (c2 3) same3

theorem through : (phys R345 g512 (fun _ => 0) true).Through 1 ((phys R345 g512 (fun _ => 0) true).point 1 (halves.pt 1))
    (fun i => if i = 0 then 5 / 3 else 6) (fun i => if i = 0 then -(5 / 3) else 6) := by
  refine ⟨by decide +kernel, -1, by decide +kernel, by decide +kernel⟩

example := C94_powellSabin6_partial R345 halves two g512 gMirror (fun _ => 0) (fun _ => 0) _ _ _ _
  (six_cell _ _ _ middle_ok).1 (six_cell _ _ _ middle_ok).2 1 1 (shared true) c1 (c2 3) same3 through

/-- The coefficient of the value at the first vertex. -/
def first (i : Nat) : ℚ := if i = 0 then 1 else 0

theorem row0 : ∀ j < 9, (hermite 2 g512 9).get 0 j = first j ∧ (hermite 2 gMirror 9).get 0 j = first j := by decide +kernel

theorem ps6_first (g : Geometry ℚ) (φ : Nat → Fn 2 ℚ) (h : ∀ j < 9, (hermite 2 g 9).get 0 j = first j) :
    ps6 g φ first = φ 0 := by
  have e : ∀ ψ : Nat → Fn 2 ℚ, ∑ i ∈ range 9, first i • ψ i = ψ 0 := by
    intro ψ
    rw [Finset.sum_eq_single 0 (fun i _ hi => by simp [first, hi]) (fun h => by simp at h)]
    simp [first]
  unfold ps6 combine
  rw [e]
  unfold transformed
  rw [Finset.sum_congr rfl fun j hj => by rw [h j (Finset.mem_range.1 hj)], e]

/-- The normal derivative at the midpoint of the common edge. -/
theorem kink : ev (dx ((push (split12 (centreFam.getD 0 []))).edge 1 0)) 0 6 = -1 / 5 ∧
    ev (dx ((push' (split12 (centreFam.getD 0 []))).edge 1 0)) 0 6 = 1 / 5 := by decide +kernel

theorem not_smooth : ¬ SmoothOn halves (phys R345 g512 (fun _ => 0) true) (phys R345 gMirror (fun _ => 0) true) 1 1
    (ps6 g512 (sixFn centreFam) first) (ps6 gMirror (sixFn' centreFam) first) := by
  rw [ps6_first _ _ fun j hj => (row0 j hj).1, ps6_first _ _ fun j hj => (row0 j hj).2]
  intro h
  have := congrArg (Polynomial.eval (1 / 2)) (h.2 0 (by decide) 0 (by omega))
  rw [on_eval, on_eval, shared_point (shared true)] at this
  have e : ∀ (l : BP), value ((phys R345 g512 (fun _ => 0) true).point 1 (1 / 2)) (D 0 (toMv l)) = ev (dx l) 0 6 := by
    intro l
    rw [D0_toMv, value_toMv]
    congr 1 <;> decide +kernel
  rw [show sixFn centreFam 0 (.edge 1 0) = toMv ((push (split12 (centreFam.getD 0 []))).edge 1 0) from rfl,
    show sixFn' centreFam 0 (.edge 1 0) = toMv ((push' (split12 (centreFam.getD 0 []))).edge 1 0) from rfl, e, e,
    kink.1, kink.2] at this
  norm_num at this

/-! ### Morley -/

/-- The mirrored triangle with its own tangents and normals; those of the common edge are the same. -/
def gMorley : Geometry ℚ where
  J := gMirror.J
  Js := gMirror.Js
  detJ := -5
  h := gMirror.h
  pel := gMirror.pel
  rns := g512.rns
  pns e i := if e = 0 then (if i = 0 then 12 / 13 else -5 / 13) else if e = 1 then (if i = 0 then 1 else 0)
    else if i = 0 then 0 else 1
  pts e i := if e = 0 then (if i = 0 then 5 / 13 else 12 / 13) else if e = 1 then (if i = 0 then 0 else 1)
    else if i = 0 then -1 else 0

noncomputable def morleyFn' (j : Nat) : MvPolynomial (Fin 2) ℚ := toMv (sc (-3 / 5) (1 / 3) (morleyFam.getD j []))

theorem morley_nodal' : ∀ i < 6, ∀ j < 6,
    morleyC i (sc (-5 / 3) 3 (sc (-3 / 5) (1 / 3) (morleyFam.getD j []))) = if i = j then 1 else 0 := by decide +kernel

theorem morleyDofs_toMv (k : Nat) (l : BP) : morleyDofs R345.vert g512.rns (fun _ => 1) k (toMv l) = morleyC k l := by
  unfold morleyDofs morleyC
  split
  · exact value_toMv _ _
  · rw [along_toMv, trace_toMv, integral_toP]

theorem morley_cell : MorleyCell R345.vert g512 (fun _ => 0) morleyFn where
  length := by decide +kernel
  tangent := by decide +kernel
  unit := by decide +kernel
  size := by decide +kernel
  nodal i hi j hj := by
    have hp : pull g512.J (fun _ => 0) (morleyFn j) = toMv (sc (5 / 3) 3 (sc (3 / 5) (1 / 3) (morleyFam.getD j []))) :=
      pull_toMv g512.J rfl rfl _
    beta_reduce
    rw [hp, morleyDofs_toMv]
    exact morley_nodal i hi j hj

theorem morley_cell' : MorleyCell R345.vert gMorley (fun _ => 0) morleyFn' where
  length := by decide +kernel
  tangent := by decide +kernel
  unit := by decide +kernel
  size := by decide +kernel
  nodal i hi j hj := by
    have hp : pull gMorley.J (fun _ => 0) (morleyFn' j) =
        toMv (sc (-5 / 3) 3 (sc (-3 / 5) (1 / 3) (morleyFam.getD j []))) := pull_toMv gMorley.J rfl rfl _
    beta_reduce
    rw [hp]
    exact (morleyDofs_toMv _ _).trans (morley_nodal' i hi j hj)

example := C94_morley R345.vert g512 gMorley (fun _ => 0) (fun _ => 0) _ _ morley_cell morley_cell' 1 1 (by omega)
  (by omega) _ _ rfl ((shared true).start.symm) rfl ((shared true).stop.symm) (by decide +kernel) ⟨rfl, rfl⟩ c1
  (fun i => if i = 1 ∨ i = 3 then -4 else c1 i) ⟨rfl, rfl⟩ (by decide +kernel)

end FInAT.Props.SplitExamples

namespace FInAT.Props

open Finset FInAT.Zany FInAT.Spec.Zany SplitExamples SmoothExamples ZanyExamples

/-- `QuadraticPowellSabin6`, the missing part: for cells split at their barycentres and the midpoints of their edges, as
FIAT splits them, there are a triangle and its mirror image, and the same coefficients on both, with a function that is
not continuously differentiable across the common edge. -/
theorem C94_powellSabin6_false : ∃ (R : Tri ℚ) (S : Split ℚ) (g g' : Geometry ℚ) (b b' : Nat → ℚ) (φ φ' : Nat → Fn 2 ℚ)
    (z z' : Nat → ℚ) (e e' : Nat) (c : Nat → ℚ), S.Two ∧ S.pt 1 = 1 / 2 ∧
    (∀ i < 2, z i = ((phys R g b true).vert 0 i + (phys R g b true).vert 1 i + (phys R g b true).vert 2 i) / 3) ∧
    (∀ i < 2, z' i = ((phys R g' b' true).vert 0 i + (phys R g' b' true).vert 1 i + (phys R g' b' true).vert 2 i) / 3) ∧
    Ps6Cell R S z g b φ ∧ Ps6Cell R S z' g' b' φ' ∧ SharedEdge (phys R g b true) (phys R g' b' true) e e' ∧
    SameAtEnds 3 e e' c c ∧
    ¬ SmoothOn S (phys R g b true) (phys R g' b' true) e e' (ps6 g φ c) (ps6 g' φ' c) :=
  ⟨R345, halves, g512, gMirror, fun _ => 0, fun _ => 0, sixFn centreFam, sixFn' centreFam, _, _, 1, 1, first, two, rfl,
    by decide +kernel, by decide +kernel, (six_cell _ _ _ centre_ok).1, (six_cell _ _ _ centre_ok).2, shared true,
    fun _ _ => ⟨rfl, rfl⟩, not_smooth⟩

end FInAT.Props
