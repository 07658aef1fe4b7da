import Verif.Props.Zany2
import Verif.Lemmas.ZanyComp

/-!
# Concrete elements for C33, C35-C38

The reference triangle has sides 3, 4, 5, the physical one 5, 12, 13. The reference bases below (of the Argyris
element, its point variant, Bell, Hsieh-Clough-Tocher, reduced Hsieh-Clough-Tocher and Powell-Sabin elements) were
solved for with exact arithmetic; that they are nodal is checked by the kernel.
-/

namespace FInAT.Props.ZanyExamples

open Finset FInAT.Zany FInAT.Spec.Zany FInAT.ZanyComp FInAT.Props

/-- Vertices `(0,0), (3,0), (0,4)`. -/
def R345 : Tri ℚ where
  vert v i := if v = 1 ∧ i = 0 then 3 else if v = 2 ∧ i = 1 then 4 else 0
  h _ := 1
  len e := if e = 0 then 5 else if e = 1 then 4 else 3
  scale _ := 1

/-- `(x, y) ↦ (5/3 x, 3 y)`, with sizes 2, 3, 5 at the vertices. -/
def g512 : Geometry ℚ where
  J i j := if i = 0 ∧ j = 0 then 5 / 3 else if i = 1 ∧ j = 1 then 3 else 0
  Js _ i j := if i = 0 ∧ j = 0 then 5 / 3 else if i = 1 ∧ j = 1 then 3 else 0
  detJ := 5
  h v := if v = 0 then 2 else if v = 1 then 3 else 5
  pel e := if e = 0 then 13 else if e = 1 then 12 else 5
  rns e i := if i = 0 then R345.tangent e 1 / R345.len e else - R345.tangent e 0 / R345.len e
  pns e i := if e = 0 then (if i = 0 then 12 / 13 else 5 / 13) else if e = 1 then (if i = 0 then 1 else 0)
    else if i = 0 then 0 else -1
  pts e i := if e = 0 then (if i = 0 then -5 / 13 else 12 / 13) else if e = 1 then (if i = 0 then 0 else 1)
    else if i = 0 then 1 else 0

theorem affine : Affine R345 g512 fun _ => 0 where
  det := by decide +kernel
  lengths := by unfold Tri.Lengths; decide +kernel
  h_one _ := rfl
  scale_one _ := rfl
  phys_lengths := by
    unfold Tri.Lengths; decide +kernel
  size := by decide +kernel

/-- The function on the physical cell with the given pull-back. -/
def push (f : PF) : PF := f.sc (3 / 5) (1 / 3)

theorem pull_push (f : PF) : (push f).toFn.pull g512.J (fun _ => 0) = ((push f).sc (5 / 3) 3).toFn :=
  pull_toFn g512.J rfl rfl _

/-- The physical triangle with computable coordinates. -/
def P512 : Tri ℚ where
  vert v i := if v = 1 ∧ i = 0 then 5 else if v = 2 ∧ i = 1 then 12 else 0
  h := g512.h
  len := g512.pel
  scale _ := 1

def argyrisFam : List BP := [
  [(1, 0, 0), (-10/27, 3, 0), (-5/32, 0, 3), (5/27, 4, 0), (-5/24, 2, 2), (15/256, 0, 4), (-2/81, 5, 0), (5/72, 3, 2), (5/96, 2, 3), (-3/512, 0, 5)],
  [(1, 1, 0), (-2/3, 3, 0), (-9/8, 1, 2), (8/27, 4, 0), (1/2, 2, 2), (1/2, 1, 3), (-1/27, 5, 0), (-1/24, 3, 2), (-1/8, 2, 3), (-15/256, 1, 4)],
  [(1, 0, 1), (-2, 2, 1), (-3/8, 0, 3), (32/27, 3, 1), (2/3, 2, 2), (1/8, 0, 4), (-5/27, 4, 1), (-2/9, 3, 2), (-1/24, 2, 3), (-3/256, 0, 5)],
  [(1/2, 2, 0), (-1/2, 3, 0), (1/6, 4, 0), (-3/32, 2, 2), (-1/54, 5, 0), (1/32, 3, 2), (1/64, 2, 3)],
  [(1, 1, 1), (-3/2, 2, 1), (-9/8, 1, 2), (2/3, 3, 1), (1, 2, 2), (3/8, 1, 3), (-5/54, 4, 1), (-5/24, 3, 2), (-5/32, 2, 3), (-5/128, 1, 4)],
  [(1/2, 0, 2), (-3/8, 0, 3), (-1/6, 2, 2), (3/32, 0, 4), (1/27, 3, 2), (1/24, 2, 3), (-1/128, 0, 5)],
  [(10/27, 3, 0), (-5/27, 4, 0), (2/15, 2, 2), (2/81, 5, 0), (-2/45, 3, 2), (-1/30, 2, 3)],
  [(-4/9, 3, 0), (7/27, 4, 0), (-1/27, 5, 0)],
  [(-4/3, 2, 1), (28/27, 3, 1), (1, 2, 2), (-5/27, 4, 1), (-1/3, 3, 2), (-1/6, 2, 3)],
  [(1/6, 3, 0), (-1/9, 4, 0), (1/54, 5, 0)],
  [(1/2, 2, 1), (-4/9, 3, 1), (-3/8, 2, 2), (5/54, 4, 1), (1/8, 3, 2), (1/16, 2, 3)],
  [(1/6, 2, 2), (-1/27, 3, 2), (-1/24, 2, 3)],
  [(5/32, 0, 3), (3/40, 2, 2), (-15/256, 0, 4), (-1/40, 3, 2), (-3/160, 2, 3), (3/512, 0, 5)],
  [(-3/4, 1, 2), (3/4, 2, 2), (7/16, 1, 3), (-1/6, 3, 2), (-3/16, 2, 3), (-15/256, 1, 4)],
  [(-1/4, 0, 3), (7/64, 0, 4), (-3/256, 0, 5)],
  [(3/32, 2, 2), (-1/32, 3, 2), (-1/64, 2, 3)],
  [(3/8, 1, 2), (-3/8, 2, 2), (-1/4, 1, 3), (1/12, 3, 2), (3/32, 2, 3), (5/128, 1, 4)],
  [(1/8, 0, 3), (-1/16, 0, 4), (1/128, 0, 5)],
  [(-1/2, 2, 2), (1/6, 3, 2), (1/8, 2, 3)],
  [(15/8, 1, 2), (-5/4, 2, 2), (-15/16, 1, 3), (5/24, 3, 2), (5/16, 2, 3), (15/128, 1, 4)],
  [(-10/3, 2, 1), (20/9, 3, 1), (5/3, 2, 2), (-10/27, 4, 1), (-5/9, 3, 2), (-5/24, 2, 3)]]

def pointFam : List BP := [
  [(1, 0, 0), (-10/27, 3, 0), (-5/32, 0, 3), (5/27, 4, 0), (-5/24, 2, 2), (15/256, 0, 4), (-2/81, 5, 0), (5/72, 3, 2), (5/96, 2, 3), (-3/512, 0, 5)],
  [(1, 1, 0), (-2/3, 3, 0), (-11/16, 1, 2), (8/27, 4, 0), (5/24, 2, 2), (9/32, 1, 3), (-1/27, 5, 0), (1/144, 3, 2), (-5/96, 2, 3), (-1/32, 1, 4)],
  [(1, 0, 1), (-11/9, 2, 1), (-3/8, 0, 3), (2/3, 3, 1), (5/18, 2, 2), (1/8, 0, 4), (-8/81, 4, 1), (-5/54, 3, 2), (1/144, 2, 3), (-3/256, 0, 5)],
  [(1/2, 2, 0), (-1/2, 3, 0), (1/6, 4, 0), (-3/32, 2, 2), (-1/54, 5, 0), (1/32, 3, 2), (1/64, 2, 3)],
  [(1, 1, 1), (-4/3, 2, 1), (-1, 1, 2), (5/9, 3, 1), (5/6, 2, 2), (5/16, 1, 3), (-2/27, 4, 1), (-1/6, 3, 2), (-1/8, 2, 3), (-1/32, 1, 4)],
  [(1/2, 0, 2), (-3/8, 0, 3), (-1/6, 2, 2), (3/32, 0, 4), (1/27, 3, 2), (1/24, 2, 3), (-1/128, 0, 5)],
  [(10/27, 3, 0), (-5/27, 4, 0), (2/15, 2, 2), (2/81, 5, 0), (-2/45, 3, 2), (-1/30, 2, 3)],
  [(-4/9, 3, 0), (7/27, 4, 0), (-7/75, 2, 2), (-1/27, 5, 0), (7/225, 3, 2), (7/300, 2, 3)],
  [(-5/9, 2, 1), (14/27, 3, 1), (487/900, 2, 2), (-8/81, 4, 1), (-487/2700, 3, 2), (-181/1800, 2, 3)],
  [(1/6, 3, 0), (-1/9, 4, 0), (1/50, 2, 2), (1/54, 5, 0), (-1/150, 3, 2), (-1/200, 2, 3)],
  [(1/3, 2, 1), (-1/3, 3, 1), (-91/300, 2, 2), (2/27, 4, 1), (91/900, 3, 2), (11/200, 2, 3)],
  [(11/75, 2, 2), (-41/1350, 3, 2), (-11/300, 2, 3)],
  [(5/32, 0, 3), (3/40, 2, 2), (-15/256, 0, 4), (-1/40, 3, 2), (-3/160, 2, 3), (3/512, 0, 5)],
  [(-5/16, 1, 2), (73/200, 2, 2), (7/32, 1, 3), (-313/3600, 3, 2), (-73/800, 2, 3), (-1/32, 1, 4)],
  [(-1/4, 0, 3), (-7/100, 2, 2), (7/64, 0, 4), (7/300, 3, 2), (7/400, 2, 3), (-3/256, 0, 5)],
  [(59/800, 2, 2), (-59/2400, 3, 2), (-17/1600, 2, 3)],
  [(1/4, 1, 2), (-7/25, 2, 2), (-3/16, 1, 3), (59/900, 3, 2), (7/100, 2, 3), (1/32, 1, 4)],
  [(1/8, 0, 3), (1/50, 2, 2), (-1/16, 0, 4), (-1/150, 3, 2), (-1/200, 2, 3), (1/128, 0, 5)],
  [(-4/15, 2, 2), (4/45, 3, 2), (1/15, 2, 3)],
  [(1, 1, 2), (-2/3, 2, 2), (-1/2, 1, 3), (1/9, 3, 2), (1/6, 2, 3), (1/16, 1, 4)],
  [(-16/9, 2, 1), (32/27, 3, 1), (8/9, 2, 2), (-16/81, 4, 1), (-8/27, 3, 2), (-1/9, 2, 3)]]

def bellFam : List BP := [
  [(1, 0, 0), (-10/27, 3, 0), (-5/32, 0, 3), (5/27, 4, 0), (-5/24, 2, 2), (15/256, 0, 4), (-2/81, 5, 0), (5/72, 3, 2), (5/96, 2, 3), (-3/512, 0, 5)],
  [(1, 1, 0), (-2/3, 3, 0), (-3/16, 1, 2), (8/27, 4, 0), (-1/8, 2, 2), (1/32, 1, 3), (-1/27, 5, 0), (1/16, 3, 2), (1/32, 2, 3)],
  [(1, 0, 1), (-1/3, 2, 1), (-3/8, 0, 3), (2/27, 3, 1), (-1/6, 2, 2), (1/8, 0, 4), (1/18, 3, 2), (1/16, 2, 3), (-3/256, 0, 5)],
  [(1/2, 2, 0), (-1/2, 3, 0), (1/6, 4, 0), (-3/32, 2, 2), (-1/54, 5, 0), (1/32, 3, 2), (1/64, 2, 3)],
  [(1, 1, 1), (-2/3, 2, 1), (-1/2, 1, 2), (1/9, 3, 1), (1/6, 2, 2), (1/16, 1, 3)],
  [(1/2, 0, 2), (-3/8, 0, 3), (-1/6, 2, 2), (3/32, 0, 4), (1/27, 3, 2), (1/24, 2, 3), (-1/128, 0, 5)],
  [(10/27, 3, 0), (-5/27, 4, 0), (2/15, 2, 2), (2/81, 5, 0), (-2/45, 3, 2), (-1/30, 2, 3)],
  [(-4/9, 3, 0), (7/27, 4, 0), (-1/5, 2, 2), (-1/27, 5, 0), (1/15, 3, 2), (1/20, 2, 3)],
  [(1/3, 2, 1), (-2/27, 3, 1), (1/60, 2, 2), (-1/180, 3, 2), (-1/40, 2, 3)],
  [(1/6, 3, 0), (-1/9, 4, 0), (1/10, 2, 2), (1/54, 5, 0), (-1/30, 3, 2), (-1/40, 2, 3)],
  [(-1/3, 2, 1), (1/9, 3, 1), (-1/60, 2, 2), (1/180, 3, 2), (1/40, 2, 3)],
  [(1/15, 2, 2), (-1/270, 3, 2), (-1/60, 2, 3)],
  [(5/32, 0, 3), (3/40, 2, 2), (-15/256, 0, 4), (-1/40, 3, 2), (-3/160, 2, 3), (3/512, 0, 5)],
  [(3/16, 1, 2), (-3/40, 2, 2), (-1/32, 1, 3), (1/240, 3, 2), (3/160, 2, 3)],
  [(-1/4, 0, 3), (-3/20, 2, 2), (7/64, 0, 4), (1/20, 3, 2), (3/80, 2, 3), (-3/256, 0, 5)],
  [(-1/160, 2, 2), (1/480, 3, 2), (3/320, 2, 3)],
  [(-1/4, 1, 2), (1/10, 2, 2), (1/16, 1, 3), (-1/180, 3, 2), (-1/40, 2, 3)],
  [(1/8, 0, 3), (1/10, 2, 2), (-1/16, 0, 4), (-1/30, 3, 2), (-1/40, 2, 3), (1/128, 0, 5)],
  [(-21/2, 2, 2), (7/2, 3, 2), (21/8, 2, 3)],
  [(315/8, 1, 2), (-105/4, 2, 2), (-315/16, 1, 3), (35/8, 3, 2), (105/16, 2, 3), (315/128, 1, 4)],
  [(-70, 2, 1), (140/3, 3, 1), (35, 2, 2), (-70/9, 4, 1), (-35/3, 3, 2), (-35/8, 2, 3)]]

def hctFam : List (List BP) := [
  [[(-1, 0, 0), (3, 1, 0), (9/4, 0, 1), (-5/3, 2, 0), (-5/2, 1, 1), (-15/16, 0, 2), (7/27, 3, 0), (7/12, 2, 1), (7/16, 1, 2), (7/64, 0, 3)],
    [(1, 0, 0), (-1/3, 2, 0), (-3/16, 0, 2), (1/9, 3, 0), (-1/12, 2, 1), (1/32, 0, 3)],
    [(1, 0, 0), (-1/3, 2, 0), (-3/16, 0, 2), (2/27, 3, 0), (-1/16, 1, 2), (3/64, 0, 3)]],
  [[(2, 1, 0), (-3/4, 0, 1), (-4/3, 2, 0), (-1/2, 1, 1), (3/8, 0, 2), (2/9, 3, 0), (1/4, 2, 1), (-3/64, 0, 3)],
    [(1, 1, 0), (-1, 1, 1), (-2/9, 3, 0), (1/4, 2, 1), (3/16, 1, 2)],
    [(1, 1, 0), (-2/3, 2, 0), (-3/8, 0, 2), (1/9, 3, 0), (9/64, 0, 3)]],
  [[(-4/3, 1, 0), (2, 0, 1), (8/9, 2, 0), (-2/3, 1, 1), (-1, 0, 2), (-4/27, 3, 0), (1/4, 1, 2), (1/8, 0, 3)],
    [(1, 0, 1), (-8/9, 2, 0), (-1/2, 0, 2), (4/9, 3, 0), (1/16, 0, 3)],
    [(1, 0, 1), (-4/3, 1, 1), (1/3, 2, 1), (1/4, 1, 2), (-1/8, 0, 3)]],
  [[(32/25, 0, 0), (-48/25, 1, 0), (-36/25, 0, 1), (89/75, 2, 0), (8/5, 1, 1), (12/25, 0, 2), (-26/135, 3, 0), (-28/75, 2, 1), (-7/25, 1, 2), (-1/20, 0, 3)],
    [(1/3, 2, 0), (-22/225, 3, 0), (4/75, 2, 1)],
    [(1/3, 2, 0), (-2/27, 3, 0), (1/25, 1, 2), (-1/100, 0, 3)]],
  [[(-1/3, 2, 0), (1/9, 3, 0)],
    [(-1/3, 2, 0), (1/9, 3, 0)],
    [(-1/3, 2, 0), (1/9, 3, 0)]],
  [[(4, 0, 0), (-20/3, 1, 0), (-4, 0, 1), (28/9, 2, 0), (14/3, 1, 1), (5/4, 0, 2), (-4/9, 3, 0), (-1, 2, 1), (-3/4, 1, 2), (-1/8, 0, 3)],
    [(-4/9, 2, 0), (4/27, 3, 0), (1/3, 2, 1)],
    [(-2/3, 1, 1), (1/4, 0, 2), (1/3, 2, 1), (1/4, 1, 2), (-1/8, 0, 3)]],
  [[(18/25, 0, 0), (-27/25, 1, 0), (-81/100, 0, 1), (12/25, 2, 0), (9/10, 1, 1), (183/400, 0, 2), (-1/15, 3, 0), (-21/100, 2, 1), (-63/400, 1, 2), (-19/320, 0, 3)],
    [(3/16, 0, 2), (-1/75, 3, 0), (3/100, 2, 1), (-1/32, 0, 3)],
    [(3/16, 0, 2), (9/400, 1, 2), (-59/1600, 0, 3)]],
  [[(3, 0, 0), (-4, 1, 0), (-15/4, 0, 1), (5/3, 2, 0), (7/2, 1, 1), (21/16, 0, 2), (-2/9, 3, 0), (-3/4, 2, 1), (-9/16, 1, 2), (-9/64, 0, 3)],
    [(1/3, 2, 0), (-1/2, 1, 1), (-2/9, 3, 0), (1/4, 2, 1), (3/16, 1, 2)],
    [(-3/16, 0, 2), (3/16, 1, 2), (3/64, 0, 3)]],
  [[(-1/4, 0, 2), (1/16, 0, 3)],
    [(-1/4, 0, 2), (1/16, 0, 3)],
    [(-1/4, 0, 2), (1/16, 0, 3)]],
  [[(-24/5, 0, 0), (36/5, 1, 0), (27/5, 0, 1), (-16/5, 2, 0), (-6, 1, 1), (-9/5, 0, 2), (4/9, 3, 0), (7/5, 2, 1), (21/20, 1, 2), (3/16, 0, 3)],
    [(4/45, 3, 0), (-1/5, 2, 1)],
    [(-3/20, 1, 2), (3/80, 0, 3)]],
  [[(-3, 0, 0), (3, 1, 0), (9/2, 0, 1), (-1, 2, 0), (-3, 1, 1), (-27/16, 0, 2), (1/9, 3, 0), (1/2, 2, 1), (9/16, 1, 2), (3/16, 0, 3)],
    [(-1, 2, 0), (3/2, 1, 1), (5/9, 3, 0), (-1/2, 2, 1), (-3/8, 1, 2)],
    [(9/16, 0, 2), (-3/16, 1, 2), (-3/16, 0, 3)]],
  [[(4, 0, 0), (-8, 1, 0), (-3, 0, 1), (4, 2, 0), (4, 1, 1), (3/4, 0, 2), (-16/27, 3, 0), (-1, 2, 1), (-1/2, 1, 2), (-1/16, 0, 3)],
    [(-4/3, 2, 0), (16/27, 3, 0), (1/3, 2, 1)],
    [(-2, 1, 1), (3/4, 0, 2), (2/3, 2, 1), (1/2, 1, 2), (-5/16, 0, 3)]]]

def reducedFam : List (List BP) := [
  [[(-1, 0, 0), (3, 1, 0), (9/4, 0, 1), (-5/3, 2, 0), (-5/2, 1, 1), (-15/16, 0, 2), (7/27, 3, 0), (7/12, 2, 1), (7/16, 1, 2), (7/64, 0, 3)],
    [(1, 0, 0), (-1/3, 2, 0), (-3/16, 0, 2), (1/9, 3, 0), (-1/12, 2, 1), (1/32, 0, 3)],
    [(1, 0, 0), (-1/3, 2, 0), (-3/16, 0, 2), (2/27, 3, 0), (-1/16, 1, 2), (3/64, 0, 3)]],
  [[(-3/2, 0, 0), (7/2, 1, 0), (3/2, 0, 1), (-11/6, 2, 0), (-2, 1, 1), (-15/32, 0, 2), (5/18, 3, 0), (1/2, 2, 1), (9/32, 1, 2), (3/64, 0, 3)],
    [(1, 1, 0), (-1/2, 2, 0), (-1/4, 1, 1), (1/18, 3, 0)],
    [(1, 1, 0), (-2/3, 2, 0), (-3/32, 0, 2), (1/9, 3, 0), (-3/32, 1, 2), (3/64, 0, 3)]],
  [[(-2, 0, 0), (8/3, 1, 0), (7/2, 0, 1), (-10/9, 2, 0), (-8/3, 1, 1), (-11/8, 0, 2), (4/27, 3, 0), (1/2, 2, 1), (1/2, 1, 2), (5/32, 0, 3)],
    [(1, 0, 1), (-2/9, 2, 0), (-1/2, 0, 2), (4/27, 3, 0), (-1/6, 2, 1), (1/16, 0, 3)],
    [(1, 0, 1), (-1/3, 1, 1), (-3/8, 0, 2), (1/32, 0, 3)]],
  [[(32/25, 0, 0), (-48/25, 1, 0), (-36/25, 0, 1), (89/75, 2, 0), (8/5, 1, 1), (12/25, 0, 2), (-26/135, 3, 0), (-28/75, 2, 1), (-7/25, 1, 2), (-1/20, 0, 3)],
    [(1/3, 2, 0), (-22/225, 3, 0), (4/75, 2, 1)],
    [(1/3, 2, 0), (-2/27, 3, 0), (1/25, 1, 2), (-1/100, 0, 3)]],
  [[(-48/25, 0, 0), (72/25, 1, 0), (54/25, 0, 1), (-121/75, 2, 0), (-12/5, 1, 1), (-18/25, 0, 2), (13/45, 3, 0), (14/25, 2, 1), (21/50, 1, 2), (3/40, 0, 3)],
    [(-1/3, 2, 0), (11/75, 3, 0), (-2/25, 2, 1)],
    [(-1/3, 2, 0), (1/9, 3, 0), (-3/50, 1, 2), (3/200, 0, 3)]],
  [[(14/25, 0, 0), (-38/75, 1, 0), (-22/25, 0, 1), (34/225, 2, 0), (13/15, 1, 1), (67/200, 0, 2), (-2/135, 3, 0), (-2/25, 2, 1), (-37/200, 1, 2), (-3/80, 0, 3)],
    [(2/9, 2, 0), (-82/675, 3, 0), (8/75, 2, 1)],
    [(1/3, 1, 1), (-1/8, 0, 2), (-9/200, 1, 2), (17/400, 0, 3)]],
  [[(18/25, 0, 0), (-27/25, 1, 0), (-81/100, 0, 1), (12/25, 2, 0), (9/10, 1, 1), (183/400, 0, 2), (-1/15, 3, 0), (-21/100, 2, 1), (-63/400, 1, 2), (-19/320, 0, 3)],
    [(3/16, 0, 2), (-1/75, 3, 0), (3/100, 2, 1), (-1/32, 0, 3)],
    [(3/16, 0, 2), (9/400, 1, 2), (-59/1600, 0, 3)]],
  [[(-21/50, 0, 0), (19/50, 1, 0), (33/50, 0, 1), (-17/150, 2, 0), (-2/5, 1, 1), (-201/800, 0, 2), (1/90, 3, 0), (3/50, 2, 1), (111/800, 1, 2), (9/320, 0, 3)],
    [(-1/6, 2, 0), (1/4, 1, 1), (41/450, 3, 0), (-2/25, 2, 1)],
    [(3/32, 0, 2), (27/800, 1, 2), (-51/1600, 0, 3)]],
  [[(-36/25, 0, 0), (54/25, 1, 0), (81/50, 0, 1), (-24/25, 2, 0), (-9/5, 1, 1), (-79/100, 0, 2), (2/15, 3, 0), (21/50, 2, 1), (63/200, 1, 2), (19/160, 0, 3)],
    [(-1/4, 0, 2), (2/75, 3, 0), (-3/50, 2, 1), (1/16, 0, 3)],
    [(-1/4, 0, 2), (-9/200, 1, 2), (59/800, 0, 3)]],
  [[(24, 0, 0), (-36, 1, 0), (-27, 0, 1), (16, 2, 0), (30, 1, 1), (9, 0, 2), (-20/9, 3, 0), (-7, 2, 1), (-21/4, 1, 2), (-15/16, 0, 3)],
    [(-4/9, 3, 0), (1, 2, 1)],
    [(3/4, 1, 2), (-3/16, 0, 3)]],
  [[(15, 0, 0), (-15, 1, 0), (-45/2, 0, 1), (5, 2, 0), (15, 1, 1), (135/16, 0, 2), (-5/9, 3, 0), (-5/2, 2, 1), (-45/16, 1, 2), (-15/16, 0, 3)],
    [(5, 2, 0), (-15/2, 1, 1), (-25/9, 3, 0), (5/2, 2, 1), (15/8, 1, 2)],
    [(-45/16, 0, 2), (15/16, 1, 2), (15/16, 0, 3)]],
  [[(-20, 0, 0), (40, 1, 0), (15, 0, 1), (-20, 2, 0), (-20, 1, 1), (-15/4, 0, 2), (80/27, 3, 0), (5, 2, 1), (5/2, 1, 2), (5/16, 0, 3)],
    [(20/3, 2, 0), (-80/27, 3, 0), (-5/3, 2, 1)],
    [(10, 1, 1), (-15/4, 0, 2), (-10/3, 2, 1), (-5/2, 1, 2), (25/16, 0, 3)]]]

def psFam : List (List BP) := [
  [[(1, 0, 0), (-2/9, 2, 0), (-1/8, 0, 2)],
    [(4, 0, 0), (-8/3, 1, 0), (-2, 0, 1), (4/9, 2, 0), (2/3, 1, 1), (1/4, 0, 2)],
    [(4, 0, 0), (-8/3, 1, 0), (-2, 0, 1), (4/9, 2, 0), (2/3, 1, 1), (1/4, 0, 2)],
    [(4, 0, 0), (-8/3, 1, 0), (-2, 0, 1), (4/9, 2, 0), (2/3, 1, 1), (1/4, 0, 2)],
    [(4, 0, 0), (-8/3, 1, 0), (-2, 0, 1), (4/9, 2, 0), (2/3, 1, 1), (1/4, 0, 2)],
    [(1, 0, 0), (-2/9, 2, 0), (-1/8, 0, 2)],
    [(2, 0, 0), (-1, 0, 1), (-4/9, 2, 0), (1/8, 0, 2)],
    [(1, 0, 0), (-2/9, 2, 0), (-1/8, 0, 2)],
    [(2, 0, 0), (-4/3, 1, 0), (2/9, 2, 0), (-1/4, 0, 2)]],
  [[(1, 1, 0), (-3/4, 1, 1)],
    [(3, 0, 0), (-2, 1, 0), (-3/2, 0, 1), (1/3, 2, 0), (1/2, 1, 1), (3/16, 0, 2)],
    [(-3/2, 0, 0), (1, 1, 0), (3/4, 0, 1), (-1/6, 2, 0), (-1/4, 1, 1), (-3/32, 0, 2)],
    [(3, 0, 0), (-2, 1, 0), (-3/2, 0, 1), (1/3, 2, 0), (1/2, 1, 1), (3/16, 0, 2)],
    [(-3/2, 0, 0), (1, 1, 0), (3/4, 0, 1), (-1/6, 2, 0), (-1/4, 1, 1), (-3/32, 0, 2)],
    [(1, 1, 0), (-3/4, 1, 1)],
    [(-1, 1, 0), (1/2, 2, 0), (1/4, 1, 1)],
    [(1, 1, 0), (-1/2, 2, 0), (-9/32, 0, 2)],
    [(3/2, 0, 0), (-1, 1, 0), (1/6, 2, 0), (-3/16, 0, 2)]],
  [[(1, 0, 1), (-2/3, 2, 0), (-3/8, 0, 2)],
    [(-2, 0, 0), (4/3, 1, 0), (1, 0, 1), (-2/9, 2, 0), (-1/3, 1, 1), (-1/8, 0, 2)],
    [(4, 0, 0), (-8/3, 1, 0), (-2, 0, 1), (4/9, 2, 0), (2/3, 1, 1), (1/4, 0, 2)],
    [(-2, 0, 0), (4/3, 1, 0), (1, 0, 1), (-2/9, 2, 0), (-1/3, 1, 1), (-1/8, 0, 2)],
    [(4, 0, 0), (-8/3, 1, 0), (-2, 0, 1), (4/9, 2, 0), (2/3, 1, 1), (1/4, 0, 2)],
    [(1, 0, 1), (-2/3, 2, 0), (-3/8, 0, 2)],
    [(2, 0, 0), (-1, 0, 1), (-4/9, 2, 0), (1/8, 0, 2)],
    [(1, 0, 1), (-1, 1, 1)],
    [(-1, 0, 1), (1/3, 1, 1), (3/8, 0, 2)]],
  [[(2/9, 2, 0)],
    [(-57/25, 0, 0), (164/75, 1, 0), (32/25, 0, 1), (-82/225, 2, 0), (-32/75, 1, 1), (-6/25, 0, 2)],
    [(-32/25, 0, 0), (128/75, 1, 0), (16/25, 0, 1), (-46/225, 2, 0), (-32/75, 1, 1), (-2/25, 0, 2)],
    [(-57/25, 0, 0), (164/75, 1, 0), (32/25, 0, 1), (-82/225, 2, 0), (-32/75, 1, 1), (-6/25, 0, 2)],
    [(-32/25, 0, 0), (128/75, 1, 0), (16/25, 0, 1), (-46/225, 2, 0), (-32/75, 1, 1), (-2/25, 0, 2)],
    [(2/9, 2, 0)],
    [(82/225, 2, 0)],
    [(2/9, 2, 0)],
    [(-1, 0, 0), (4/3, 1, 0), (-2/9, 2, 0), (2/25, 0, 2)]],
  [[(-1/6, 2, 0)],
    [(3/2, 0, 0), (-2, 1, 0), (1/2, 2, 0)],
    [(-1/6, 2, 0)],
    [(3/2, 0, 0), (-2, 1, 0), (1/2, 2, 0)],
    [(-1/6, 2, 0)],
    [(-1/6, 2, 0)],
    [(-1/6, 2, 0)],
    [(-1/6, 2, 0)],
    [(3/2, 0, 0), (-2, 1, 0), (1/2, 2, 0)]],
  [[(-2/9, 2, 0)],
    [(-6, 0, 0), (4, 1, 0), (4, 0, 1), (-2/3, 2, 0), (-1, 1, 1), (-3/4, 0, 2)],
    [(-2, 0, 0), (8/3, 1, 0), (1, 0, 1), (-4/9, 2, 0), (-2/3, 1, 1), (-1/8, 0, 2)],
    [(-6, 0, 0), (4, 1, 0), (4, 0, 1), (-2/3, 2, 0), (-1, 1, 1), (-3/4, 0, 2)],
    [(-2, 0, 0), (8/3, 1, 0), (1, 0, 1), (-4/9, 2, 0), (-2/3, 1, 1), (-1/8, 0, 2)],
    [(-2/9, 2, 0)],
    [(4/9, 2, 0)],
    [(-1/3, 1, 1), (1/8, 0, 2)],
    [(-2, 0, 1), (1, 1, 1), (3/4, 0, 2)]],
  [[(1/8, 0, 2)],
    [(-18/25, 0, 0), (12/25, 1, 0), (18/25, 0, 1), (-2/25, 2, 0), (-6/25, 1, 1), (-1/100, 0, 2)],
    [(-43/25, 0, 0), (24/25, 1, 0), (34/25, 0, 1), (-6/25, 2, 0), (-6/25, 1, 1), (-17/100, 0, 2)],
    [(-18/25, 0, 0), (12/25, 1, 0), (18/25, 0, 1), (-2/25, 2, 0), (-6/25, 1, 1), (-1/100, 0, 2)],
    [(-43/25, 0, 0), (24/25, 1, 0), (34/25, 0, 1), (-6/25, 2, 0), (-6/25, 1, 1), (-17/100, 0, 2)],
    [(1/8, 0, 2)],
    [(-1, 0, 0), (1, 0, 1), (2/25, 2, 0), (-1/8, 0, 2)],
    [(1/8, 0, 2)],
    [(17/100, 0, 2)]],
  [[(1/6, 2, 0), (-1/4, 1, 1)],
    [(-3/2, 0, 0), (1, 1, 0), (3/2, 0, 1), (-1/6, 2, 0), (-1/2, 1, 1), (-3/16, 0, 2)],
    [(-9/2, 0, 0), (4, 1, 0), (9/4, 0, 1), (-1, 2, 0), (-3/4, 1, 1), (-9/32, 0, 2)],
    [(-3/2, 0, 0), (1, 1, 0), (3/2, 0, 1), (-1/6, 2, 0), (-1/2, 1, 1), (-3/16, 0, 2)],
    [(-9/2, 0, 0), (4, 1, 0), (9/4, 0, 1), (-1, 2, 0), (-3/4, 1, 1), (-9/32, 0, 2)],
    [(1/6, 2, 0), (-1/4, 1, 1)],
    [(-2, 1, 0), (1, 2, 0), (3/4, 1, 1)],
    [(-3/32, 0, 2)],
    [(3/16, 0, 2)]],
  [[(-1/8, 0, 2)],
    [(-1/8, 0, 2)],
    [(2, 0, 0), (-2, 0, 1), (3/8, 0, 2)],
    [(-1/8, 0, 2)],
    [(2, 0, 0), (-2, 0, 1), (3/8, 0, 2)],
    [(-1/8, 0, 2)],
    [(2, 0, 0), (-2, 0, 1), (3/8, 0, 2)],
    [(-1/8, 0, 2)],
    [(-1/8, 0, 2)]],
  [[],
    [(24/5, 0, 0), (-16/5, 1, 0), (-24/5, 0, 1), (8/15, 2, 0), (8/5, 1, 1), (9/10, 0, 2)],
    [(24/5, 0, 0), (-32/5, 1, 0), (-12/5, 0, 1), (8/5, 2, 0), (8/5, 1, 1), (3/10, 0, 2)],
    [(24/5, 0, 0), (-16/5, 1, 0), (-24/5, 0, 1), (8/15, 2, 0), (8/5, 1, 1), (9/10, 0, 2)],
    [(24/5, 0, 0), (-32/5, 1, 0), (-12/5, 0, 1), (8/5, 2, 0), (8/5, 1, 1), (3/10, 0, 2)],
    [],
    [(-8/15, 2, 0)],
    [],
    [(-3/10, 0, 2)]],
  [[(-2/3, 2, 0), (1, 1, 1)],
    [],
    [(6, 0, 0), (-4, 1, 0), (-3, 0, 1), (2/3, 2, 0), (1, 1, 1), (3/8, 0, 2)],
    [],
    [(6, 0, 0), (-4, 1, 0), (-3, 0, 1), (2/3, 2, 0), (1, 1, 1), (3/8, 0, 2)],
    [(-2/3, 2, 0), (1, 1, 1)],
    [(4, 1, 0), (-2, 2, 0), (-1, 1, 1)],
    [(3/8, 0, 2)],
    []],
  [[(-8/9, 2, 0)],
    [(-8, 0, 0), (16/3, 1, 0), (4, 0, 1), (-8/9, 2, 0), (-4/3, 1, 1), (-1/2, 0, 2)],
    [],
    [(-8, 0, 0), (16/3, 1, 0), (4, 0, 1), (-8/9, 2, 0), (-4/3, 1, 1), (-1/2, 0, 2)],
    [],
    [(-8/9, 2, 0)],
    [],
    [(-4/3, 1, 1), (1/2, 0, 2)],
    [(-4, 0, 1), (4/3, 1, 1), (3/2, 0, 2)]]]

/-! ### Argyris -/

theorem fits_one (G : Tri ℚ) (S : Split ℚ) (w : Nat) (l : BP) : G.Fits S w (PF.one l).toFn :=
  ⟨fun _ _ _ _ => rfl, fun _ _ _ _ => rfl, fun _ _ _ _ => rfl⟩

theorem push_one (l : BP) : push (PF.one l) = PF.one (sc (3 / 5) (1 / 3) l) := rfl

noncomputable def famFn (F : List BP) (j : Nat) : Fn 2 ℚ := (push (PF.one (F.getD j []))).toFn

theorem fam_fits (F : List BP) (S : Split ℚ) (w j : Nat) (avg : Bool) :
    (phys R345 g512 (fun _ => 0) avg).Fits S w (famFn F j) := fits_one _ _ _ (sc (3 / 5) (1 / 3) (F.getD j []))

/-- `momentDofs` without higher moments. -/
theorem moment0 (G : Tri ℚ) (S : Split ℚ) (a w : Nat) (I : Nat → Fn 2 ℚ → ℚ) (k : Nat) (hk : k < 3 * w + 3) (f : Fn 2 ℚ) :
    G.momentDofs S a w 0 I k f = G.jetDofs w (fun e => G.normalMoment S e (toP [1])) k f := by
  have hj : (jacobi a 0 : Polynomial ℚ) = 1 := by simp [jacobi]
  unfold Tri.momentDofs Tri.jetDofs
  by_cases h : k < 3 * w
  · rw [if_pos h, if_pos h]
  · rw [if_neg h, if_neg h]
    beta_reduce
    rw [if_pos (by omega)]
    simp [Nat.mod_one, hj, toP]

theorem argyris_nodal : ∀ i < 21, ∀ j < 21,
    jdC R345 6 (fun e => nmC R345 whole e [1]) i ((push (PF.one (argyrisFam.getD j []))).sc (5 / 3) 3) =
      if i = j then 1 else 0 := by decide +kernel

theorem argyris_nodal' (I : Nat → Fn 2 ℚ → ℚ) :
    Nodal 21 (R345.momentDofs whole 2 6 0 I) fun j => (famFn argyrisFam j).pull g512.J fun _ => 0 := by
  intro i hi j hj
  beta_reduce
  rw [famFn, pull_push, moment0 _ _ _ _ _ _ (by omega),
    jetDofs_toFn R345 6 (by omega) le_rfl _ (fun e => nmC R345 whole e [1]) _ (fun k => normalMoment_toFn _ _ _ _ _)]
  exact argyris_nodal i hi j hj

example := C37_argyris R345 whole whole_OK g512 (fun _ => 0) affine false 0 0 21 rfl (fun _ _ => 0)
  (fun _ => ⟨fun _ _ => by simp, fun _ _ => by simp⟩) (famFn argyrisFam) (fun j _ => fam_fits _ _ _ j _)
  (argyris_nodal' _)

/-! ### Point variant, Bell -/

theorem fam_degree (F : List BP) (n : Nat) (e : Nat) (j : Nat) (avg : Bool)
    (h : (tr ((phys R345 g512 (fun _ => 0) avg).vert (ends e).1) ((phys R345 g512 (fun _ => 0) avg).vert (ends e).2)
      (sc (3 / 5) (1 / 3) (F.getD j []))).length ≤ n + 1) :
    ((phys R345 g512 (fun _ => 0) avg).on e (famFn F j (.edge e 0))).natDegree ≤ n := by
  rw [show famFn F j (.edge e 0) = toMv (sc (3 / 5) (1 / 3) (F.getD j [])) from rfl, Tri.on, trace_toMv]
  exact (degree_toP _).trans (by omega)

theorem point_nodal : ∀ i < 21, ∀ j < 21,
    jdC R345 6 (midC R345) i ((push (PF.one (pointFam.getD j []))).sc (5 / 3) 3) =
      if i = j then 1 else 0 := by decide +kernel

theorem point_degree : ∀ j < 21, ∀ e < 3, (tr ((phys R345 g512 (fun _ => 0) true).vert (ends e).1)
    ((phys R345 g512 (fun _ => 0) true).vert (ends e).2) (sc (3 / 5) (1 / 3) (pointFam.getD j []))).length ≤ 5 + 1 := by
  decide +kernel

example := C38_argyris_point R345 g512 (fun _ => 0) affine (by decide +kernel) (famFn pointFam)
  (fun j _ => fam_fits _ _ _ j _) (fun j hj e he => fam_degree _ _ e j _ (point_degree j hj e he))
  (fun i hi j hj => by
    beta_reduce
    rw [famFn, pull_push, jetDofs_toFn R345 6 (by omega) le_rfl _ (midC R345) _ (fun k => normalMidpoint_toFn _ _ _)]
    exact point_nodal i hi j hj)

theorem bell_nodal : ∀ i < 21, ∀ j < 21,
    jdC R345 6 (fun e => nmC R345 whole e (jacU 0 4)) i ((push (PF.one (bellFam.getD j []))).sc (5 / 3) 3) =
      if i = j then 1 else 0 := by decide +kernel

theorem bell_degree : ∀ j < 21, ∀ e < 3, (tr ((phys R345 g512 (fun _ => 0) true).vert (ends e).1)
    ((phys R345 g512 (fun _ => 0) true).vert (ends e).2) (sc (3 / 5) (1 / 3) (bellFam.getD j []))).length ≤ 5 + 1 := by
  decide +kernel

theorem bell_nodal' : Nodal 21 (R345.jetDofs 6 fun e => R345.normalMoment whole e (jacobi 0 4))
    fun j => (famFn bellFam j).pull g512.J fun _ => 0 := by
  intro i hi j hj
  beta_reduce
  rw [famFn, pull_push, jacobi_toP, jetDofs_toFn R345 6 (by omega) le_rfl _ (fun e => nmC R345 whole e (jacU 0 4)) _
    (fun k => normalMoment_toFn _ _ _ _ _)]
  exact bell_nodal i hi j hj

example := C38_bell R345 g512 (fun _ => 0) affine (famFn bellFam)
  (fun j _ => fam_fits _ _ _ j _) (fun j hj e he => fam_degree _ _ e j _ (bell_degree j hj e he)) bell_nodal'

theorem bell_normal : ∀ j < 21, ∀ e < 3, ((tr ((phys R345 g512 (fun _ => 0) true).vert (ends e).1)
    ((phys R345 g512 (fun _ => 0) true).vert (ends e).2) (al ((phys R345 g512 (fun _ => 0) true).normal e)
      (sc (3 / 5) (1 / 3) (bellFam.getD j [])))).drop 5).all (· == 0) = true := by
  decide +kernel

example := C38_bell_cubic R345 g512 (fun _ => 0) affine (famFn bellFam)
  (fun j _ => fam_fits _ _ _ j _) (fun j hj e he => fam_degree _ _ e j _ (bell_degree j hj e he))
  (fun j hj e he => by
    rw [show famFn bellFam j (.edge e 0) = toMv (sc (3 / 5) (1 / 3) (bellFam.getD j [])) from rfl, Tri.on, along_toMv,
      trace_toMv]
    exact degree_drop 4 _ (bell_normal j hj e he)) bell_nodal'

/-! ### Hsieh-Clough-Tocher, reduced Hsieh-Clough-Tocher -/

/-- The triangle is split at its barycentre; piece `e` contains edge `e`. -/
def alfeld (l : List BP) : PF := ⟨fun v => l.getD (if v = 0 then 1 else 0) [], fun e _ => l.getD e []⟩

noncomputable def splitFn (F : List (List BP)) (j : Nat) : Fn 2 ℚ := (push (alfeld (F.getD j []))).toFn

theorem hct_nodal : ∀ i < 12, ∀ j < 12,
    jdC R345 3 (fun e => nmC R345 whole e [1]) i ((push (alfeld (hctFam.getD j []))).sc (5 / 3) 3) =
      if i = j then 1 else 0 := by decide +kernel

theorem hct_fits : ∀ j < 12, fitsC (phys R345 g512 (fun _ => 0) true) whole 3 (push (alfeld (hctFam.getD j []))) = true ∧
    fitsC (phys R345 g512 (fun _ => 0) true) whole 3 (push (alfeld (reducedFam.getD j []))) = true := by decide +kernel

example := C37_hct R345 whole whole_OK g512 (fun _ => 0) affine true 0 0 12 rfl (fun _ _ => 0)
  (fun _ => ⟨fun _ _ => by simp, fun _ _ => by simp⟩) (splitFn hctFam)
  (fun j hj => fits_toFn _ _ _ (by omega) _ (hct_fits j hj).1)
  (fun i hi j hj => by
    beta_reduce
    rw [splitFn, pull_push, moment0 _ _ _ _ _ _ (by omega),
      jetDofs_toFn R345 3 (by omega) (by omega) _ (fun e => nmC R345 whole e [1]) _ (fun k => normalMoment_toFn _ _ _ _ _)]
    exact hct_nodal i hi j hj)

theorem reduced_nodal : ∀ i < 12, ∀ j < 12,
    jdC R345 3 (fun e => nmC R345 whole e (jacU 0 2)) i ((push (alfeld (reducedFam.getD j []))).sc (5 / 3) 3) =
      if i = j then 1 else 0 := by decide +kernel

theorem reduced_degree : ∀ j < 12, ∀ e < 3, (tr ((phys R345 g512 (fun _ => 0) true).vert (ends e).1)
    ((phys R345 g512 (fun _ => 0) true).vert (ends e).2) ((push (alfeld (reducedFam.getD j []))).edge e 0)).length ≤
      3 + 1 := by
  decide +kernel

theorem reduced_degree' (j : Nat) (hj : j < 12) (e : Nat) (he : e < 3) :
    ((phys R345 g512 (fun _ => 0) true).on e (splitFn reducedFam j (.edge e 0))).natDegree ≤ 3 := by
  rw [show splitFn reducedFam j (.edge e 0) = toMv ((push (alfeld (reducedFam.getD j []))).edge e 0) from rfl,
    Tri.on, trace_toMv]
  exact (degree_toP _).trans (by have := reduced_degree j hj e he; omega)

theorem reduced_nodal' : Nodal 12 (R345.jetDofs 3 fun e => R345.normalMoment whole e (jacobi 0 2))
    fun j => (splitFn reducedFam j).pull g512.J fun _ => 0 := by
  intro i hi j hj
  beta_reduce
  rw [splitFn, pull_push, jacobi_toP, jetDofs_toFn R345 3 (by omega) (by omega) _
    (fun e => nmC R345 whole e (jacU 0 2)) _ (fun k => normalMoment_toFn _ _ _ _ _)]
  exact reduced_nodal i hi j hj

example := C38_reducedHct R345 g512 (fun _ => 0) affine (splitFn reducedFam)
  (fun j hj => fits_toFn _ _ _ (by omega) _ (hct_fits j hj).2) reduced_degree' reduced_nodal'

theorem reduced_normal : ∀ j < 12, ∀ e < 3, ((tr ((phys R345 g512 (fun _ => 0) true).vert (ends e).1)
    ((phys R345 g512 (fun _ => 0) true).vert (ends e).2) (al ((phys R345 g512 (fun _ => 0) true).normal e)
      ((push (alfeld (reducedFam.getD j []))).edge e 0))).drop 3).all (· == 0) = true := by
  decide +kernel

example := C38_reducedHct_linear R345 g512 (fun _ => 0) affine (splitFn reducedFam)
  (fun j hj => fits_toFn _ _ _ (by omega) _ (hct_fits j hj).2) reduced_degree'
  (fun j hj e he => by
    rw [show splitFn reducedFam j (.edge e 0) = toMv ((push (alfeld (reducedFam.getD j []))).edge e 0) from rfl,
      Tri.on, along_toMv, trace_toMv]
    exact degree_drop 2 _ (reduced_normal j hj e he)) reduced_nodal'

/-! ### Powell-Sabin on the 12-split -/

/-- Edges in two halves. -/
def halves : Split ℚ := ⟨2, fun i => if i = 0 then 0 else if i = 1 then 1 / 2 else 1⟩

/-- The pieces at the vertices, then those along the halves of the edges. -/
def split12 (l : List BP) : PF := ⟨fun v => l.getD v [], fun e i => l.getD (3 + 2 * e + i) []⟩

theorem ps_nodal : ∀ i < 12, ∀ j < 12,
    jdC R345 3 (fun e => nmC R345 halves e [1]) i ((push (split12 (psFam.getD j []))).sc (5 / 3) 3) =
      if i = j then 1 else 0 := by decide +kernel

theorem ps_fits : ∀ j < 12, fitsC (phys R345 g512 (fun _ => 0) false) halves 3 (push (split12 (psFam.getD j []))) =
    true := by decide +kernel

example := C37_powellSabin12 R345 halves ⟨by decide, by decide +kernel, by decide +kernel⟩ g512 (fun _ => 0) affine false
  (fun j => (push (split12 (psFam.getD j []))).toFn) (fun j hj => fits_toFn _ _ _ (by omega) _ (ps_fits j hj))
  (fun i hi j hj => by
    beta_reduce
    rw [pull_push, show (1 : Polynomial ℚ) = toP [1] by simp [toP],
      jetDofs_toFn R345 3 (by omega) (by omega) _ (fun e => nmC R345 halves e [1]) _
        (fun k => normalMoment_toFn _ _ _ _ _)]
    exact ps_nodal i hi j hj)

/-! ### Morley -/

def morleyFam : List BP := [
  [(1, 0, 0), (-1/3, 1, 0), (-1/4, 0, 1), (1/6, 1, 1)],
  [(16/75, 1, 0), (4/25, 0, 1), (1/25, 2, 0), (-8/75, 1, 1), (-1/25, 0, 2)],
  [(3/25, 1, 0), (9/100, 0, 1), (-1/25, 2, 0), (-3/50, 1, 1), (1/25, 0, 2)],
  [(-4/5, 1, 0), (-3/5, 0, 1), (4/15, 2, 0), (2/5, 1, 1), (3/20, 0, 2)],
  [(1, 1, 0), (-1/3, 2, 0)],
  [(-1, 0, 1), (1/4, 0, 2)]]

noncomputable def morleyFn (j : Nat) : MvPolynomial (Fin 2) ℚ := toMv (sc (3 / 5) (1 / 3) (morleyFam.getD j []))

/-- `morleyDofs` on the reference triangle. -/
def morleyC (k : Nat) (l : BP) : ℚ :=
  if k < 3 then ev l (R345.vert k 0) (R345.vert k 1)
  else 1 * intSeg 0 1 0 (tr (R345.vert (ends (k - 3)).1) (R345.vert (ends (k - 3)).2) (al (g512.rns (k - 3)) l))

theorem morley_nodal : ∀ i < 6, ∀ j < 6,
    morleyC i (sc (5 / 3) 3 (sc (3 / 5) (1 / 3) (morleyFam.getD j []))) = if i = j then 1 else 0 := by decide +kernel

example := C36_morley g512 R345.vert (fun _ => 0) (by decide +kernel) (by decide +kernel) (by decide +kernel)
  (by decide +kernel) morleyFn (fun i hi j hj => by
    have hp : pull g512.J (fun _ => 0) (morleyFn j) = toMv (sc (5 / 3) 3 (sc (3 / 5) (1 / 3) (morleyFam.getD j []))) :=
      pull_toMv g512.J rfl rfl _
    beta_reduce
    rw [hp, ← morley_nodal i hi j hj]
    unfold morleyDofs morleyC
    split
    · rw [value_toMv]
    · rw [along_toMv, trace_toMv, integral_toP])

/-! ### Hermite on a curved cell -/

/-- The interval `[0, 1]`. -/
def unitVert (v _ : Nat) : ℚ := v

/-- `x ↦ x + x²`, which maps `[0, 1]` to `[0, 2]`. -/
noncomputable def curve (_ : Nat) : MvPolynomial (Fin 1) ℚ := MvPolynomial.X 0 + MvPolynomial.X 0 ^ 2

/-- The derivative of the map is 1 and 3 at the ends; sizes 2 and 5. -/
def gCurve : Geometry ℚ where
  J _ _ := 0
  Js v _ j := if j = 0 then 1 + 2 * v else 0
  detJ := 0
  h v := if v = 0 then 2 else 5
  pel _ := 0
  rns _ _ := 0
  pns _ _ := 0
  pts _ _ := 0

/-- Coefficients of `1, y, y², y³`. -/
def cubicCoeff (j : Nat) : ℚ × ℚ × ℚ × ℚ :=
  if j = 0 then (1, 0, -3 / 4, 1 / 4) else if j = 1 then (0, 1, -1, 1 / 4) else if j = 2 then (0, 0, 3 / 4, -1 / 4)
  else (0, 0, -1 / 6, 1 / 12)

noncomputable def cubic (j : Nat) : MvPolynomial (Fin 1) ℚ :=
  MvPolynomial.C (cubicCoeff j).1 + MvPolynomial.C (cubicCoeff j).2.1 * MvPolynomial.X 0 +
    MvPolynomial.C (cubicCoeff j).2.2.1 * MvPolynomial.X 0 ^ 2 +
    MvPolynomial.C (cubicCoeff j).2.2.2 * MvPolynomial.X 0 ^ 3

theorem value_cubic (y : ℚ) (j : Nat) : value (fun _ => y) (cubic j) =
    (cubicCoeff j).1 + (cubicCoeff j).2.1 * y + (cubicCoeff j).2.2.1 * y ^ 2 + (cubicCoeff j).2.2.2 * y ^ 3 := by
  simp [cubic, value]

theorem value_D_cubic (y : ℚ) (j : Nat) : value (fun _ => y) (D 0 (cubic j)) =
    (cubicCoeff j).2.1 + 2 * (cubicCoeff j).2.2.1 * y + 3 * (cubicCoeff j).2.2.2 * y ^ 2 := by
  simp [cubic, value, D, MvPolynomial.pderiv_X]
  ring

theorem value_curve (x : Nat → ℚ) (i : Nat) : value x (curve i) = x 0 + x 0 ^ 2 := by simp [curve, value]

theorem value_D_curve (x : Nat → ℚ) (i : Nat) : value x (D 0 (curve i)) = 1 + 2 * x 0 := by
  simp [curve, value, D, MvPolynomial.pderiv_X]

example := C35_hermite 1 gCurve 0 4 rfl (by decide +kernel) curve unitVert
  (fun v i j => by
    rcases j with _ | j
    · rw [value_D_curve]; rfl
    · simp [gCurve, D])
  (fun _ _ => 0) (fun _ => ⟨fun _ _ => by simp, fun _ _ => by simp⟩) (fun j _ => cubic j)
  (fun j hj => by
    refine ⟨fun v hv => ?_, fun v hv i hi => ?_, fun k hk => absurd hk (by omega)⟩
    · show value (unitVert v) (pullBy curve (cubic j)) = _
      rw [value_pullBy]
      simp only [value_curve, value_cubic]
      interval_cases v <;> interval_cases j <;> simp [cubicCoeff, unitVert] <;> norm_num
    · obtain rfl : i = 0 := by omega
      show value (unitVert v) (D 0 (pullBy curve (cubic j))) = _
      rw [value_D_pullBy _ _ _ (by omega)]
      simp only [value_curve, value_D_cubic, value_D_curve, Finset.sum_range_one]
      interval_cases v <;> interval_cases j <;> simp [cubicCoeff, unitVert] <;> norm_num)

/-! ### C33: a tetrahedron -/

/-- The unit tetrahedron. -/
def tet : RefCell ℚ := ⟨3, 4, fun v i => if v = i + 1 then 1 else 0, []⟩

noncomputable example := C33_vertex (d := 3) tet rfl g512 40 40 2 (fun i => i) (MvPolynomial.X 0 * MvPolynomial.X 2 ^ 3) 2 (by decide) 10 (by decide)
  7 (by decide) (fun k => jet (mapPoint 3 g512.J (fun i => i) (tet.verts 2)) 1 (k % 10)
    (MvPolynomial.X 0 * MvPolynomial.X 2 ^ 3)) (fun c hc => by rw [show (2 * 10 + c) % 10 = c by omega])

end FInAT.Props.ZanyExamples
