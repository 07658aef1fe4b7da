import Verif.Props.Smooth
import Verif.Props.ZanyExamples
import Mathlib.Data.Rat.Cast.CharZero

/-!
# Two triangles with a common edge for C91

The triangle with vertices `(0,0), (5,0), (0,12)` and its mirror image with vertices `(0,0), (-5,0), (0,12)`.
-/

namespace FInAT.Props.SmoothExamples

open Finset FInAT.Zany FInAT.Spec.Zany FInAT.ZanyComp FInAT.Props FInAT.Props.ZanyExamples

/-- `(x, y) ↦ (-5/3 x, 3 y)`; another size at the vertex that is not shared. -/
def gMirror : Geometry ℚ where
  J i j := if i = 0 ∧ j = 0 then -5 / 3 else if i = 1 ∧ j = 1 then 3 else 0
  Js _ i j := if i = 0 ∧ j = 0 then -5 / 3 else if i = 1 ∧ j = 1 then 3 else 0
  detJ := -5
  h v := if v = 0 then 2 else if v = 1 then 7 else 5
  pel e := if e = 0 then 13 else if e = 1 then 12 else 5
  rns := g512.rns
  pns := g512.pns
  pts := g512.pts

theorem affine' : Affine R345 gMirror fun _ => 0 where
  det := by decide +kernel
  lengths := by unfold Tri.Lengths; decide +kernel
  h_one _ := rfl
  scale_one _ := rfl
  phys_lengths := by
    unfold Tri.Lengths; decide +kernel
  size := by decide +kernel

def push' (f : PF) : PF := f.sc (-3 / 5) (1 / 3)

theorem pull_push' (f : PF) : (push' f).toFn.pull gMirror.J (fun _ => 0) = ((push' f).sc (-5 / 3) 3).toFn :=
  pull_toFn gMirror.J rfl rfl _

theorem shared (avg : Bool) : SharedEdge (phys R345 g512 (fun _ => 0) avg) (phys R345 gMirror (fun _ => 0) avg) 1 1 where
  left := by omega
  right := by omega
  start := by
    funext i
    simp [phys, Tri.image, mapPoint, ends, R345]
  stop := by
    funext i
    simp [phys, Tri.image, mapPoint, ends, R345, Finset.sum_range_succ, g512, gMirror]
  size_start := rfl
  size_stop := rfl
  length := rfl
  factor := rfl

/-- Coefficients that differ at the vertex opposite to the common edge and on the other edges. -/
def c1 (i : Nat) : ℚ := i + 1

def c2 (w i : Nat) : ℚ := if w ≤ i ∧ i < 2 * w ∨ i = 3 * w ∨ i = 3 * w + 2 then -4 else i + 1

theorem same6 : SameAtEnds 6 1 1 c1 (c2 6) := by unfold SameAtEnds; decide +kernel
theorem edge6 : SameOnEdge 6 1 1 1 c1 (c2 6) := by unfold SameOnEdge; decide +kernel
theorem same3 : SameAtEnds 3 1 1 c1 (c2 3) := by unfold SameAtEnds; decide +kernel
theorem edge3 : SameOnEdge 3 1 1 1 c1 (c2 3) := by unfold SameOnEdge; decide +kernel

theorem degree_toMv (D : Nat) (l : BP) (h : ∀ t ∈ l, t.2.1 + t.2.2 ≤ D) : (toMv l).totalDegree ≤ D := by
  induction l with
  | nil => simp
  | cons t l ih =>
    rw [toMv_cons]
    refine (MvPolynomial.totalDegree_add _ _).trans (max_le ?_ (ih fun t ht => h t (by simp [ht])))
    refine le_trans ?_ (h t (by simp))
    refine (MvPolynomial.totalDegree_mul _ _).trans (Nat.add_le_add ((MvPolynomial.totalDegree_mul _ _).trans ?_) ?_)
    · rw [MvPolynomial.totalDegree_C, zero_add]
      exact (MvPolynomial.totalDegree_X_pow _ _).le
    · exact (MvPolynomial.totalDegree_X_pow _ _).le

theorem degree_sc (D : Nat) (p q : ℚ) (l : BP) (h : ∀ t ∈ l, t.2.1 + t.2.2 ≤ D) : (toMv (sc p q l)).totalDegree ≤ D := by
  refine degree_toMv D _ fun t ht => ?_
  obtain ⟨s, hs, rfl⟩ := List.mem_map.1 ht
  exact h s hs

noncomputable def famFn' (F : List BP) (j : Nat) : Fn 2 ℚ := (push' (PF.one (F.getD j []))).toFn

theorem fam_fits' (F : List BP) (S : Split ℚ) (w j : Nat) (avg : Bool) :
    (phys R345 gMirror (fun _ => 0) avg).Fits S w (famFn' F j) := fits_one _ _ _ (sc (-3 / 5) (1 / 3) (F.getD j []))

/-! ### Argyris -/

theorem argyris_total : ∀ j < 21, ∀ t ∈ argyrisFam.getD j [], t.2.1 + t.2.2 ≤ 5 := by decide +kernel

theorem argyris_mirror : ∀ i < 21, ∀ j < 21,
    jdC R345 6 (fun e => nmC R345 whole e [1]) i ((push' (PF.one (argyrisFam.getD j []))).sc (-5 / 3) 3) =
      if i = j then 1 else 0 := by decide +kernel

theorem argyris_cell : MomentCell R345 2 6 0 5 21 (fun _ _ => 0) false g512 (fun _ => 0) (famFn argyrisFam) where
  affine := affine
  linear _ := ⟨fun _ _ => by simp, fun _ _ => by simp⟩
  fits j _ := fam_fits _ _ _ j _
  degree j hj e _ := degree_sc 5 _ _ _ (argyris_total j hj)
  nodal := argyris_nodal' _

theorem argyris_cell' : MomentCell R345 2 6 0 5 21 (fun _ _ => 0) false gMirror (fun _ => 0) (famFn' argyrisFam) where
  affine := affine'
  linear _ := ⟨fun _ _ => by simp, fun _ _ => by simp⟩
  fits j _ := fam_fits' _ _ _ j _
  degree j hj e _ := degree_sc 5 _ _ _ (argyris_total j hj)
  nodal i hi j hj := by
    beta_reduce
    rw [famFn', pull_push', moment0 _ _ _ _ _ _ (by omega),
      jetDofs_toFn R345 6 (by omega) le_rfl _ (fun e => nmC R345 whole e [1]) _ (fun k => normalMoment_toFn _ _ _ _ _)]
    exact argyris_mirror i hi j hj

example := C91_argyris R345 0 0 21 rfl (fun _ _ => 0) false g512 gMirror (fun _ => 0) (fun _ => 0) _ _ argyris_cell
  argyris_cell' 1 1 (shared false) c1 (c2 6) same6 edge6

/-! ### Point variant, Bell -/

theorem point_total : ∀ j < 21, ∀ t ∈ pointFam.getD j [], t.2.1 + t.2.2 ≤ 5 := by decide +kernel

theorem point_mirror : ∀ i < 21, ∀ j < 21,
    jdC R345 6 (midC R345) i ((push' (PF.one (pointFam.getD j []))).sc (-5 / 3) 3) =
      if i = j then 1 else 0 := by decide +kernel

theorem point_cell : PointCell R345 g512 (fun _ => 0) (famFn pointFam) where
  affine := affine
  sizes := by decide +kernel
  fits j _ := fam_fits _ _ _ j _
  degree j hj e _ := degree_sc 5 _ _ _ (point_total j hj)
  nodal i hi j hj := by
    beta_reduce
    rw [famFn, pull_push, jetDofs_toFn R345 6 (by omega) le_rfl _ (midC R345) _ (fun k => normalMidpoint_toFn _ _ _)]
    exact point_nodal i hi j hj

theorem point_cell' : PointCell R345 gMirror (fun _ => 0) (famFn' pointFam) where
  affine := affine'
  sizes := by decide +kernel
  fits j _ := fam_fits' _ _ _ j _
  degree j hj e _ := degree_sc 5 _ _ _ (point_total j hj)
  nodal i hi j hj := by
    beta_reduce
    rw [famFn', pull_push', jetDofs_toFn R345 6 (by omega) le_rfl _ (midC R345) _ (fun k => normalMidpoint_toFn _ _ _)]
    exact point_mirror i hi j hj

example := C91_argyris_point R345 g512 gMirror (fun _ => 0) (fun _ => 0) _ _ point_cell point_cell' 1 1 (shared true) c1
  (c2 6) same6 edge6

theorem bell_total : ∀ j < 21, ∀ t ∈ bellFam.getD j [], t.2.1 + t.2.2 ≤ 5 := by decide +kernel

theorem bell_mirror : ∀ i < 21, ∀ j < 21,
    jdC R345 6 (fun e => nmC R345 whole e (jacU 0 4)) i ((push' (PF.one (bellFam.getD j []))).sc (-5 / 3) 3) =
      if i = j then 1 else 0 := by decide +kernel

theorem bell_cell : ReducedCell R345 6 4 5 g512 (fun _ => 0) (famFn bellFam) where
  affine := affine
  fits j _ := fam_fits _ _ _ j _
  degree j hj e _ := degree_sc 5 _ _ _ (bell_total j hj)
  nodal := bell_nodal'

theorem bell_cell' : ReducedCell R345 6 4 5 gMirror (fun _ => 0) (famFn' bellFam) where
  affine := affine'
  fits j _ := fam_fits' _ _ _ j _
  degree j hj e _ := degree_sc 5 _ _ _ (bell_total j hj)
  nodal i hi j hj := by
    beta_reduce
    rw [famFn', pull_push', jacobi_toP, jetDofs_toFn R345 6 (by omega) le_rfl _ (fun e => nmC R345 whole e (jacU 0 4)) _
      (fun k => normalMoment_toFn _ _ _ _ _)]
    exact bell_mirror i hi j hj

example := C91_bell R345 g512 gMirror (fun _ => 0) (fun _ => 0) _ _ bell_cell bell_cell' 1 1 (shared true) c1 (c2 6) same6

/-! ### Hsieh-Clough-Tocher, reduced Hsieh-Clough-Tocher -/

noncomputable def splitFn' (F : List (List BP)) (j : Nat) : Fn 2 ℚ := (push' (alfeld (F.getD j []))).toFn

theorem hct_total : ∀ j < 12, ∀ e < 3, (∀ t ∈ (alfeld (hctFam.getD j [])).edge e 0, t.2.1 + t.2.2 ≤ 3) ∧
    ∀ t ∈ (alfeld (reducedFam.getD j [])).edge e 0, t.2.1 + t.2.2 ≤ 3 := by decide +kernel

theorem hct_mirror : ∀ i < 12, ∀ j < 12,
    jdC R345 3 (fun e => nmC R345 whole e [1]) i ((push' (alfeld (hctFam.getD j []))).sc (-5 / 3) 3) =
      if i = j then 1 else 0 := by decide +kernel

theorem hct_fits' : ∀ j < 12,
    fitsC (phys R345 gMirror (fun _ => 0) true) whole 3 (push' (alfeld (hctFam.getD j []))) = true ∧
    fitsC (phys R345 gMirror (fun _ => 0) true) whole 3 (push' (alfeld (reducedFam.getD j []))) = true := by decide +kernel

theorem hct_cell : MomentCell R345 1 3 0 3 12 (fun _ _ => 0) true g512 (fun _ => 0) (splitFn hctFam) where
  affine := affine
  linear _ := ⟨fun _ _ => by simp, fun _ _ => by simp⟩
  fits j hj := fits_toFn _ _ _ (by omega) _ (hct_fits j hj).1
  degree j hj e he := degree_sc 3 _ _ _ (hct_total j hj e he).1
  nodal i hi j hj := by
    beta_reduce
    rw [splitFn, pull_push, moment0 _ _ _ _ _ _ (by omega),
      jetDofs_toFn R345 3 (by omega) (by omega) _ (fun e => nmC R345 whole e [1]) _ (fun k => normalMoment_toFn _ _ _ _ _)]
    exact hct_nodal i hi j hj

theorem hct_cell' : MomentCell R345 1 3 0 3 12 (fun _ _ => 0) true gMirror (fun _ => 0) (splitFn' hctFam) where
  affine := affine'
  linear _ := ⟨fun _ _ => by simp, fun _ _ => by simp⟩
  fits j hj := fits_toFn _ _ _ (by omega) _ (hct_fits' j hj).1
  degree j hj e he := degree_sc 3 _ _ _ (hct_total j hj e he).1
  nodal i hi j hj := by
    beta_reduce
    rw [splitFn', pull_push', moment0 _ _ _ _ _ _ (by omega),
      jetDofs_toFn R345 3 (by omega) (by omega) _ (fun e => nmC R345 whole e [1]) _ (fun k => normalMoment_toFn _ _ _ _ _)]
    exact hct_mirror i hi j hj

example := C91_hct R345 0 0 12 rfl (fun _ _ => 0) true g512 gMirror (fun _ => 0) (fun _ => 0) _ _ hct_cell
  hct_cell' 1 1 (shared true) c1 (c2 3) same3 edge3

theorem reduced_mirror : ∀ i < 12, ∀ j < 12,
    jdC R345 3 (fun e => nmC R345 whole e (jacU 0 2)) i ((push' (alfeld (reducedFam.getD j []))).sc (-5 / 3) 3) =
      if i = j then 1 else 0 := by decide +kernel

theorem reduced_cell : ReducedCell R345 3 2 3 g512 (fun _ => 0) (splitFn reducedFam) where
  affine := affine
  fits j hj := fits_toFn _ _ _ (by omega) _ (hct_fits j hj).2
  degree j hj e he := degree_sc 3 _ _ _ (hct_total j hj e he).2
  nodal := reduced_nodal'

theorem reduced_cell' : ReducedCell R345 3 2 3 gMirror (fun _ => 0) (splitFn' reducedFam) where
  affine := affine'
  fits j hj := fits_toFn _ _ _ (by omega) _ (hct_fits' j hj).2
  degree j hj e he := degree_sc 3 _ _ _ (hct_total j hj e he).2
  nodal i hi j hj := by
    beta_reduce
    rw [splitFn', pull_push', jacobi_toP, jetDofs_toFn R345 3 (by omega) (by omega) _
      (fun e => nmC R345 whole e (jacU 0 2)) _ (fun k => normalMoment_toFn _ _ _ _ _)]
    exact reduced_mirror i hi j hj

example := C91_reducedHct R345 g512 gMirror (fun _ => 0) (fun _ => 0) _ _ reduced_cell reduced_cell' 1 1 (shared true) c1
  (c2 3) same3

/-! ### Hermite -/

def hermiteFam : List BP := [
  [(1, 0, 0), (-1/3, 2, 0), (-13/12, 1, 1), (-3/16, 0, 2), (2/27, 3, 0), (13/36, 2, 1), (13/48, 1, 2), (1/32, 0, 3)],
  [(1, 1, 0), (-2/3, 2, 0), (-3/4, 1, 1), (1/9, 3, 0), (1/4, 2, 1), (1/8, 1, 2)],
  [(1, 0, 1), (-1, 1, 1), (-1/2, 0, 2), (2/9, 2, 1), (1/4, 1, 2), (1/16, 0, 3)],
  [(1/3, 2, 0), (-7/12, 1, 1), (-2/27, 3, 0), (7/36, 2, 1), (7/48, 1, 2)],
  [(-1/3, 2, 0), (1/2, 1, 1), (1/9, 3, 0), (-1/6, 2, 1), (-1/8, 1, 2)],
  [(-1/3, 1, 1), (2/9, 2, 1), (1/12, 1, 2)],
  [(-7/12, 1, 1), (3/16, 0, 2), (7/36, 2, 1), (7/48, 1, 2), (-1/32, 0, 3)],
  [(-1/4, 1, 1), (1/12, 2, 1), (1/8, 1, 2)],
  [(2/3, 1, 1), (-1/4, 0, 2), (-2/9, 2, 1), (-1/6, 1, 2), (1/16, 0, 3)],
  [(9/4, 1, 1), (-3/4, 2, 1), (-9/16, 1, 2)]]

theorem hermite_total : ∀ j < 10, ∀ t ∈ hermiteFam.getD j [], t.2.1 + t.2.2 ≤ 3 := by decide +kernel

/-- The value at the barycentre. -/
def centre : Nat → ℚ := fun i => if i = 0 then 1 else 4 / 3

theorem hermite_nodes (p q p' q' : ℚ) (h : p' = -p ∧ q' = -q ∨ p' = p ∧ q' = q) (hp : p = 5 / 3 ∧ q = 3 / 5) :
    ∀ j < 10, (∀ v < 3, ev (sc p' 3 (sc q' (1 / 3) (hermiteFam.getD j []))) (R345.vert v 0) (R345.vert v 1) =
        if j = v * 3 then 1 else 0) ∧
      (∀ v < 3, ev (dx (sc p' 3 (sc q' (1 / 3) (hermiteFam.getD j [])))) (R345.vert v 0) (R345.vert v 1) =
        if j = v * 3 + 1 then 1 else 0) ∧
      (∀ v < 3, ev (dy (sc p' 3 (sc q' (1 / 3) (hermiteFam.getD j [])))) (R345.vert v 0) (R345.vert v 1) =
        if j = v * 3 + 1 + 1 then 1 else 0) ∧
      ev (sc p' 3 (sc q' (1 / 3) (hermiteFam.getD j []))) (centre 0) (centre 1) = if j = 9 then 1 else 0 := by
  obtain ⟨rfl, rfl⟩ := hp
  rcases h with ⟨rfl, rfl⟩ | ⟨rfl, rfl⟩ <;> decide +kernel

theorem hermite_cell (g : Geometry ℚ) (p q : ℚ) (hg : g.J 0 0 = p ∧ g.J 0 1 = 0 ∧ g.J 1 0 = 0 ∧ g.J 1 1 = 3)
    (hJs : ∀ v, g.Js v = g.J) (hs : ∀ v < 3, g.h v ≠ 0)
    (hpq : p = -(5 / 3) ∧ q = -(3 / 5) ∨ p = 5 / 3 ∧ q = 3 / 5) :
    HermiteCell 2 R345.vert 1 10 (fun _ f => value centre f) g (fun _ => 0)
      (fun j => toMv (sc q (1 / 3) (hermiteFam.getD j []))) where
  affine v i j _ _ := by rw [hJs]
  size := hs
  linear _ := value_linear _
  degree j hj := degree_sc 3 _ _ _ (hermite_total j hj)
  nodal j hj := by
    have hn := hermite_nodes (5 / 3) (3 / 5) p q hpq ⟨rfl, rfl⟩ j hj
    rw [pull_toMv g.J hg.2.1 hg.2.2.1, hg.1, hg.2.2.2]
    refine ⟨fun v hv => ?_, fun v hv i hi => ?_, fun k hk => ?_⟩
    · rw [value_toMv]; exact hn.1 v hv
    · match i, hi with
      | 0, _ => rw [D0_toMv, value_toMv]; exact hn.2.1 v hv
      | 1, _ => rw [D1_toMv, value_toMv]; exact hn.2.2.1 v hv
    · obtain rfl : k = 0 := by omega
      rw [value_toMv]; exact hn.2.2.2

example := C91_hermite 2 R345.vert 1 10 rfl _ g512 gMirror (fun _ => 0) (fun _ => 0) _ _
  (hermite_cell g512 _ _ (by decide +kernel) (fun _ => rfl) (by decide +kernel) (Or.inr ⟨rfl, rfl⟩))
  (hermite_cell gMirror (-(5 / 3)) _ (by decide +kernel) (fun _ => rfl) (by decide +kernel) (Or.inl ⟨rfl, rfl⟩))
  c1 (c2 3) _ _ 0 2 0 2 ⟨by omega, rfl⟩ ⟨by omega, rfl⟩ ⟨by omega, (shared true).start⟩ ⟨by omega, (shared true).stop⟩
  ⟨rfl, rfl⟩ (by decide +kernel)

end FInAT.Props.SmoothExamples
