import Verif.Lemmas.Layout
import Mathlib.Algebra.Polynomial.Coeff
import Mathlib.Algebra.Polynomial.BigOperators
import Mathlib.Algebra.BigOperators.Ring.List
import Mathlib.Tactic.Ring
import Mathlib.Tactic.NormNum

/-! # Products of intervals flatten to the quadrilateral / hexahedron topology -/

namespace FInAT

open Polynomial

namespace Cell

mutual
/-- Is the cell a (nested) product of points, intervals, quadrilaterals and hexahedra? -/
def isCube : Cell → Bool
  | .simplex d => decide (d ≤ 1)
  | .quad => true
  | .hex => true
  | .prod cs => isCubeL cs
/-- Are all cells cubes? -/
def isCubeL : List Cell → Bool
  | [] => true
  | c :: cs => c.isCube && isCubeL cs
end

/-- Generating polynomial of the entity counts by total dimension. -/
noncomputable def genPoly (top : List (Dim × Nat)) : ℕ[X] :=
  (top.map fun p => (p.2 : ℕ[X]) * X ^ p.1.total).sum

theorem totalL_eq (ds : List Dim) : Dim.totalL ds = (ds.map Dim.total).sum := by
  induction ds with
  | nil => rfl
  | cons d ds ih => simp [Dim.totalL, ih]

theorem genPoly_prodTop (tops : List (List (Dim × Nat))) :
    genPoly (prodTop tops) = (tops.map genPoly).prod := by
  unfold prodTop
  have : ∀ ps : List (Dim × Nat), (((ps.map Prod.snd).prod : ℕ) : ℕ[X]) *
      X ^ (Dim.tup (ps.map Prod.fst)).total = (ps.map fun p => (p.2 : ℕ[X]) * X ^ p.1.total).prod := by
    intro ps
    simp only [Dim.total, totalL_eq]
    induction ps with
    | nil => simp
    | cons p ps ih =>
      simp only [List.map_cons, List.prod_cons, Nat.cast_mul, List.sum_cons, pow_add] at ih ⊢
      rw [← ih]; ring
  unfold genPoly
  rw [List.map_map]
  simp only [Function.comp_def, this]
  induction tops with
  | nil => simp
  | cons t tops ih =>
    simp only [product_cons, List.map_cons, List.prod_cons, List.map_flatMap, List.map_map,
      Function.comp_def]
    rw [← ih, List.sum_map_mul_right_aux t]
where
  List.sum_map_mul_right_aux {tops : List (List (Dim × Nat))} (t : List (Dim × Nat)) :
    (t.flatMap fun x => (product tops).map fun x_1 =>
      ((x.2 : ℕ[X]) * X ^ x.1.total) * (x_1.map fun p => (p.2 : ℕ[X]) * X ^ p.1.total).prod).sum =
    (t.map fun p => (p.2 : ℕ[X]) * X ^ p.1.total).sum *
      ((product tops).map fun ps => (ps.map fun p => (p.2 : ℕ[X]) * X ^ p.1.total).prod).sum := by
    induction t with
    | nil => simp
    | cons a t ih =>
      simp only [List.flatMap_cons, List.sum_append, ih, List.map_cons, List.sum_cons, add_mul]
      congr 1
      exact List.sum_map_mul_left ..

mutual
theorem genPoly_cube : ∀ c : Cell, c.isCube = true → genPoly c.topology = (2 + X) ^ c.spatialDim
  | .simplex d, h => by
    simp only [isCube, decide_eq_true_eq] at h
    rcases Nat.le_one_iff_eq_zero_or_eq_one.1 h with rfl | rfl
    · have : (Cell.simplex 0).topology = [(.int 0, 1)] := by decide
      rw [this]; simp [genPoly, Dim.total, spatialDim]
    · have : (Cell.simplex 1).topology = [(.int 0, 2), (.int 1, 1)] := by decide
      rw [this]; simp [genPoly, Dim.total, spatialDim]
  | .quad, _ => by
    have : Cell.quad.topology = [(.int 0, 4), (.int 1, 4), (.int 2, 1)] := by decide
    rw [this]; simp [genPoly, Dim.total, spatialDim]; ring
  | .hex, _ => by
    have : Cell.hex.topology = [(.int 0, 8), (.int 1, 12), (.int 2, 6), (.int 3, 1)] := by decide
    rw [this]; simp [genPoly, Dim.total, spatialDim]; ring
  | .prod cs, h => by
    simp only [isCube] at h
    simp only [topology, spatialDim]
    rw [genPoly_prodTop]
    exact genPolyL_cube cs h
theorem genPolyL_cube : ∀ cs : List Cell, isCubeL cs = true →
    ((topologyL cs).map genPoly).prod = (2 + X) ^ spatialDimL cs
  | [], _ => by simp [topologyL, spatialDimL]
  | c :: cs, h => by
    simp only [isCubeL, Bool.and_eq_true] at h
    simp only [topologyL, spatialDimL, List.map_cons, List.prod_cons, pow_add]
    rw [genPoly_cube c h.1, genPolyL_cube cs h.2]
end

mutual
/-- Every dimension of a topology has at least one entity (cells that are cubes). -/
theorem count_pos : ∀ c : Cell, ∀ p ∈ c.topology, 0 < p.2
  | .simplex d, p, h => by
    simp only [topology] at h
    obtain ⟨k, hk, rfl⟩ := List.mem_map.1 h
    have : ∀ n k : Nat, k ≤ n → 0 < binom n k := by
      intro n
      induction n with
      | zero =>
        intro k hk
        obtain rfl : k = 0 := by omega
        decide
      | succ n ih =>
        intro k hk
        cases k with
        | zero => simp [binom]
        | succ k => simp only [binom]; have := ih k (by omega); omega
    have hk' := List.mem_range.1 hk
    exact this (d + 1) (k + 1) (by omega)
  | .quad, p, h => by revert p; decide
  | .hex, p, h => by revert p; decide
  | .prod cs, p, h => by
    simp only [topology, prodTop] at h
    obtain ⟨ps, hps, rfl⟩ := List.mem_map.1 h
    exact countL_pos cs ps hps
theorem countL_pos : ∀ cs : List Cell, ∀ ps ∈ product (topologyL cs), 0 < (ps.map Prod.snd).prod
  | [], ps, h => by simp [topologyL] at h; subst h; simp
  | c :: cs, ps, h => by
    simp only [topologyL, product_cons, List.mem_flatMap, List.mem_map] at h
    obtain ⟨p, hp, qs, hqs, rfl⟩ := h
    simp only [List.map_cons, List.prod_cons]
    exact Nat.mul_pos (count_pos c p hp) (countL_pos cs qs hqs)
end

theorem genPoly_coeff (top : List (Dim × Nat)) (t : Nat) :
    (genPoly top).coeff t = ((top.filter fun p => p.1.total = t).map Prod.snd).sum := by
  unfold genPoly
  induction top with
  | nil => simp
  | cons p top ih =>
    simp only [List.map_cons, List.sum_cons, coeff_add, ih, List.filter_cons]
    rw [← C_eq_natCast, coeff_C_mul_X_pow]
    by_cases h : p.1.total = t
    · simp [h]
    · simp [h, Ne.symm h]

/-- `flattenTop` is determined by the generating polynomial. -/
theorem flattenTop_of_genPoly {top : List (Dim × Nat)} (hn : (top.map Prod.fst).Nodup)
    (hpos : ∀ p ∈ top, 0 < p.2) {d : Nat} (hg : genPoly top = (2 + X) ^ d) :
    flattenTop top = (List.range (d + 1)).map fun t => (Dim.int t, ((2 + X : ℕ[X]) ^ d).coeff t) := by
  have hcoef : ∀ t, ((2 + X : ℕ[X]) ^ d).coeff t = ((top.filter fun p => p.1.total = t).map Prod.snd).sum := by
    intro t; rw [← hg, genPoly_coeff]
  -- total dimensions that occur
  have hkeys : ∀ t, t ∈ top.map (fun p => p.1.total) ↔ t < d + 1 := by
    intro t
    have h1 : t ∈ top.map (fun p => p.1.total) ↔ 0 < ((2 + X : ℕ[X]) ^ d).coeff t := by
      rw [hcoef]
      constructor
      · intro h
        obtain ⟨p, hp, rfl⟩ := List.mem_map.1 h
        have hm : p ∈ top.filter fun q => q.1.total = p.1.total := List.mem_filter.2 ⟨hp, by simp⟩
        exact lt_of_lt_of_le (hpos p hp) (List.single_le_sum (by simp) _ (List.mem_map_of_mem hm))
      · intro h
        by_contra hc
        rw [List.filter_eq_nil_iff.2] at h
        · simp at h
        · intro p hp hpt
          exact hc (List.mem_map.2 ⟨p, hp, by simpa using hpt⟩)
    rw [h1]
    have : (2 + X : ℕ[X]) = X + C 2 := by rw [add_comm]; rfl
    rw [this, coeff_X_add_C_pow]
    constructor
    · intro h
      by_contra hc
      rw [Nat.choose_eq_zero_of_lt (by omega)] at h
      simp at h
    · intro h
      exact Nat.mul_pos (by positivity) (by exact_mod_cast Nat.choose_pos (by omega))
  have hperm := sortBy_perm (fun a b : Nat × List Unit => decide (a.1 ≤ b.1))
    (groupTop (sortTop top) fun _ _ => ())
  have hnd := groupTop_keys_nodup (sortTop top) fun _ _ => ()
  rw [flattenTop_eq hn (fun _ _ => ())]
  have hg2 : ∀ t < d + 1, (groupTop (sortTop top) fun _ _ => ()).get? t =
      some (valsOf (sortTop top) (fun _ _ => ()) t) := by
    intro t ht
    rw [groupTop_get?, if_pos]
    exact ((sortBy_perm _ top).map _).mem_iff.2 ((hkeys t).2 ht)
  have hk2 : ((groupTop (sortTop top) fun _ _ => ()).map Prod.fst).Perm (List.range (d + 1)) := by
    unfold Dict.keys at hnd
    rw [List.perm_ext_iff_of_nodup hnd List.nodup_range]
    intro t
    rw [List.mem_range, ← hkeys]
    have := groupTop_keys (sortTop top) (fun _ _ => ()) t
    unfold Dict.keys at this
    rw [this]
    exact ((sortBy_perm _ top).map _).mem_iff
  rw [sortBy_range_items hk2 hg2, List.map_map]
  apply List.map_congr_left
  intro t _
  simp only [Function.comp_apply, hcoef, Prod.mk.injEq, true_and]
  unfold valsOf
  rw [List.length_flatMap]
  simp only [List.length_map, List.length_range]
  exact (((sortBy_perm _ top).filter _).map Prod.snd).sum_eq

theorem flattenTop_cube {c : Cell} (h : c.isCube = true) :
    flattenTop c.topology = (List.range (c.spatialDim + 1)).map fun t =>
      (Dim.int t, ((2 + X : ℕ[X]) ^ c.spatialDim).coeff t) :=
  flattenTop_of_genPoly (topology_nodup c) (count_pos c) (genPoly_cube c h)

theorem topology_quad_eq : Cell.quad.topology = (List.range 3).map fun t =>
    (Dim.int t, ((2 + X : ℕ[X]) ^ 2).coeff t) := by
  have := flattenTop_cube (c := .prod [.simplex 1, .simplex 1]) (by decide)
  exact this

theorem topology_hex_eq : Cell.hex.topology = (List.range 4).map fun t =>
    (Dim.int t, ((2 + X : ℕ[X]) ^ 3).coeff t) := by
  have := flattenTop_cube (c := .prod [.simplex 1, .simplex 1, .simplex 1]) (by decide)
  exact this

end Cell

end FInAT
