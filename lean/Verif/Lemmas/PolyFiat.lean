import Verif.Lemmas.Poly

/-!
# Polynomial leaves satisfy the assumptions made by `FiatElement.basis_evaluation`
-/

namespace FInAT

open Spec Elem MvPolynomial Props

variable {K : Type} [CommRing K]

theorem totalDegree_pderiv {p : MvPolynomial ℕ K} {N : ℕ} (h : p.totalDegree ≤ N + 1) (k : ℕ) :
    (pderiv k p).totalDegree ≤ N := by
  rw [totalDegree, Finset.sup_le_iff]
  intro m hm
  rw [mem_support_iff, coeff_pderiv] at hm
  have hc : coeff (m + Finsupp.single k 1) p ≠ 0 := by
    intro h0; rw [h0, zero_mul] at hm; exact hm rfl
  have := le_totalDegree (mem_support_iff.2 hc)
  rw [Finsupp.sum_add_index' (by simp) (by simp), Finsupp.sum_single_index rfl] at this
  omega

theorem pderiv_of_degree_zero {p : MvPolynomial ℕ K} (h : p.totalDegree ≤ 0) (k : ℕ) : pderiv k p = 0 := by
  rw [totalDegree_eq_zero_iff_eq_C.1 (Nat.le_zero.1 h), pderiv_C]

theorem iter_degree {p : MvPolynomial ℕ K} {N : ℕ} (k a : ℕ) (h : p.totalDegree ≤ N + a) :
    ((pderiv k)^[a] p).totalDegree ≤ N := by
  induction a generalizing p with
  | zero => exact h
  | succ a ih => rw [Function.iterate_succ_apply]; exact ih (totalDegree_pderiv h k)

/-- A derivative of order `α.sum` lowers the degree by `α.sum`. -/
theorem partialD_degree {p : MvPolynomial ℕ K} {N : ℕ} : ∀ (o : ℕ) (α : List Nat),
    p.totalDegree ≤ N + α.sum → (partialD o α p).totalDegree ≤ N
  | _, [], h => h
  | o, a :: α, h => by
    rw [partialD]
    refine iter_degree o a (partialD_degree (o + 1) α ?_)
    simp only [List.sum_cons] at h
    omega

theorem iter_vanish {p : MvPolynomial ℕ K} (k a : ℕ) (h : p.totalDegree < a) : (pderiv k)^[a] p = 0 := by
  induction a generalizing p with
  | zero => omega
  | succ a ih =>
    rw [Function.iterate_succ_apply]
    by_cases h0 : p.totalDegree = 0
    · rw [pderiv_of_degree_zero (by omega), iter_zero]
    · refine ih ?_
      have := totalDegree_pderiv (p := p) (N := p.totalDegree - 1) (by omega) k
      omega

theorem partialD_vanish {p : MvPolynomial ℕ K} : ∀ (o : ℕ) (α : List Nat),
    p.totalDegree < α.sum → partialD o α p = 0
  | _, [], h => by simp at h
  | o, a :: α, h => by
    rw [partialD]
    simp only [List.sum_cons] at h
    by_cases h1 : p.totalDegree < α.sum
    · rw [partialD_vanish (o + 1) α h1, iter_zero]
    · refine iter_vanish o a ?_
      have := partialD_degree (p := p) (N := p.totalDegree - α.sum) (o + 1) α (by omega)
      omega

/-- FIAT elements given by polynomials: `P l i z` is component `z` of basis function `i`, `emb l ent x`
the point of the cell with coordinates `x` on the entity `ent`. -/
noncomputable def polyFiat (P : Leaf → Nat → List Nat → MvPolynomial ℕ K)
    (emb : Leaf → Dim × Nat → List K → List K) : Fiat K where
  fn l α ent x i z := evalAt (emb l ent x) (partialD 0 α (P l i z))
  isMacro _ := false
  small _ := true
  spectral _ := none
  mapped _ := none

theorem fiatPoly_of {F : Fiat K} {l : Leaf} {ent : Dim × Nat} (hsmall : F.small 0 = true)
    (Q : List K → Nat → List Nat → MvPolynomial ℕ K) (emb : List K → List K)
    (hF : ∀ α x i z, F.fn l α ent x i z = evalAt (emb x) (partialD 0 α (Q x i z)))
    (hdeg : ∀ x i z, (Q x i z).totalDegree ≤ l.degree)
    (hone : F.isMacro l = false → ∀ x x' i z, Q x i z = Q x' i z) : FiatPoly F l ent := by
  refine ⟨hsmall, ?_, ?_⟩
  · intro α x x' i z hα hm
    rw [hF, hF, hone hm x' x i z]
    have hd := partialD_degree (p := Q x i z) (N := 0) 0 α (by have := hdeg x i z; omega)
    rw [totalDegree_eq_zero_iff_eq_C.1 (Nat.le_zero.1 hd)]
    simp [evalAt]
  · intro α x i z hα
    rw [hF, partialD_vanish 0 α (by have := hdeg x i z; omega), map_zero]

theorem polyFiat_ok [DecidableEq K] {P : Leaf → Nat → List Nat → MvPolynomial ℕ K}
    {emb : Leaf → Dim × Nat → List K → List K} {l : Leaf} (order : Nat)
    (hdeg : ∀ i z, (P l i z).totalDegree ≤ l.degree) (hv : l.valueShape.prod ≠ 0) :
    PlainLeafOK (polyFiat P emb) order l := by
  rintro p ent hent ⟨pts, idx, rfl, hne, hd⟩
  refine ⟨rfl, ⟨⟨?_, ?_, ?_, hv, .inl rfl⟩, ?_⟩⟩
  · intro _ _ _ h; cases h
  · simpa [PSet.pts] using hne
  · exact fiatPoly_of rfl (fun _ => P l) (emb l ent) (fun _ _ _ _ => rfl) (fun _ => hdeg) (fun _ _ _ _ _ => rfl)
  · intro _ cls h; cases h

theorem polyFiat_isPoly [DecidableEq K] {P : Leaf → Nat → List Nat → MvPolynomial ℕ K}
    {emb : Leaf → Dim × Nat → List K → List K} {l : Leaf} (R : Rules K) (hP : LeafPoly P l)
    (hemb : ∀ x, emb l (l.cell.dimension, 0) x = x) : LeafIsPoly (leafVals (polyFiat P emb) R) P l := by
  refine ⟨hP, fun α x i z _ _ => ?_⟩
  simp only [leafVals, leafFn, polyFiat, hemb]

end FInAT
