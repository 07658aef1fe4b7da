import Verif.Props.DeRham6
import Verif.Props.Unity

/-!
# C110 for tables: the divergence of a tabulated basis function is a combination of tabulated basis functions
-/

namespace FInAT.Props

open FInAT Spec Elem MvPolynomial

theorem sum_bump : ∀ (k : Nat) (α : List Nat), k < α.length → (bump k α).sum = α.sum + 1
  | _, [], h => absurd h (Nat.not_lt_zero _)
  | 0, a :: α, _ => by
    show ((a + 1) :: α).sum = _
    simp only [List.sum_cons]
    omega
  | k + 1, a :: α, h => by
    have := sum_bump k α (Nat.lt_of_succ_lt_succ h)
    show (a :: bump k α).sum = _
    simp only [List.sum_cons, this]
    omega

/-- **C110**, tables: if the divergence maps the functions of `e` to functions of `q` (as in the theorems above), there is a matrix
`D` such that at all points the divergence of basis function `i` of `e`, taken from the tables of its first derivatives, is the
combination with row `i` of `D` of the tabulated values of `q`. -/
theorem C110_tables {K : Type} [CommRing K] [DecidableEq K] (F : Fiat K) (R : Rules K) (e q : Elem) (c : Cell)
    (hdiv : ∀ f, InSpace (leafVals F R) e c [c.spatialDim] f → InSpace (leafVals F R) q c [] (divJet c.spatialDim f))
    (hc : e.cell = .ok c) (hcq : q.cell = .ok c) (hv : e.valueShape = .ok [c.spatialDim]) (hvq : q.valueShape = .ok [])
    (hs : Shaped e) (hsq : Shaped q) (hb : Cubes e) (hbq : Cubes q) (hl : AllLeaves (PlainLeafOK F 1) e)
    (hlq : AllLeaves (PlainLeafOK F 0) q) :
    ∃ D : List Nat → List Nat → K, ∀ (n : Nat) (p : PSet K), p.WF n → PlainPoints p c.spatialDim →
      Yields (evaluate (basisInterp F R) e 1 p none) n fun T => Yields (evaluate (basisInterp F R) q 0 p none) n fun T' =>
        ∃ (t : Nat → Gem K) (t0 : Gem K), (∀ k < c.spatialDim, T.get? (bump k (List.replicate c.spatialDim 0)) = some (t k)) ∧
          T'.get? (List.replicate c.spatialDim 0) = some t0 ∧
          ∀ ρ i, p.Valid ρ → InRange i e.indexShape →
            ((List.range c.spatialDim).map fun k => (t k).eval ρ (i ++ [k])).sum =
              ((ndindex q.indexShape).map fun j => D i j * t0.eval ρ j).sum := by
  classical
  have hD : ∀ i, ∃ a : List Nat → K, InRange i e.indexShape → ∀ α x z, α.length = c.spatialDim → x.length = c.spatialDim →
      InRange z [] → divJet c.spatialDim (basisJet (leafVals F R) e c i) α x z =
        lsum (ndindex q.indexShape) fun j => a j * basisValue (leafVals F R) q α (c.dimension, 0) x j z := by
    intro i
    by_cases hi : InRange i e.indexShape
    · obtain ⟨a, ha⟩ := (inSpace_eq ..).1 (hdiv _ (inSpace_basis e c _ hi))
      exact ⟨a, fun _ => ha⟩
    · exact ⟨fun _ => 0, fun h => absurd h hi⟩
  choose D hD using hD
  refine ⟨D, fun n p hw hp => ?_⟩
  obtain ⟨T, m, h1, hT⟩ := tabulation (basisSem F R) e hs 1 p none c _ n n hw (Nat.le_refl n) hc hv
    (admits_plain F R 1 e p (c.dimension, 0) c hb hl hc (cell_isEntity c) (by rwa [Cell.total_dimension]))
  obtain ⟨T', m', h1', hT'⟩ := tabulation (basisSem F R) q hsq 0 p none c _ n n hw (Nat.le_refl n) hcq hvq
    (admits_plain F R 0 q p (c.dimension, 0) c hbq hlq hcq (cell_isEntity c) (by rwa [Cell.total_dimension]))
  have hlen : (List.replicate c.spatialDim 0 : List Nat).length = c.spatialDim := List.length_replicate
  have hk : ∀ k, ∃ t, k < c.spatialDim → T.get? (bump k (List.replicate c.spatialDim 0)) = some t := by
    intro k
    by_cases hk : k < c.spatialDim
    · have hm := (hT.keys (bump k (List.replicate c.spatialDim 0))).2 ⟨by rw [length_bump, hlen], by
        rw [sum_bump k _ (by rw [hlen]; exact hk)]; simp⟩
      obtain ⟨t, ht⟩ := Option.isSome_iff_exists.1 (Dict.get?_isSome_iff.2 hm)
      exact ⟨t, fun _ => ht⟩
    · exact ⟨.literal [] fun _ => 0, fun h => absurd h hk⟩
  choose t ht using hk
  obtain ⟨t0, ht0⟩ := Option.isSome_iff_exists.1 (Dict.get?_isSome_iff.2
    ((hT'.keys (List.replicate c.spatialDim 0)).2 ⟨hlen, by simp⟩))
  refine ⟨T, m, h1, T', m', h1', t, t0, ht, ht0, fun ρ i hρ hi => ?_⟩
  have hx : (p.pointAt ρ).length = c.spatialDim := by
    have hmem := PSet.pointAt_mem hw hρ
    obtain ⟨pts, idx, rfl, _, hpts⟩ := hp
    exact hpts _ hmem
  have e1 := hD i hi (List.replicate c.spatialDim 0) (p.pointAt ρ) [] hlen hx .nil
  refine Eq.trans ?_ (e1.trans ?_)
  · refine lsum_congr fun k hk => ?_
    have hk := List.mem_range.1 hk
    exact hT.value _ _ (ht k hk) ρ i [k] hρ hi (.cons hk .nil)
  · refine lsum_congr fun j hj => ?_
    have := hT'.value _ _ ht0 ρ j [] hρ (mem_ndindex.1 hj) .nil
    rw [List.append_nil] at this
    rw [this]
    rfl

namespace DeRhamCases

open ExactCases

theorem poly_value (l : Leaf) (hl : l = cg1 ∨ l = dg0) (α : List Nat) (x : List ℚ) (j : List Nat) (hα : α.length = 1)
    (hx : x.length = 1) : basisValue (leafVals fiat rules) (.leaf l) α ((Cell.simplex 1).dimension, 0) x j [] =
      evalAt x (partialD 0 α (poly l (j.headD 0) [])) := by
  have := (leaf_ok 0 l hl).2.1.2 α x j []
  rcases hl with rfl | rfl <;> exact this hα hx

/-- The polynomials of `CG1` and `DG0`. -/
theorem cg_dg_poly : IntervalComplex (leafVals fiat rules) (.leaf cg1) (.leaf dg0) where
  cellA := rfl
  cellB := rfl
  scalarA := rfl
  scalarB := rfl
  formA := rfl
  formB := rfl
  mapA := rfl
  mapB := rfl
  derives := by
    rintro f ⟨c, hc⟩
    refine ⟨fun _ => c [1] - c [0], fun α x z hα hx hz => ?_⟩
    have h := hc (bump 0 α) x [] (by rw [length_bump]; exact hα) hx .nil
    cases hz
    refine Eq.trans h ?_
    obtain ⟨k, rfl⟩ := List.length_eq_one_iff.1 hα
    have i1 : ndindex (Elem.leaf cg1).indexShape = [[0], [1]] := by decide +kernel
    have i2 : ndindex (Elem.leaf dg0).indexShape = [[0]] := by decide +kernel
    have b : bump 0 [k] = [k + 1] := rfl
    rw [i1, i2, b]
    simp only [List.map_cons, List.map_nil, List.sum_cons, List.sum_nil, add_zero]
    rw [poly_value cg1 (.inl rfl) [k + 1] x [0] rfl hx, poly_value cg1 (.inl rfl) [k + 1] x [1] rfl hx,
      poly_value dg0 (.inr rfl) [k] x [0] rfl hx]
    have q0 : poly cg1 0 [] = 1 - X 0 := rfl
    have q1 : poly cg1 1 [] = X 0 := rfl
    have q2 : poly dg0 0 [] = 1 := rfl
    have d0 : pderiv 0 (1 - X 0 : MvPolynomial ℕ ℚ) = C (-1) * 1 := by simp
    have d1 : pderiv 0 (X 0 : MvPolynomial ℕ ℚ) = 1 := by simp
    have it : ∀ k, (pderiv 0)^[k] (C (-1) * 1 : MvPolynomial ℕ ℚ) = C (-1) * (pderiv 0)^[k] 1 := by
      intro k
      induction k with
      | zero => rfl
      | succ k ih => rw [Function.iterate_succ_apply', Function.iterate_succ_apply', ih, pderiv_C_mul]
    simp only [List.headD_cons, q0, q1, q2, partialD, Function.iterate_succ_apply, d0, d1, it, map_mul]
    have hC : evalAt x (C (-1)) = (-1 : ℚ) := by simp [evalAt]
    rw [hC]
    ring

theorem leaf_plain (order : Nat) (l : Leaf) (hl : l = cg1 ∨ l = dg0) : PlainLeafOK fiat order l :=
  polyFiat_ok order (poly_degree l hl) (by rcases hl with rfl | rfl <;> decide)

/-- The lowest order Raviart-Thomas element on the square. -/
example : ∃ h₁ h₂, mkHDiv (.tensorProduct [.leaf cg1, .leaf dg0]) = .ok h₁ ∧
    mkHDiv (.tensorProduct [.leaf dg0, .leaf cg1]) = .ok h₂ ∧
    ∃ D : List Nat → List Nat → ℚ, ∀ (n : Nat) (p : PSet ℚ), p.WF n → PlainPoints p 2 →
      Yields (evaluate (basisInterp fiat rules) (mkEnriched [h₁, h₂]) 1 p none) n fun T =>
        Yields (evaluate (basisInterp fiat rules) (.tensorProduct [.leaf dg0, .leaf dg0]) 0 p none) n fun T' =>
          ∃ (t : Nat → Gem ℚ) (t0 : Gem ℚ), (∀ k < 2, T.get? (bump k [0, 0]) = some (t k)) ∧ T'.get? [0, 0] = some t0 ∧
            ∀ ρ i, p.Valid ρ → InRange i [4] → ((List.range 2).map fun k => (t k).eval ρ (i ++ [k])).sum =
              ((ndindex [1, 1]).map fun j => D i j * t0.eval ρ j).sum := by
  obtain ⟨h₁, h₂, e₁, e₂, hd⟩ := C110_divergence cg_dg_poly
  refine ⟨h₁, h₂, e₁, e₂, ?_⟩
  cases e₁
  cases e₂
  have hcg := fun o => leaf_plain o cg1 (.inl rfl)
  have hdg := fun o => leaf_plain o dg0 (.inr rfl)
  exact C110_tables fiat rules _ (.tensorProduct [.leaf dg0, .leaf dg0]) square hd rfl rfl rfl rfl
    (by
      simp [mkEnriched, enrichedParts, Shaped]
      exact ⟨⟨_, rfl, _, rfl, _, rfl, rfl, by simp, by intro ix h; simp at h <;> (subst h; exact .nil),
          by intro ix h; simp at h <;> (subst h; exact .nil)⟩,
        ⟨_, rfl, _, rfl, _, rfl, rfl, by simp, by intro ix h; simp at h <;> (subst h; exact .nil),
          by intro ix h; simp at h <;> (subst h; exact .nil)⟩⟩) (by simp [Shaped])
    (by simp [mkEnriched, enrichedParts, Cubes, CubesL]) (by simp [Cubes, CubesL])
    (by simp [mkEnriched, enrichedParts, AllLeaves, AllLeavesL, hcg, hdg]) (by simp [AllLeaves, AllLeavesL, hdg])

end DeRhamCases
end FInAT.Props
