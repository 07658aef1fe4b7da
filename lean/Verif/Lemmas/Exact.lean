import Verif.Spec.Exact
import Verif.Lemmas.Degree
import Verif.Lemmas.Kronecker

/-!
# Rules of sufficient degree integrate products of polynomials exactly
-/

namespace FInAT

open Spec Elem MvPolynomial Props

/-! ### Degrees -/

theorem take_range (a b : ℕ) (m : ℕ → ℕ) : ((List.range (a + b)).map m).take a = (List.range a).map m := by
  rw [List.range_add, List.map_append, List.take_left' (by simp)]

theorem drop_range (a b : ℕ) (m : ℕ → ℕ) :
    ((List.range (a + b)).map m).drop a = (List.range b).map fun j => m (j + a) := by
  rw [List.range_add, List.map_append, List.drop_left' (by simp), List.map_map]
  exact List.map_congr_left fun j _ => by simp [Nat.add_comm]

theorem sum_range_add (m₁ m₂ : ℕ → ℕ) : ∀ n : ℕ, ((List.range n).map fun j => m₁ j + m₂ j).sum =
    ((List.range n).map m₁).sum + ((List.range n).map m₂).sum
  | 0 => rfl
  | n + 1 => by
    simp only [List.range_succ, List.map_append, List.sum_append, List.map_cons, List.map_nil, List.sum_cons,
      List.sum_nil, sum_range_add m₁ m₂ n]
    omega

theorem sum_range_split (a b : ℕ) (m : ℕ → ℕ) : ((List.range (a + b)).map m).sum =
    ((List.range a).map m).sum + ((List.range b).map fun j => m (j + a)).sum := by
  rw [← List.take_append_drop a ((List.range (a + b)).map m), List.sum_append, take_range, drop_range]

/-- A bound of the total degree is one of the degree, on any cell. -/
theorem ofDegree_total : ∀ (c : Cell) (d : ℕ) (m : ℕ → ℕ), ((List.range c.spatialDim).map m).sum ≤ d →
    OfDegree c (.leaf d) m
  | .simplex n, d, m, h => by simpa only [OfDegree, Cell.spatialDim] using h
  | .quad, d, m, h => by
    simp [OfDegree, largest, Cell.spatialDim, List.range_succ] at h ⊢
    omega
  | .hex, d, m, h => by
    simp [OfDegree, largest, Cell.spatialDim, List.range_succ] at h ⊢
    omega
  | .prod cs, d, m, h => by simpa only [OfDegree, Cell.spatialDim] using h

theorem ofDegreeL_total : ∀ (cs : List Cell) (d : ℕ) (m : ℕ → ℕ), ((List.range (Cell.spatialDimL cs)).map m).sum ≤ d →
    OfDegreeL cs (List.replicate cs.length (.leaf d)) m
  | [], d, m, h => by simp [OfDegreeL]
  | c :: cs, d, m, h => by
    rw [Cell.spatialDimL, sum_range_split] at h
    simp only [List.length_cons, List.replicate_succ, OfDegreeL]
    exact ⟨ofDegree_total c d m (by omega), ofDegreeL_total cs d _ (by omega)⟩

theorem ofDegree_spread (cs : List Cell) (t : DegTree) (m : ℕ → ℕ) (h : OfDegree (.prod cs) t m) :
    OfDegreeL cs (spread cs.length t) m := by
  cases t with
  | leaf d => exact ofDegreeL_total cs d m (by simpa only [OfDegree] using h)
  | node ts => simpa only [OfDegree, spread] using h

theorem degreeSumL_length : ∀ (cs : List Cell) (ss ts : List DegTree) (m₁ m₂ : ℕ → ℕ), OfDegreeL cs ss m₁ → OfDegreeL cs ts m₂ →
    (degreeSumL cs ss ts).length = cs.length
  | [], [], [], _, _, _, _ => rfl
  | c :: cs, s :: ss, t :: ts, m₁, m₂, h1, h2 => by
    simp only [OfDegreeL] at h1 h2
    simp [degreeSumL, degreeSumL_length cs ss ts _ _ h1.2 h2.2]
  | [], _ :: _, _, _, _, h, _ => by simp [OfDegreeL] at h
  | [], [], _ :: _, _, _, _, h => by simp [OfDegreeL] at h
  | _ :: _, [], _, _, _, h, _ => by simp [OfDegreeL] at h
  | _ :: _, _ :: _, [], _, _, _, h => by simp [OfDegreeL] at h

mutual
/-- The product of monomials of two degrees is within the sum of the degrees. -/
theorem within_sum : ∀ (c : Cell) (s t : DegTree) (m₁ m₂ : ℕ → ℕ), NoHex c → OfDegree c s m₁ → OfDegree c t m₂ →
    Within c (degreeSum c s t) ((List.range c.spatialDim).map fun j => m₁ j + m₂ j)
  | .simplex n, .leaf a, .leaf b, m₁, m₂, _, h1, h2 => by
    simp only [OfDegree] at h1 h2
    simp only [degreeSum, Within, Cell.spatialDim, sum_range_add, largest]
    exact_mod_cast Nat.add_le_add h1 h2
  | .simplex n, .node _, _, _, _, _, h, _ => by simp [OfDegree] at h
  | .simplex n, .leaf _, .node _, _, _, _, _, h => by simp [OfDegree] at h
  | .quad, s, t, m₁, m₂, _, h1, h2 => by
    simp only [OfDegree] at h1 h2
    simp only [degreeSum, Within, Degree.expand, Cell.spatialDim, List.replicate, List.range_succ, List.range_zero,
      List.map_cons, List.map_nil, List.nil_append, List.cons_append]
    exact ⟨by exact_mod_cast Nat.add_le_add h1.1 h2.1, by exact_mod_cast Nat.add_le_add h1.2 h2.2⟩
  | .hex, _, _, _, _, h, _, _ => by simp [NoHex] at h
  | .prod cs, s, t, m₁, m₂, h, h1, h2 => by
    simp only [NoHex] at h
    simp only [degreeSum, Within, Degree.expand, Cell.spatialDim]
    exact within_sumL cs _ _ m₁ m₂ h (ofDegree_spread cs s m₁ h1) (ofDegree_spread cs t m₂ h2)
theorem within_sumL : ∀ (cs : List Cell) (ss ts : List DegTree) (m₁ m₂ : ℕ → ℕ), NoHexL cs → OfDegreeL cs ss m₁ →
    OfDegreeL cs ts m₂ →
    WithinL cs (degreeSumL cs ss ts) ((List.range (Cell.spatialDimL cs)).map fun j => m₁ j + m₂ j)
  | [], [], [], _, _, _, _, _ => by simp [degreeSumL, WithinL]
  | c :: cs, s :: ss, t :: ts, m₁, m₂, h, h1, h2 => by
    simp only [NoHexL, OfDegreeL] at h h1 h2
    simp only [degreeSumL, WithinL, Cell.spatialDimL, take_range, drop_range]
    exact ⟨within_sum c s t m₁ m₂ h.1 h1.1 h2.1, within_sumL cs ss ts _ _ h.2 h1.2 h2.2⟩
  | [], _ :: _, _, _, _, _, h, _ => by simp [OfDegreeL] at h
  | [], [], _ :: _, _, _, _, _, h => by simp [OfDegreeL] at h
  | _ :: _, [], _, _, _, _, h, _ => by simp [OfDegreeL] at h
  | _ :: _, _ :: _, [], _, _, _, _, h => by simp [OfDegreeL] at h
end

mutual
/-- ... and within the sum of the largest degrees, as one number. -/
theorem within_largest : ∀ (c : Cell) (s t : DegTree) (a b : ℕ) (m₁ m₂ : ℕ → ℕ), NoHex c → largest s ≤ a → largest t ≤ b →
    OfDegree c s m₁ → OfDegree c t m₂ →
    Within c (.int (a + b)) ((List.range c.spatialDim).map fun j => m₁ j + m₂ j)
  | .simplex n, .leaf _, .leaf _, a, b, m₁, m₂, _, hs, ht, h1, h2 => by
    simp only [OfDegree, largest] at h1 h2 hs ht
    simp only [Within, Cell.spatialDim, sum_range_add]
    exact_mod_cast Nat.add_le_add (h1.trans hs) (h2.trans ht)
  | .simplex n, .node _, _, _, _, _, _, _, _, _, h, _ => by simp [OfDegree] at h
  | .simplex n, .leaf _, .node _, _, _, _, _, _, _, _, _, h => by simp [OfDegree] at h
  | .quad, s, t, a, b, m₁, m₂, _, hs, ht, h1, h2 => by
    simp only [OfDegree] at h1 h2
    simp only [Within, Degree.expand, Cell.spatialDim, List.replicate, List.range_succ, List.range_zero,
      List.map_cons, List.map_nil, List.nil_append, List.cons_append]
    exact ⟨by exact_mod_cast Nat.add_le_add (h1.1.trans hs) (h2.1.trans ht),
      by exact_mod_cast Nat.add_le_add (h1.2.trans hs) (h2.2.trans ht)⟩
  | .hex, _, _, _, _, _, _, h, _, _, _, _ => by simp [NoHex] at h
  | .prod cs, s, t, a, b, m₁, m₂, h, hs, ht, h1, h2 => by
    simp only [NoHex] at h
    simp only [Within, Degree.expand, Cell.spatialDim]
    refine within_largestL cs _ _ a b m₁ m₂ h ?_ ?_ (ofDegree_spread cs s m₁ h1) (ofDegree_spread cs t m₂ h2)
    · exact spread_largest cs.length s a hs
    · exact spread_largest cs.length t b ht
theorem within_largestL : ∀ (cs : List Cell) (ss ts : List DegTree) (a b : ℕ) (m₁ m₂ : ℕ → ℕ), NoHexL cs →
    (∀ s ∈ ss, largest s ≤ a) → (∀ t ∈ ts, largest t ≤ b) → OfDegreeL cs ss m₁ → OfDegreeL cs ts m₂ →
    WithinL cs (List.replicate cs.length (.int (a + b))) ((List.range (Cell.spatialDimL cs)).map fun j => m₁ j + m₂ j)
  | [], [], [], _, _, _, _, _, _, _, _, _ => by simp [WithinL]
  | c :: cs, s :: ss, t :: ts, a, b, m₁, m₂, h, hs, ht, h1, h2 => by
    simp only [NoHexL, OfDegreeL] at h h1 h2
    simp only [List.length_cons, List.replicate_succ, WithinL, Cell.spatialDimL, take_range, drop_range]
    exact ⟨within_largest c s t a b m₁ m₂ h.1 (hs s List.mem_cons_self) (ht t List.mem_cons_self) h1.1 h2.1,
      within_largestL cs ss ts a b _ _ h.2 (fun x hx => hs x (List.mem_cons_of_mem _ hx))
        (fun x hx => ht x (List.mem_cons_of_mem _ hx)) h1.2 h2.2⟩
  | [], _ :: _, _, _, _, _, _, _, _, _, h, _ => by simp [OfDegreeL] at h
  | [], [], _ :: _, _, _, _, _, _, _, _, _, h => by simp [OfDegreeL] at h
  | _ :: _, [], _, _, _, _, _, _, _, _, h, _ => by simp [OfDegreeL] at h
  | _ :: _, _ :: _, [], _, _, _, _, _, _, _, _, h => by simp [OfDegreeL] at h
theorem spread_largest : ∀ (n : ℕ) (s : DegTree) (a : ℕ), largest s ≤ a → ∀ x ∈ spread n s, largest x ≤ a
  | n, .leaf d, a, h, x, hx => by
    simp only [spread, List.mem_replicate] at hx
    rw [hx.2]
    exact h
  | n, .node ts, a, h, x, hx => by
    simp only [spread, largest] at hx h
    clear n
    induction ts with
    | nil => simp at hx
    | cons t ts ih =>
      simp only [largestL] at h
      rcases List.mem_cons.1 hx with rfl | hx
      · exact (Nat.le_max_left _ _).trans h
      · exact ih ((Nat.le_max_right _ _).trans h) hx
end

/-! ### Polynomials -/

theorem monoVal_range {K : Type} [CommRing K] : ∀ (x : List K) (m : ℕ → ℕ) (d : ℕ), x.length = d →
    monoVal x ((List.range d).map m) = ∏ j ∈ Finset.range d, x.getD j 0 ^ m j
  | [], m, d, h => by
    subst h
    simp [monoVal]
  | a :: x, m, d, h => by
    subst h
    have ih := monoVal_range x (fun j => m (j + 1)) x.length rfl
    rw [List.length_cons, List.range_succ_eq_map, List.map_cons, List.map_map, monoVal, Finset.prod_range_succ']
    simp only [List.getD_cons_succ, List.getD_cons_zero]
    rw [mul_comm]
    congr 1

theorem evalAt_mono {K : Type} [CommRing K] {d : ℕ} {p : MvPolynomial ℕ K} (hp : p ∈ PolyLt K d) {x : List K}
    (hx : x.length = d) : evalAt x p = lsum p.support.toList fun m => coeff m p * monoVal x ((List.range d).map m) := by
  rw [evalAt, eval_eq]
  have h : ∀ m ∈ p.support, coeff m p * ∏ i ∈ m.support, x.getD i 0 ^ m i =
      coeff m p * monoVal x ((List.range d).map m) := by
    intro m hm
    rw [monoVal_range x m d hx]
    congr 1
    refine Finset.prod_subset (fun j hj => ?_) fun j _ hj => ?_
    · rw [Finset.mem_range]
      by_contra hlt
      exact Finsupp.mem_support_iff.1 hj (exponent_zero hp hm (Nat.le_of_not_lt hlt))
    · rw [Finsupp.notMem_support_iff.1 hj, pow_zero]
  rw [Finset.sum_congr rfl h, lsum, Finset.sum_map_toList]

theorem partialD_keeps_degree {K : Type} [CommRing K] {c : Cell} {t : DegTree} {p : MvPolynomial ℕ K} (h : PolyOfDegree c t p)
    (α : List Nat) : PolyOfDegree c t (partialD 0 α p) := by
  intro m hm
  obtain ⟨m', h1, h2⟩ := support_partialD hm
  exact ofDegree_mono c t t m' _ (degLe_rfl t) (fun j _ => (h2 j).1) (h m' h1)

variable {K : Type} [Field K]

/-- A rule exact for the monomials of the degree is exact for polynomials of products of these. -/
theorem exact_product {q : QRule K} {c : Cell} {deg : Degree} {s t : DegTree} {p r : MvPolynomial ℕ K}
    (he : ∀ α : List Nat, α.length = c.spatialDim → Within c deg α → iterSum q (fun x => monoVal x α) = moment c α)
    (hw : ∀ x ∈ q.pointSet.pts, x.length = c.spatialDim)
    (hd : ∀ m₁ m₂, OfDegree c s m₁ → OfDegree c t m₂ →
      Within c deg ((List.range c.spatialDim).map fun j => m₁ j + m₂ j))
    (hp : p ∈ PolyLt K c.spatialDim) (hr : r ∈ PolyLt K c.spatialDim) (hps : PolyOfDegree c s p)
    (hrt : PolyOfDegree c t r) : iterSum q (fun x => evalAt x p * evalAt x r) = cellIntegral c (p * r) := by
  classical
  have hpr := mul_mem hp hr
  rw [iterSum_pts q _ (fun x => lsum (p * r).support.toList fun m =>
    coeff m (p * r) * monoVal x ((List.range c.spatialDim).map m)) fun x hx => by
      rw [← map_mul]; exact evalAt_mono hpr (hw x hx)]
  rw [iterSum_sum, cellIntegral, ← Finset.sum_map_toList]
  refine lsum_congr fun m hm => ?_
  rw [iterSum_mul]
  congr 1
  have hm' := Finset.mem_toList.1 hm
  obtain ⟨m₁, h1, m₂, h2, rfl⟩ := Finset.mem_add.1 (support_mul p r hm')
  exact he _ (by simp) (hd m₁ m₂ (hps m₁ h1) (hrt m₂ h2))

end FInAT
