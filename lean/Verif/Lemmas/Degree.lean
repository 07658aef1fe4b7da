import Verif.Spec.Degree
import Verif.Lemmas.Poly
import Verif.Props.Perms
import Mathlib.Algebra.MvPolynomial.Rename
import Mathlib.Algebra.MvPolynomial.Basic

/-!
# Degrees of the basis functions of composite elements
-/

namespace FInAT

open Spec Elem MvPolynomial Props

/-! ### Monomials -/

theorem sum_range_le {m m' : ℕ → ℕ} : ∀ {n : ℕ}, (∀ j < n, m' j ≤ m j) →
    ((List.range n).map m').sum ≤ ((List.range n).map m).sum
  | 0, _ => by simp
  | n + 1, h => by
    have ih := sum_range_le (n := n) fun j hj => h j (by omega)
    have := h n (by omega)
    simp only [List.range_succ, List.map_append, List.sum_append, List.map_cons, List.map_nil, List.sum_cons,
      List.sum_nil]
    omega

theorem le_sum_range {m : ℕ → ℕ} : ∀ {n j : ℕ}, j < n → m j ≤ ((List.range n).map m).sum
  | 0, _, h => by omega
  | n + 1, j, h => by
    simp only [List.range_succ, List.map_append, List.sum_append, List.map_cons, List.map_nil, List.sum_cons,
      List.sum_nil]
    by_cases hj : j = n
    · subst hj; omega
    · have := le_sum_range (m := m) (n := n) (j := j) (by omega)
      omega

mutual
theorem largest_mono : ∀ a b : DegTree, DegLe a b → largest a ≤ largest b
  | .leaf _, .leaf _, h => h
  | .node as, .node bs, h => largestL_mono as bs h
  | .leaf _, .node _, h => by simp [DegLe] at h
  | .node _, .leaf _, h => by simp [DegLe] at h
theorem largestL_mono : ∀ as bs : List DegTree, DegLeL as bs → largestL as ≤ largestL bs
  | [], [], _ => Nat.le_refl _
  | a :: as, b :: bs, h => by
    have h1 := largest_mono a b h.1
    have h2 := largestL_mono as bs h.2
    simp only [largestL]
    exact Nat.max_le.2 ⟨Nat.le_trans h1 (Nat.le_max_left _ _), Nat.le_trans h2 (Nat.le_max_right _ _)⟩
  | [], _ :: _, h => by simp [DegLeL] at h
  | _ :: _, [], h => by simp [DegLeL] at h
end

mutual
/-- Smaller exponents and larger degrees. -/
theorem ofDegree_mono : ∀ (c : Cell) (a b : DegTree) (m m' : ℕ → ℕ), DegLe a b → (∀ j < c.spatialDim, m' j ≤ m j) →
    OfDegree c a m → OfDegree c b m'
  | .simplex n, .leaf d, .leaf d', m, m', h, hm, ho => by
    simp only [OfDegree, Cell.spatialDim, DegLe] at *
    exact Nat.le_trans (sum_range_le hm) (Nat.le_trans ho h)
  | .simplex n, .node _, _, m, m', h, hm, ho => by simp [OfDegree] at ho
  | .simplex n, .leaf _, .node _, m, m', h, hm, ho => by simp [DegLe] at h
  | .quad, a, b, m, m', h, hm, ho => by
    have hl := largest_mono a b h
    simp only [OfDegree, Cell.spatialDim] at *
    exact ⟨Nat.le_trans (hm 0 (by omega)) (Nat.le_trans ho.1 hl), Nat.le_trans (hm 1 (by omega)) (Nat.le_trans ho.2 hl)⟩
  | .hex, a, b, m, m', h, hm, ho => by
    have hl := largest_mono a b h
    simp only [OfDegree, Cell.spatialDim] at *
    exact ⟨Nat.le_trans (hm 0 (by omega)) (Nat.le_trans ho.1 hl),
      Nat.le_trans (hm 1 (by omega)) (Nat.le_trans ho.2.1 hl), Nat.le_trans (hm 2 (by omega)) (Nat.le_trans ho.2.2 hl)⟩
  | .prod cs, .leaf d, .leaf d', m, m', h, hm, ho => by
    simp only [OfDegree, Cell.spatialDim, DegLe] at *
    exact Nat.le_trans (sum_range_le hm) (Nat.le_trans ho h)
  | .prod cs, .node as, .node bs, m, m', h, hm, ho => by
    simp only [OfDegree, Cell.spatialDim, DegLe] at *
    exact ofDegreeL_mono cs as bs m m' h hm ho
  | .prod cs, .leaf _, .node _, m, m', h, hm, ho => by simp [DegLe] at h
  | .prod cs, .node _, .leaf _, m, m', h, hm, ho => by simp [DegLe] at h
theorem ofDegreeL_mono : ∀ (cs : List Cell) (as bs : List DegTree) (m m' : ℕ → ℕ), DegLeL as bs →
    (∀ j < Cell.spatialDimL cs, m' j ≤ m j) → OfDegreeL cs as m → OfDegreeL cs bs m'
  | [], [], [], m, m', h, hm, ho => by simp [OfDegreeL]
  | c :: cs, a :: as, b :: bs, m, m', h, hm, ho => by
    simp only [OfDegreeL, Cell.spatialDimL, DegLeL] at *
    exact ⟨ofDegree_mono c a b m m' h.1 (fun j hj => hm j (by omega)) ho.1,
      ofDegreeL_mono cs as bs _ _ h.2 (fun j hj => hm _ (by omega)) ho.2⟩
  | [], [], _ :: _, m, m', h, hm, ho => by simp [DegLeL] at h
  | [], _ :: _, _, m, m', h, hm, ho => by simp [OfDegreeL] at ho
  | _ :: _, [], _, m, m', h, hm, ho => by simp [OfDegreeL] at ho
  | _ :: _, _ :: _, [], m, m', h, hm, ho => by simp [DegLeL] at h
end

mutual
theorem degLe_rfl : ∀ a : DegTree, DegLe a a
  | .leaf _ => Nat.le_refl _
  | .node as => degLeL_rfl as
theorem degLeL_rfl : ∀ as : List DegTree, DegLeL as as
  | [] => trivial
  | a :: as => ⟨degLe_rfl a, degLeL_rfl as⟩
end

mutual
/-- On a cube every exponent is at most the largest degree. -/
theorem ofDegree_cube : ∀ (c : Cell) (t : DegTree) (m : ℕ → ℕ), IsCube c → OfDegree c t m → ∀ j < c.spatialDim,
    m j ≤ largest t
  | .simplex n, .leaf d, m, hc, ho, j, hj => by
    simp only [OfDegree, Cell.spatialDim, largest] at *
    exact Nat.le_trans (le_sum_range hj) ho
  | .simplex n, .node _, m, hc, ho, j, hj => by simp [OfDegree] at ho
  | .quad, t, m, hc, ho, j, hj => by
    simp only [OfDegree, Cell.spatialDim] at *
    have : j = 0 ∨ j = 1 := by omega
    rcases this with rfl | rfl
    · exact ho.1
    · exact ho.2
  | .hex, t, m, hc, ho, j, hj => by
    simp only [OfDegree, Cell.spatialDim] at *
    have : j = 0 ∨ j = 1 ∨ j = 2 := by omega
    rcases this with rfl | rfl | rfl
    · exact ho.1
    · exact ho.2.1
    · exact ho.2.2
  | .prod cs, .leaf d, m, hc, ho, j, hj => by
    simp only [OfDegree, Cell.spatialDim, largest] at *
    exact Nat.le_trans (le_sum_range hj) ho
  | .prod cs, .node ts, m, hc, ho, j, hj => by
    simp only [OfDegree, Cell.spatialDim, largest, IsCube] at *
    exact ofDegreeL_cube cs ts m hc ho j hj
theorem ofDegreeL_cube : ∀ (cs : List Cell) (ts : List DegTree) (m : ℕ → ℕ), IsCubeL cs → OfDegreeL cs ts m →
    ∀ j < Cell.spatialDimL cs, m j ≤ largestL ts
  | [], ts, m, _, ho, j, hj => by simp [Cell.spatialDimL] at hj
  | c :: cs, t :: ts, m, hc, ho, j, hj => by
    simp only [OfDegreeL, Cell.spatialDimL, largestL, IsCubeL] at *
    by_cases h : j < c.spatialDim
    · exact Nat.le_trans (ofDegree_cube c t m hc.1 ho.1 j h) (Nat.le_max_left _ _)
    · have := ofDegreeL_cube cs ts _ hc.2 ho.2 (j - c.spatialDim) (by omega)
      rw [show j - c.spatialDim + c.spatialDim = j by omega] at this
      exact Nat.le_trans this (Nat.le_max_right _ _)
  | _ :: _, [], m, _, ho, j, hj => by simp [OfDegreeL] at ho
end

theorem largestL_same {t : DegTree} : ∀ {ts : List DegTree}, ts ≠ [] → (∀ u ∈ ts, u = t) → largestL ts = largest t
  | [], h, _ => absurd rfl h
  | [u], _, h => by
    simp only [largestL, h u List.mem_cons_self]
    exact Nat.max_eq_left (Nat.zero_le _)
  | u :: v :: ts, _, h => by
    have ih := largestL_same (ts := v :: ts) (by simp) fun w hw => h w (List.mem_cons_of_mem _ hw)
    rw [largestL, ih, h u List.mem_cons_self]
    exact Nat.max_self _

/-! ### Polynomials -/

variable {K : Type} [CommRing K]

theorem polyOfDegree_zero (c : Cell) (t : DegTree) : PolyOfDegree c t (0 : MvPolynomial ℕ K) := by
  intro m hm
  simp at hm

theorem polyOfDegree_neg {c : Cell} {t : DegTree} {p : MvPolynomial ℕ K} (h : PolyOfDegree c t p) :
    PolyOfDegree c t (-p) := by
  intro m hm
  refine h m ?_
  rw [mem_support_iff] at hm ⊢
  intro h0
  apply hm
  have := coeff_add m p (-p)
  rw [add_neg_cancel, coeff_zero, h0, zero_add] at this
  exact this.symm

theorem polyOfDegree_mono {c : Cell} {a b : DegTree} {p : MvPolynomial ℕ K} (h : PolyOfDegree c a p)
    (hab : DegLe a b) : PolyOfDegree c b p := fun m hm =>
  ofDegree_mono c a b m m hab (fun _ _ => Nat.le_refl _) (h m hm)

theorem wrapPoly_ofDegree {c : Cell} {t : DegTree} {comps : Except Err (List Comp)}
    {F : List Nat → MvPolynomial ℕ K} (h : ∀ z, PolyOfDegree c t (F z)) (j : Nat) :
    PolyOfDegree c t (wrapPoly comps F j) := by
  unfold wrapPoly
  split
  · exact polyOfDegree_zero c t
  · split
    · exact polyOfDegree_zero c t
    · next k _ =>
      cases k with
      | zero => exact polyOfDegree_zero c t
      | entry neg ix =>
        cases neg
        · exact h ix
        · exact polyOfDegree_neg (h ix)

/-- A monomial of a polynomial in the first `d` variables has no others. -/
theorem exponent_zero {d : ℕ} {p : MvPolynomial ℕ K} (h : p ∈ PolyLt K d) {m : ℕ →₀ ℕ} (hm : m ∈ p.support) {j : ℕ}
    (hj : d ≤ j) : m j = 0 := by
  by_contra hne
  have hv : j ∈ p.vars := (mem_vars j).2 ⟨m, hm, Finsupp.mem_support_iff.2 hne⟩
  have := mem_supported.1 h hv
  simp only [Set.mem_ofPred_eq] at this
  omega

theorem mul_ofDegree {c : Cell} {cs : List Cell} {t : DegTree} {ts : List DegTree} {p q : MvPolynomial ℕ K}
    (hp : PolyOfDegree c t p) (hv : p ∈ PolyLt K c.spatialDim) (hq : ∀ m ∈ q.support, OfDegreeL cs ts m) :
    ∀ m ∈ (p * rename (· + c.spatialDim) q).support, OfDegreeL (c :: cs) (t :: ts) m := by
  classical
  intro m hm
  obtain ⟨m1, h1, m2', h2, rfl⟩ := Finset.mem_add.1 (support_mul p _ hm)
  rw [support_rename_of_injective (fun a b h => by simpa using h)] at h2
  obtain ⟨m2, h3, rfl⟩ := Finset.mem_image.1 h2
  have hinj : Function.Injective (fun j : ℕ => j + c.spatialDim) := fun a b h => by simpa using h
  refine ⟨ofDegree_mono c t t m1 _ (degLe_rfl t) (fun j hj => ?_) (hp m1 h1),
    ofDegreeL_mono cs ts ts m2 _ (degLeL_rfl ts) (fun j _ => ?_) (hq m2 h3)⟩
  · rw [Finsupp.add_apply, Finsupp.mapDomain_notin_range, Nat.add_zero]
    rintro ⟨k, rfl⟩
    simp at hj
  · rw [Finsupp.add_apply, exponent_zero hv h1 (Nat.le_add_left _ _), Nat.zero_add]
    exact Nat.le_of_eq (Finsupp.mapDomain_apply hinj m2 j)

theorem degreeL_cons {e : Elem} {es : List Elem} {ds : List DegTree} (h : Elem.degreeL (e :: es) = .ok ds) :
    ∃ d ds', e.degree = .ok d ∧ Elem.degreeL es = .ok ds' ∧ ds = d :: ds' := by
  simp only [Elem.degreeL, bind_ok, pure, Except.pure, Except.ok.injEq] at h
  obtain ⟨d, h1, ds', h2, rfl⟩ := h
  exact ⟨d, ds', h1, h2, rfl⟩

/-- The polynomials of a leaf are polynomials of its degree in the coordinates of its cell. -/
def LeafOfDegree (P : Leaf → Nat → List Nat → MvPolynomial ℕ K) (l : Leaf) : Prop :=
  LeafPoly P l ∧ ∀ i z, PolyOfDegree l.cell (.leaf l.degree) (P l i z)

mutual
theorem treePoly_ofDegree (P : Leaf → Nat → List Nat → MvPolynomial ℕ K) :
    ∀ e c t, AllLeaves (LeafOfDegree P) e → Cubes e → e.cell = .ok c → e.degree = .ok t → ∀ i z,
      PolyOfDegree c t (treePoly P e i z)
  | .leaf l, c, t, hl, _, hc, ht, i, z => by
    simp only [Elem.cell, Except.ok.injEq] at hc
    simp only [Elem.degree, Except.ok.injEq] at ht
    subst hc ht
    simp only [treePoly]
    exact hl.2 _ z
  | .tensorProduct fs, c, t, hl, hq, hc, ht, i, z => by
    obtain ⟨cs, hcs, rfl⟩ := cell_tensorProduct hc
    simp only [Elem.degree, bind_ok, pure, Except.pure, Except.ok.injEq] at ht
    obtain ⟨ds, hds, rfl⟩ := ht
    simp only [treePoly]
    exact prodPoly_ofDegree P fs cs ds hl hq hcs hds i z
  | .flattened p, c, t, hl, hq, hc, ht, i, z => by
    obtain ⟨c0, hc0⟩ := cell_flattened hc
    simp only [Elem.degree, bind_ok] at ht
    obtain ⟨d, hd, ht⟩ := ht
    simp only [treePoly]
    cases d with
    | leaf n => simp at ht
    | node ds =>
      simp only at ht
      have hu := uniqueOf_mem ht
      have hne : ds ≠ [] := hu.1
      intro m hm
      have ho := treePoly_ofDegree P p c0 (.node ds) hl hq.1 hc0 hd i z m hm
      have hb := ofDegree_cube c0 (.node ds) m (hq.2 c0 hc0) ho
      rw [largest, largestL_same hne hu.2] at hb
      have hsd := flattened_spatialDim hc0 hc
      simp only [Elem.cell, hc0, bind, Except.bind] at hc
      split at hc
      · next h2 =>
        cases hc
        exact ⟨hb 0 (by omega), hb 1 (by omega)⟩
      · split at hc
        · next h3 =>
          cases hc
          exact ⟨hb 0 (by omega), hb 1 (by omega), hb 2 (by omega)⟩
        · cases hc
  | .enriched es, c, t, hl, hq, hc, ht, i, z => by
    obtain ⟨cs, hcs, hall⟩ := cell_enriched hc
    have hb : ∃ ds, Elem.degreeL es = .ok ds := by
      simp only [Elem.degree, bind_ok] at ht
      obtain ⟨ds, hds, _⟩ := ht
      exact ⟨ds, hds⟩
    obtain ⟨ds, hds⟩ := hb
    simp only [treePoly]
    exact sumPoly_ofDegree P es cs ds c t hl hq hcs hds hall (C60_least_upper_bound es ds t hds ht).1 _ z
  | .mixedSub e _ _, c, t, hl, hq, hc, ht, i, z => by
    simp only [treePoly]
    split
    · exact treePoly_ofDegree P e c t hl hq hc ht _ _
    · exact polyOfDegree_zero c t
  | .discontinuous e, c, t, hl, hq, hc, ht, i, z => by
    simp only [treePoly]
    exact treePoly_ofDegree P e c t hl hq hc ht _ _
  | .tensorFE e _ _, c, t, hl, hq, hc, ht, i, z => by
    simp only [treePoly]
    split <;> split
    · exact treePoly_ofDegree P e c t hl hq hc ht _ _
    · exact polyOfDegree_zero c t
    · exact treePoly_ofDegree P e c t hl hq hc ht _ _
    · exact polyOfDegree_zero c t
  | .hdiv w, c, t, hl, hq, hc, ht, i, z => by
    simp only [treePoly]
    exact wrapPoly_ofDegree (fun z => treePoly_ofDegree P w c t hl hq hc ht i z) _
  | .hcurl w, c, t, hl, hq, hc, ht, i, z => by
    simp only [treePoly]
    exact wrapPoly_ofDegree (fun z => treePoly_ofDegree P w c t hl hq hc ht i z) _
  | .quadrature _ _ _, c, t, hl, _, _, _, i, z => by
    simp only [AllLeaves] at hl
theorem prodPoly_ofDegree (P : Leaf → Nat → List Nat → MvPolynomial ℕ K) :
    ∀ fs cs ts, AllLeavesL (LeafOfDegree P) fs → CubesL fs → Elem.cellL fs = .ok cs → Elem.degreeL fs = .ok ts →
      ∀ i z, ∀ m ∈ (prodPoly P fs i z).support, OfDegreeL cs ts m
  | [], cs, ts, _, _, hc, ht, i, z, m, _ => by
    simp only [Elem.cellL, Elem.degreeL, Except.ok.injEq] at hc ht
    subst hc ht
    trivial
  | f :: fs, cs, ts, hl, hq, hc, ht, i, z, m, hm => by
    obtain ⟨c, cs', h1, h2, rfl⟩ := cellL_cons hc
    obtain ⟨t, ts', h3, h4, rfl⟩ := degreeL_cons ht
    simp only [AllLeavesL, CubesL] at hl hq
    simp only [prodPoly, sdim_eq h1] at hm
    exact mul_ofDegree (treePoly_ofDegree P f c t hl.1 hq.1 h1 h3 _ _)
      (treePoly_mem P f c (AllLeaves.imp (fun _ h => h.1) f hl.1) h1 _ _)
      (prodPoly_ofDegree P fs cs' ts' hl.2 hq.2 h2 h4 _ _) m hm
theorem sumPoly_ofDegree (P : Leaf → Nat → List Nat → MvPolynomial ℕ K) :
    ∀ es cs ds c t, AllLeavesL (LeafOfDegree P) es → CubesL es → Elem.cellL es = .ok cs → Elem.degreeL es = .ok ds →
      (∀ c' ∈ cs, c' = c) → (∀ d ∈ ds, DegLe d t) → ∀ k z, PolyOfDegree c t (sumPoly P es k z)
  | [], cs, ds, c, t, _, _, _, _, _, _, k, z => by
    simp only [sumPoly]
    exact polyOfDegree_zero c t
  | e :: es, cs, ds, c, t, hl, hq, hc, hd, hall, hle, k, z => by
    obtain ⟨c1, cs', h1, h2, rfl⟩ := cellL_cons hc
    obtain ⟨d1, ds', h3, h4, rfl⟩ := degreeL_cons hd
    simp only [AllLeavesL, CubesL] at hl hq
    have h5 := hall c1 List.mem_cons_self
    simp only [sumPoly]
    split
    · exact polyOfDegree_mono (treePoly_ofDegree P e c d1 hl.1 hq.1 (h5 ▸ h1) h3 _ _) (hle d1 List.mem_cons_self)
    · exact sumPoly_ofDegree P es cs' ds' c t hl.2 hq.2 h2 h4 (fun c' h => hall c' (List.mem_cons_of_mem _ h))
        (fun d h => hle d (List.mem_cons_of_mem _ h)) _ _
end

/-! ### Derivatives -/

theorem support_pderiv {k : ℕ} {p : MvPolynomial ℕ K} {m : ℕ →₀ ℕ} (h : m ∈ (pderiv k p).support) :
    m + Finsupp.single k 1 ∈ p.support := by
  classical
  rw [mem_support_iff] at h ⊢
  intro h0
  apply h
  rw [coeff_pderiv, h0, zero_mul]

theorem support_iter {k : ℕ} : ∀ {a : ℕ} {p : MvPolynomial ℕ K} {m : ℕ →₀ ℕ},
    m ∈ ((pderiv k)^[a] p).support → m + Finsupp.single k a ∈ p.support
  | 0, p, m, h => by simpa using h
  | a + 1, p, m, h => by
    rw [Function.iterate_succ_apply] at h
    have := support_pderiv (support_iter h)
    rwa [add_assoc, ← Finsupp.single_add] at this

theorem support_partialD : ∀ {α : List Nat} {o : Nat} {p : MvPolynomial ℕ K} {m : ℕ →₀ ℕ},
    m ∈ (partialD o α p).support → ∃ m' ∈ p.support, ∀ j, m j ≤ m' j ∧ (o ≤ j → α.getD (j - o) 0 ≤ m' j)
  | [], o, p, m, h => ⟨m, h, fun j => ⟨Nat.le_refl _, fun _ => by simp⟩⟩
  | a :: α, o, p, m, h => by
    rw [partialD] at h
    obtain ⟨m', h1, h2⟩ := support_partialD (support_iter h)
    refine ⟨m', h1, fun j => ?_⟩
    have h3 := (h2 j).1
    rw [Finsupp.add_apply] at h3
    refine ⟨by omega, fun ho => ?_⟩
    by_cases hj : j = o
    · subst hj
      simp only [Finsupp.single_eq_same, Nat.sub_self, List.getD_cons_zero] at h3 ⊢
      omega
    · have := (h2 j).2 (by omega)
      rw [show j - o = (j - (o + 1)) + 1 by omega, List.getD_cons_succ]
      exact this

/-- A derivative that is not of the degree of the polynomial vanishes. -/
theorem partialD_ofDegree {c : Cell} {t : DegTree} {p : MvPolynomial ℕ K} (h : PolyOfDegree c t p) (α : List Nat)
    (hα : ¬ OfDegree c t fun j => α.getD j 0) : partialD 0 α p = 0 := by
  by_contra hne
  obtain ⟨m, hm⟩ := Finset.nonempty_iff_ne_empty.2 (fun h0 => hne (support_eq_empty.1 h0))
  obtain ⟨m', h1, h2⟩ := support_partialD hm
  exact hα (ofDegree_mono c t t m' _ (degLe_rfl t) (fun j _ => (h2 j).2 (Nat.zero_le _)) (h m' h1))

end FInAT
