import Verif.Spec.PiolaNodes
import Verif.Props.Piola
import Verif.Lemmas.Zany
import Verif.Lemmas.ZanyNodal2

/-!
# Nodes of Piola-mapped fields
-/

namespace FInAT.PiolaNodes

open Finset FInAT.Piola FInAT.Zany FInAT.Stress FInAT.Spec.PiolaNodes FInAT.Spec.Zany

variable {K A : Type} [Field K] [AddCommGroup A] [Module K A] {d : Nat}

/-- The values of a functional on the components. -/
def vals (l : A →ₗ[K] K) (u : Fin d → A) : Nat → K := fun i => if h : i < d then l (u ⟨i, h⟩) else 0

theorem vals_fin (l : A →ₗ[K] K) (u : Fin d → A) (i : Fin d) : vals l u i = l (u i) := by
  simp [vals]

theorem l_along (l : A →ₗ[K] K) (v : Nat → K) (u : Fin d → A) :
    l (dotWith v u) = Props.inner d (vals l u) v := by
  unfold dotWith Props.inner
  rw [map_sum, Finset.sum_range]
  refine Finset.sum_congr rfl fun i _ => ?_
  rw [map_smul, vals_fin, smul_eq_mul, mul_comm]

theorem vals_push (l : A →ₗ[K] K) (J : Nat → Nat → K) (detJ : K) (u : Fin d → A) (i : Fin d) :
    l (piolaPush J detJ u i) = Props.piola d J detJ (vals l u) i := by
  unfold piolaPush Props.piola
  rw [map_smul, l_along, smul_eq_mul, div_eq_inv_mul]
  unfold Props.inner
  congr 1
  exact Finset.sum_congr rfl fun j _ => mul_comm _ _

theorem l_along_push (l : A →ₗ[K] K) (v : Nat → K) (J : Nat → Nat → K) (detJ : K) (u : Fin d → A) :
    l (dotWith v (piolaPush J detJ u)) = Props.inner d (Props.piola d J detJ (vals l u)) v := by
  rw [l_along]
  unfold Props.inner
  refine Finset.sum_congr rfl fun i hi => ?_
  have h := Finset.mem_range.1 hi
  have := vals_push l J detJ u ⟨i, h⟩
  rw [← vals_fin l (piolaPush J detJ u) ⟨i, h⟩] at this
  rw [this]

/-! ### Components, divergence, pulled back functionals -/

theorem component_row (l : A →ₗ[K] K) (J : Nat → Nat → K) (detJ : K) (hdet : detJ = Props.det d J) (h0 : detJ ≠ 0)
    (u : Fin d → A) (c : Fin d) :
    l (u c) = ∑ j : Fin d, piolaInverse d J detJ c j * l (piolaPush J detJ u j) := by
  have := Props.C31_piola_inverse d J detJ hdet h0 (vals l u) c c.2
  rw [vals_fin, Finset.sum_range] at this
  rw [← this]
  exact Finset.sum_congr rfl fun j _ => by rw [vals_push]

theorem inv_mul_J (J : Nat → Nat → K) (detJ : K) (hdet : detJ = Props.det d J) (h0 : detJ ≠ 0) (i k : Fin d) :
    ∑ j : Fin d, inv d J i j * J j k = if i = k then 1 else 0 := by
  have hu : IsUnit (Matrix.det (Matrix.of fun i j : Fin d => J i j)) := by
    rw [isUnit_iff_ne_zero]; rw [hdet] at h0; exact h0
  have := congrFun (congrFun (Matrix.nonsing_inv_mul (Matrix.of fun i j : Fin d => J i j) hu) i) k
  rw [Matrix.mul_apply, Matrix.one_apply] at this
  exact this

theorem J_mul_inv (J : Nat → Nat → K) (detJ : K) (hdet : detJ = Props.det d J) (h0 : detJ ≠ 0) (i k : Fin d) :
    ∑ j : Fin d, J i j * inv d J j k = if i = k then 1 else 0 := by
  have hu : IsUnit (Matrix.det (Matrix.of fun i j : Fin d => J i j)) := by
    rw [isUnit_iff_ne_zero]; rw [hdet] at h0; exact h0
  have := congrFun (congrFun (Matrix.mul_nonsing_inv (Matrix.of fun i j : Fin d => J i j) hu) i) k
  rw [Matrix.mul_apply, Matrix.one_apply] at this
  exact this

theorem pull_push (J : Nat → Nat → K) (detJ : K) (hdet : detJ = Props.det d J) (h0 : detJ ≠ 0) (u : Fin d → A) :
    piolaPull J detJ (piolaPush J detJ u) = u := by
  funext i
  unfold piolaPull piolaPush dotWith
  have h1 : ∀ j : Fin d, (detJ * inv d J i j) • (detJ⁻¹ • ∑ k : Fin d, J j k • u k) =
      ∑ k : Fin d, (inv d J i j * J j k) • u k := fun j => by
    rw [smul_smul, Finset.smul_sum]
    refine Finset.sum_congr rfl fun k _ => ?_
    rw [smul_smul]
    congr 1
    field_simp
  rw [Finset.sum_congr rfl fun j _ => h1 j, Finset.sum_comm]
  rw [Finset.sum_congr rfl fun k _ => by rw [← Finset.sum_smul, inv_mul_J J detJ hdet h0]]
  simp

theorem divergence_row (l : A →ₗ[K] K) (J : Nat → Nat → K) (detJ : K) (h0 : detJ ≠ 0) (D D' : Fin d → A →ₗ[K] A)
    (hD : ∀ i a, D i a = ∑ k : Fin d, J k i • D' k a) (u : Fin d → A) :
    l (∑ i : Fin d, D i (u i)) = detJ * l (∑ i : Fin d, D' i (piolaPush J detJ u i)) := by
  rw [← smul_eq_mul, ← map_smul]
  congr 1
  rw [Finset.smul_sum]
  have h1 : ∀ k : Fin d, detJ • D' k (piolaPush J detJ u k) = ∑ i : Fin d, J k i • D' k (u i) := fun k => by
    unfold piolaPush dotWith
    rw [map_smul, smul_smul, mul_inv_cancel₀ h0, one_smul, map_sum]
    exact Finset.sum_congr rfl fun i _ => by rw [map_smul]
  rw [Finset.sum_congr rfl fun k _ => h1 k, Finset.sum_comm]
  exact Finset.sum_congr rfl fun i _ => hD i (u i)

/-! ### Facets -/

/-- The tangents of facet `f` are as `normal_tangential_edge_transform` and `normal_tangential_face_transform` expect:
`L` is the length of an edge, the tangents of a face are linearly independent. -/
structure GoodFacet (d : Nat) (t : Nat → Nat → K) (L : K) : Prop where
  edge : d = 2 → L ≠ 0 ∧ L * L = Props.inner 2 (t 0) (t 0)
  face : d = 3 → ∃ i < 3, Props.vprod (t 0) (t 1) i ≠ 0

section Ordered

variable [LinearOrder K] [IsStrictOrderedRing K]

theorem frame_edge (J : Nat → Nat → K) (detJ : K) (hdet : detJ = Props.det 2 J) (h0 : detJ ≠ 0) (t : Nat → K) (L : K)
    (hL : L ≠ 0) (hLt : L * L = Props.inner 2 t t) (u : Nat → K) :
    Props.inner 2 u t =
      Piola.edgeTransform J detJ t L 0 * Props.inner 2 (Props.piola 2 J detJ u) (Props.turned (Props.push 2 J t)) +
      Piola.edgeTransform J detJ t L 1 * Props.inner 2 (Props.piola 2 J detJ u) (Props.push 2 J t) ∧
    Props.inner 2 (Props.piola 2 J detJ u) (Props.turned (Props.push 2 J t)) = Props.inner 2 u (Props.turned t) := by
  have key := Props.C32_edge J detJ hdet h0 t L hL hLt u
  have e1 : ∀ v : Nat → K, Props.inner 2 v (fun i => t i / L) = Props.inner 2 v t / L := fun v => by
    simp only [Props.inner, Finset.sum_range_succ, Finset.sum_range_zero]; ring
  have e2 : ∀ v : Nat → K, Props.inner 2 v (Props.push 2 J fun i => t i / L) = Props.inner 2 v (Props.push 2 J t) / L :=
    fun v => by simp only [Props.inner, Props.push, Finset.sum_range_succ, Finset.sum_range_zero]; ring
  have e3 : ∀ v : Nat → K, Props.inner 2 v (Props.turned (Props.push 2 J fun i => t i / L)) =
      Props.inner 2 v (Props.turned (Props.push 2 J t)) / L := fun v => by
    simp only [Props.inner, Props.push, Props.turned, Finset.sum_range_succ, Finset.sum_range_zero, if_true,
      one_ne_zero, if_false]
    ring
  have e4 : ∀ v : Nat → K, Props.inner 2 v (Props.turned fun i => t i / L) = Props.inner 2 v (Props.turned t) / L :=
    fun v => by
      simp only [Props.inner, Props.turned, Finset.sum_range_succ, Finset.sum_range_zero, if_true,
        one_ne_zero, if_false]
      ring
  rw [e1, e2, e3, e4] at key
  obtain ⟨k1, k2⟩ := key
  rw [div_eq_iff hL] at k1 k2
  rw [div_mul_cancel₀ _ hL] at k2
  refine ⟨?_, k2⟩
  rw [k1]
  field_simp

/-- The components of a vector in the reference frame by those of its Piola image in the physical frame. -/
theorem frame_rows (c : Facets K) (hd : d = 2 ∨ d = 3) (hsd : c.sd = d) (J : Nat → Nat → K) (detJ : K)
    (hdet : detJ = Props.det d J) (h0 : detJ ≠ 0) (f : Nat) (hf : GoodFacet d (c.tangent f) (c.norm f)) (u : Nat → K) :
    (∀ r, r + 1 < d → Props.inner d u (frame d (c.tangent f) (r + 1)) = ∑ j ∈ range d, facetRows c J detJ f r j *
      Props.inner d (Props.piola d J detJ u) (frame d (images d J c.tangent f) j)) ∧
    Props.inner d (Props.piola d J detJ u) (frame d (images d J c.tangent f) 0) =
      Props.inner d u (frame d (c.tangent f) 0) := by
  have hpush : ∀ v, imageOf d J v = Props.push d J v := fun _ => rfl
  rcases hd with rfl | rfl
  · obtain ⟨hL, hLt⟩ := hf.edge rfl
    obtain ⟨k1, k2⟩ := frame_edge J detJ hdet h0 (c.tangent f 0) (c.norm f) hL hLt u
    have hfr : ∀ t : Nat → Nat → K, frame 2 t 0 = Props.turned (t 0) := fun t => by
      funext i; simp [frame, Props.turned]
    refine ⟨fun r hr => ?_, ?_⟩
    · obtain rfl : r = 0 := by omega
      rw [Finset.sum_range_succ, Finset.sum_range_one]
      unfold facetRows
      rw [if_pos hsd, hfr]
      exact k1
    · rw [hfr, hfr]; exact k2
  · obtain ⟨k0, k1, k2⟩ := Props.C32_face J detJ hdet h0 (c.tangent f 0) (c.tangent f 1) (hf.face rfl) u
    have hfr : ∀ t : Nat → Nat → K, frame 3 t 0 = Props.vprod (t 0) (t 1) := fun t => by
      funext i; simp [frame, Props.vprod]
    refine ⟨fun r hr => ?_, ?_⟩
    · rw [Finset.sum_range_succ, Finset.sum_range_succ, Finset.sum_range_one]
      unfold facetRows
      rw [if_neg (by omega), hfr]
      obtain rfl | rfl : r = 0 ∨ r = 1 := by omega
      · exact k0
      · exact k1
    · rw [hfr, hfr]; exact k2

/-- Nodes on a facet. -/
theorem facet_row (c : Facets K) (hd : d = 2 ∨ d = 3) (hsd : c.sd = d) (J : Nat → Nat → K) (detJ : K)
    (hdet : detJ = Props.det d J) (h0 : detJ ≠ 0) (f : Nat) (hf : GoodFacet d (c.tangent f) (c.norm f))
    (l : A →ₗ[K] K) (u : Fin d → A) :
    (∀ r, r + 1 < d → l (dotWith (frame d (c.tangent f) (r + 1)) u) = ∑ j ∈ range d, facetRows c J detJ f r j *
      l (dotWith (frame d (images d J c.tangent f) j) (piolaPush J detJ u))) ∧
    l (dotWith (frame d (c.tangent f) 0) u) = l (dotWith (frame d (images d J c.tangent f) 0) (piolaPush J detJ u)) := by
  obtain ⟨k1, k2⟩ := frame_rows c hd hsd J detJ hdet h0 f hf (vals l u)
  refine ⟨fun r hr => ?_, ?_⟩
  · rw [l_along, k1 r hr]
    exact Finset.sum_congr rfl fun j _ => by rw [l_along_push]
  · rw [l_along, l_along_push, k2]

end Ordered

/-! ### The traction -/

/-- `Jᵀ n = det(J) n̂`. -/
theorem frame_normal (hd : d = 2 ∨ d = 3) (J : Nat → Nat → K) (detJ : K) (hdet : detJ = Props.det d J)
    (t : Nat → Nat → Nat → K) (f b : Nat) (hb : b < d) :
    ∑ j ∈ range d, J j b * frame d (images d J t f) 0 j = detJ * frame d (t f) 0 b := by
  rcases hd with rfl | rfl
  · have hd : detJ = J 0 0 * J 1 1 - J 0 1 * J 1 0 := by rw [hdet, Props.det, Matrix.det_fin_two]; rfl
    obtain rfl | rfl : b = 0 ∨ b = 1 := by omega
    all_goals
      simp only [Finset.sum_range_succ, Finset.sum_range_zero, frame, images, imageOf, if_true, one_ne_zero, if_false, hd]
      ring
  · have hd : detJ = det3 J := by
      rw [hdet, Props.det, Matrix.det_fin_three, det3]
      simp only [Matrix.of_apply, Fin.val_zero, Fin.val_one, Fin.val_two]
      ring
    have h2 : ¬ (3 = 2) := by decide
    obtain rfl | rfl | rfl : b = 0 ∨ b = 1 ∨ b = 2 := by omega
    all_goals
      simp only [Finset.sum_range_succ, Finset.sum_range_zero, frame, images, imageOf, if_neg h2, hd, det3,
        Nat.reduceAdd, Nat.reduceMod, Nat.zero_add]
      ring

/-- The traction of the double Piola image is the Piola image of the traction. -/
theorem traction_push (hd : d = 2 ∨ d = 3) (J : Nat → Nat → K) (detJ : K) (hdet : detJ = Props.det d J)
    (h0 : detJ ≠ 0) (t : Nat → Nat → Nat → K) (f : Nat) (S : Fin d → Fin d → A) :
    traction (frame d (images d J t f) 0) (doublePush J detJ S) =
      piolaPush J detJ (traction (frame d (t f) 0) S) := by
  funext i
  have hn : ∀ b : Fin d, ∑ j : Fin d, J j b * frame d (images d J t f) 0 j = detJ * frame d (t f) 0 b := fun b => by
    rw [← frame_normal hd J detJ hdet t f b b.2, Finset.sum_range]
  unfold traction piolaPush doublePush dotWith
  have h1 : ∀ j : Fin d, frame d (images d J t f) 0 j • ((detJ * detJ)⁻¹ • ∑ a : Fin d, ∑ b : Fin d,
      (J i a * J j b) • S a b) = ∑ a : Fin d, ∑ b : Fin d,
      ((detJ * detJ)⁻¹ * J i a * (J j b * frame d (images d J t f) 0 j)) • S a b := fun j => by
    rw [smul_smul, Finset.smul_sum]
    refine Finset.sum_congr rfl fun a _ => ?_
    rw [Finset.smul_sum]
    refine Finset.sum_congr rfl fun b _ => ?_
    rw [smul_smul]
    congr 1; ring
  rw [Finset.sum_congr rfl fun j _ => h1 j, Finset.sum_comm, Finset.smul_sum]
  refine Finset.sum_congr rfl fun a _ => ?_
  rw [Finset.sum_comm, smul_smul, Finset.smul_sum]
  refine Finset.sum_congr rfl fun b _ => ?_
  rw [← Finset.sum_smul, ← Finset.mul_sum, hn, smul_smul]
  congr 1
  field_simp

theorem doublePull_push (J : Nat → Nat → K) (detJ : K) (hdet : detJ = Props.det d J) (h0 : detJ ≠ 0)
    (S : Fin d → Fin d → A) : doublePull J detJ (doublePush J detJ S) = S := by
  funext i j
  unfold doublePull doublePush
  have h1 : ∀ a b : Fin d, (detJ * detJ * (inv d J i a * inv d J j b)) • ((detJ * detJ)⁻¹ • ∑ m : Fin d, ∑ n : Fin d,
      (J a m * J b n) • S m n) = ∑ m : Fin d, ∑ n : Fin d,
      ((inv d J i a * J a m) * (inv d J j b * J b n)) • S m n := fun a b => by
    rw [smul_smul, Finset.smul_sum]
    refine Finset.sum_congr rfl fun m _ => ?_
    rw [Finset.smul_sum]
    refine Finset.sum_congr rfl fun n _ => ?_
    rw [smul_smul]
    congr 1; field_simp
  rw [Finset.sum_congr rfl fun a _ => Finset.sum_congr rfl fun b _ => h1 a b]
  have h2 : ∀ a : Fin d, ∑ b : Fin d, ∑ m : Fin d, ∑ n : Fin d,
      ((inv d J i a * J a m) * (inv d J j b * J b n)) • S m n =
      ∑ m : Fin d, (inv d J i a * J a m) • S m j := fun a => by
    rw [Finset.sum_comm]
    refine Finset.sum_congr rfl fun m _ => ?_
    rw [Finset.sum_comm]
    rw [Finset.sum_congr rfl fun n _ => by rw [← Finset.sum_smul, ← Finset.mul_sum, inv_mul_J J detJ hdet h0]]
    simp
  rw [Finset.sum_congr rfl fun a _ => h2 a, Finset.sum_comm]
  rw [Finset.sum_congr rfl fun m _ => by rw [← Finset.sum_smul, inv_mul_J J detJ hdet h0]]
  simp

end FInAT.PiolaNodes
