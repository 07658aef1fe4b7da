import Verif.Lemmas.PiolaVector
import Mathlib.Data.List.ProdSigma

/-!
# Rows of the matrices of the symmetric tensor valued elements
-/

namespace FInAT.PiolaNodes

open Finset FInAT.Piola FInAT.Zany FInAT.Stress FInAT.Spec.PiolaNodes FInAT.Spec.Zany

variable {K A : Type} [Field K] [AddCommGroup A] [Module K A] {d : Nat}

/-! ### Rows of arrays -/

/-- Row `a` of the identity, with the entries `B` in columns `[c, c + m)`. -/
def blockRow (a c m : Nat) (B : Nat → K) : Nat → K :=
  fun b => if c ≤ b ∧ b < c + m then B (b - c) else if a = b then 1 else 0

def deltaRow (a : Nat) : Nat → K := fun b => if a = b then 1 else 0

theorem setBlock_delta (V : Arr K) (r n : Nat) (B : NMat K) (a : Nat) (h1 : r ≤ a) (h2 : a < r + n)
    (hV : V.get a = deltaRow a) : (V.setBlock r r n n B).get a = blockRow a r n (B (a - r)) := by
  unfold Arr.setBlock blockRow
  funext b
  simp only [if_pos (And.intro h1 h2), hV, deltaRow]

omit [Field K] in
theorem setBlock_out (V : Arr K) (r c m n : Nat) (B : NMat K) (a : Nat) (h : a < r ∨ r + m ≤ a) :
    (V.setBlock r c m n B).get a = V.get a := by
  unfold Arr.setBlock
  simp only
  rw [if_neg (by omega)]

/-- A block of a block. -/
theorem blockRow_block (a r n c m : Nat) (B : Nat → K) (h1 : r ≤ a) (hc : c + m ≤ n) :
    blockRow a r n (blockRow (a - r) c m B) = blockRow a (r + c) m B := by
  funext b
  unfold blockRow
  by_cases hb : r ≤ b ∧ b < r + n
  · have e1 : (c ≤ b - r ∧ b - r < c + m) ↔ (r + c ≤ b ∧ b < r + c + m) := by omega
    have e2 : a - r = b - r ↔ a = b := by omega
    rw [if_pos hb]
    simp only [e1, e2, Nat.sub_sub]
  · rw [if_neg hb]
    have e1 : ¬ (r + c ≤ b ∧ b < r + c + m) := by omega
    simp only [if_neg e1]

theorem blockRow_delta (a r n : Nat) (h1 : r ≤ a) :
    blockRow (K := K) a r n (deltaRow (a - r)) = deltaRow a := by
  funext b
  unfold blockRow deltaRow
  by_cases hb : r ≤ b ∧ b < r + n
  · rw [if_pos hb]
    by_cases ha : a = b
    · rw [if_pos ha, if_pos (by omega)]
    · rw [if_neg ha, if_neg (by omega)]
  · rw [if_neg hb]

theorem pair_eq (P f i f' i' : Nat) (hi : i < P) (hi' : i' < P) (h : P * f + i = P * f' + i') : f = f' ∧ i = i' := by
  have hP : 0 < P := by omega
  have h1 : (P * f + i) / P = f := by rw [Nat.mul_add_div hP, Nat.div_eq_of_lt hi]; rfl
  have h2 : (P * f' + i') / P = f' := by rw [Nat.mul_add_div hP, Nat.div_eq_of_lt hi']; rfl
  have : f = f' := by rw [← h1, ← h2, h]
  subst this
  exact ⟨rfl, by omega⟩

/-- The rows of `_facet_transform`. -/
theorem facetTransform_rows (c : Facets K) (hsd : 0 < c.sd) (P : Nat) (J : NMat K) (detJ : K) (f i r : Nat)
    (hf : f < c.num) (hi : i < P) (hr : r < c.sd) :
    (facetTransform c P J detJ).get (c.sd * P * f + i * c.sd + r) =
      if r = 0 then deltaRow (c.sd * P * f + i * c.sd + r)
      else blockRow (c.sd * P * f + i * c.sd + r) (c.sd * P * f + i * c.sd) c.sd (facetRows c J detJ f (r - 1)) := by
  have hflat : facetTransform c P J detJ = ((List.range c.num).product (List.range P)).foldl
      (fun (V : Arr K) (x : Nat × Nat) => V.setBlock (c.sd * P * x.1 + x.2 * c.sd + 1) (c.sd * P * x.1 + x.2 * c.sd)
        (c.sd - 1) c.sd (facetRows c J detJ x.1)) (identity (c.num * (c.sd * P)) (c.num * (c.sd * P))) := by
    unfold facetTransform List.product
    rw [List.foldl_flatMap]
    simp only [List.foldl_map]
  have hin : ∀ x y : Nat × Nat, x.2 < P → y.2 < P → ∀ a,
      (c.sd * P * x.1 + x.2 * c.sd + 1 ≤ a ∧ a < c.sd * P * x.1 + x.2 * c.sd + c.sd) →
      (c.sd * P * y.1 + y.2 * c.sd ≤ a ∧ a < c.sd * P * y.1 + y.2 * c.sd + c.sd) → x = y := by
    intro x y hx hy a h1 h2
    have e : ∀ z : Nat × Nat, c.sd * P * z.1 + z.2 * c.sd = c.sd * (P * z.1 + z.2) := fun z => by ring
    rw [e] at h1 h2
    have q : ∀ z : Nat × Nat, c.sd * (P * z.1 + z.2) ≤ a → a < c.sd * (P * z.1 + z.2) + c.sd →
        a / c.sd = P * z.1 + z.2 := fun z l1 l2 => by
      refine Nat.div_eq_of_lt_le ?_ ?_
      · rw [mul_comm]; exact l1
      · rw [Nat.add_mul, mul_comm, one_mul]; exact l2
    obtain ⟨e1, e2⟩ := pair_eq P _ _ _ _ hx hy ((q x (by omega) h1.2).symm.trans (q y h2.1 h2.2))
    exact Prod.ext e1 e2
  have key := foldl_rows (fun (V : Arr K) (x : Nat × Nat) => V.setBlock (c.sd * P * x.1 + x.2 * c.sd + 1)
      (c.sd * P * x.1 + x.2 * c.sd) (c.sd - 1) c.sd (facetRows c J detJ x.1))
    (fun x a => c.sd * P * x.1 + x.2 * c.sd + 1 ≤ a ∧ a < c.sd * P * x.1 + x.2 * c.sd + c.sd)
    (fun x a row b => if c.sd * P * x.1 + x.2 * c.sd ≤ b ∧ b < c.sd * P * x.1 + x.2 * c.sd + c.sd then
      facetRows c J detJ x.1 (a - (c.sd * P * x.1 + x.2 * c.sd + 1)) (b - (c.sd * P * x.1 + x.2 * c.sd)) else row b)
    ((List.range c.num).product (List.range P))
    (fun V x _ a ha => by
      unfold Arr.setBlock
      simp only
      rw [if_pos (by omega)])
    (fun V x _ a ha => by
      unfold Arr.setBlock
      simp only
      rw [if_neg (by omega)])
    (by
      have hnd : ((List.range c.num).product (List.range P)).Nodup := List.nodup_range.product List.nodup_range
      refine List.Pairwise.imp_of_mem (fun {x y} hx hy hne a h1 h2 => hne ?_) hnd
      have mx := (List.mem_product (l₁ := List.range c.num) (l₂ := List.range P) (a := x.1) (b := x.2)).1 hx
      have my := (List.mem_product (l₁ := List.range c.num) (l₂ := List.range P) (a := y.1) (b := y.2)).1 hy
      exact hin x y (List.mem_range.1 mx.2) (List.mem_range.1 my.2) a h1 ⟨by omega, h2.2⟩)
    (identity (c.num * (c.sd * P)) (c.num * (c.sd * P)))
  rw [hflat]
  by_cases h0 : r = 0
  · rw [if_pos h0, key.2]
    · rfl
    · intro x hx ⟨h1, h2⟩
      have mx := (List.mem_product (l₁ := List.range c.num) (l₂ := List.range P) (a := x.1) (b := x.2)).1 hx
      have := hin x (f, i) (List.mem_range.1 mx.2) hi _ ⟨h1, h2⟩ ⟨by simp, by simp; omega⟩
      rw [this] at h1
      simp only at h1
      omega
  · rw [if_neg h0, key.1 (f, i) (List.mem_product.2 ⟨List.mem_range.2 hf, List.mem_range.2 hi⟩) _
      ⟨by simp only; omega, by simp only; omega⟩]
    funext b
    unfold blockRow identity
    simp only
    rw [show c.sd * P * f + i * c.sd + r - (c.sd * P * f + i * c.sd + 1) = r - 1 by omega]

/-! ### Rows that express the reference nodes by the physical ones -/

/-- As `RowOK`, for symmetric tensors. The reference cell has unit size. -/
def SRowOK (N : Nat) (node : Nat → SNode K A d) (h : Nat → K) (t : Nat → Nat → Nat → K)
    (J : Nat → Nat → K) (detJ : K) (a : Nat) (r : Nat → K) : Prop :=
  ∀ S : Fin d → Fin d → A, (∀ i j, S i j = S j i) → (node a).value (fun _ => 1) t id S =
    act N r fun k => (node k).value h (images d J t) (doublePull J detJ) (doublePush J detJ S)

theorem srow_other (N : Nat) (node : Nat → SNode K A d) (h : Nat → K) (t : Nat → Nat → Nat → K)
    (J : Nat → Nat → K) (detJ : K) (hdet : detJ = Props.det d J) (h0 : detJ ≠ 0) (a : Nat) (ha : a < N)
    (l : (Fin d → Fin d → A) →ₗ[K] K) (hl : node a = .other l) :
    SRowOK N node h t J detJ a (deltaRow a) := by
  intro S _
  unfold deltaRow
  rw [act_delta N _ a ha, hl]
  simp only [SNode.value]
  rw [doublePull_push J detJ hdet h0]; rfl

theorem srow_normal [LinearOrder K] [IsStrictOrderedRing K] (N : Nat) (node : Nat → SNode K A d) (h : Nat → K)
    (c : Facets K) (hd : d = 2 ∨ d = 3) (hsd : c.sd = d)
    (J : Nat → Nat → K) (detJ : K) (hdet : detJ = Props.det d J) (h0 : detJ ≠ 0) (a : Nat) (ha : a < N) (f : Nat)
    (hf : GoodFacet d (c.tangent f) (c.norm f)) (l : A →ₗ[K] K) (hl : node a = .facet f l 0) :
    SRowOK N node h c.tangent J detJ a (deltaRow a) := by
  intro S _
  unfold deltaRow
  rw [act_delta N _ a ha, hl]
  simp only [SNode.value]
  rw [traction_push hd J detJ hdet h0]
  exact (facet_row c hd hsd J detJ hdet h0 f hf l _).2

theorem srow_tangent [LinearOrder K] [IsStrictOrderedRing K] (N : Nat) (node : Nat → SNode K A d) (h : Nat → K)
    (c : Facets K) (hd : d = 2 ∨ d = 3) (hsd : c.sd = d)
    (J : Nat → Nat → K) (detJ : K) (hdet : detJ = Props.det d J) (h0 : detJ ≠ 0) (s r : Nat) (hr : r + 1 < d)
    (hs : s + d ≤ N) (f : Nat) (hf : GoodFacet d (c.tangent f) (c.norm f)) (l : A →ₗ[K] K)
    (hl : ∀ j < d, node (s + j) = .facet f l j) :
    SRowOK N node h c.tangent J detJ (s + (r + 1)) (blockRow (s + (r + 1)) s d (facetRows c J detJ f r)) := by
  intro S _
  unfold blockRow
  rw [act_block N _ _ _ _ _ (by omega) (by omega) hs, hl (r + 1) hr]
  change l (dotWith _ _) = _
  rw [(facet_row c hd hsd J detJ hdet h0 f hf l _).1 r hr]
  refine Finset.sum_congr rfl fun j hj => ?_
  rw [hl j (Finset.mem_range.1 hj)]
  simp only [SNode.value]
  rw [traction_push hd J detJ hdet h0]

/-- The three components at a point (six in space). -/
theorem srow_component [NeZero (2 : K)] (N : Nat) (node : Nat → SNode K A d) (t : Nat → Nat → Nat → K)
    (J : Nat → Nat → K) (detJ : K) (hdet : detJ = Props.det d J) (h0 : detJ ≠ 0) (s p : Nat)
    (hp : p < (pairs d).length) (hs : s + (pairs d).length ≤ N) (v : Option Nat) (l : A →ₗ[K] K)
    (hl : ∀ q < (pairs d).length, ∃ i j : Fin d, (i.1, j.1) = (pairs d).getD q (0, 0) ∧
      node (s + q) = .component v l i j) :
    SRowOK N node (fun _ => 1) t J detJ (s + p)
      (blockRow (s + p) s (pairs d).length ((evaluationTransform d J).get p)) := by
  intro S hS
  unfold blockRow
  rw [act_block N _ _ _ _ _ (by omega) (by omega) hs]
  have hval : ∀ (v : Option Nat) (i j : Fin d) (h : Nat → K) (_ : ∀ w, h w = 1) (t : Nat → Nat → Nat → K)
      (pull : (Fin d → Fin d → A) → Fin d → Fin d → A) (T : Fin d → Fin d → A),
      (SNode.component v l i j).value h t pull T = l (T i j) := by
    intro v i j h hh t pull T
    cases v with
    | none => rfl
    | some v => simp only [SNode.value, hh, one_mul]
  set s' : Nat → Nat → K := fun a b => if h : a < d ∧ b < d then l (S ⟨a, h.1⟩ ⟨b, h.2⟩) else 0 with hs'
  have hfin : ∀ i j : Fin d, s' i j = l (S i j) := fun i j => by rw [hs']; simp
  have key := Props.C34_evaluation d J detJ hdet h0 s' (fun m n => by
    rw [hs']
    simp only
    by_cases hmn : m < d ∧ n < d
    · rw [dif_pos hmn, dif_pos hmn.symm, hS]
    · rw [dif_neg hmn, dif_neg fun h => hmn h.symm]) p hp
  obtain ⟨i, j, hij, hn⟩ := hl p hp
  rw [hn, hval _ _ _ _ (fun _ => rfl)]
  rw [← hij] at key
  simp only at key
  rw [hfin] at key
  rw [← key]
  refine Finset.sum_congr rfl fun q hq => ?_
  obtain ⟨i', j', hij', hn'⟩ := hl q (Finset.mem_range.1 hq)
  rw [hn', hval _ _ _ _ (fun _ => rfl), ← hij']
  congr 1
  unfold doublePush
  rw [map_smul, map_sum, smul_eq_mul, div_eq_inv_mul, Finset.sum_range]
  congr 1
  refine Finset.sum_congr rfl fun a _ => ?_
  rw [map_sum, Finset.sum_range]
  refine Finset.sum_congr rfl fun b _ => ?_
  rw [map_smul, hfin, smul_eq_mul]
  ring

/-- `V[:, ncomp*e:ncomp*(e+1)] *= 1/h[e]**2` makes rows for a cell of unit size rows for the cell. -/
theorem srow_scaled (N : Nat) (node : Nat → SNode K A d) (h sc : Nat → K) (t : Nat → Nat → Nat → K)
    (J : Nat → Nat → K) (detJ : K) (a : Nat) (r : Nat → K)
    (hsc : ∀ k < N, (∃ v l i j, node k = .component (some v) l i j ∧ sc k * (h v * h v) = 1) ∨
      (sc k = 1 ∧ ∀ v l i j, node k ≠ .component (some v) l i j))
    (hr : SRowOK N node (fun _ => 1) t J detJ a r) : SRowOK N node h t J detJ a fun b => r b * sc b := by
  intro S hS
  rw [hr S hS]
  refine (act_scaled N r sc _ _ fun k hk => ?_).symm
  rcases hsc k hk with ⟨v, l, i, j, hn, he⟩ | ⟨he, hn⟩
  · rw [hn]
    simp only [SNode.value, one_mul]
    rw [← mul_assoc, he, one_mul]
  · rw [he, one_mul]
    cases hk' : node k with
    | component v l i j =>
      cases v with
      | none => rfl
      | some v => exact absurd hk' (hn v l i j)
    | facet f l c => rfl
    | other l => rfl

theorem facetTransform_dim (c : Facets K) (P : Nat) (J : NMat K) (detJ : K) :
    (facetTransform c P J detJ).rows = c.num * (c.sd * P) ∧ (facetTransform c P J detJ).cols = c.num * (c.sd * P) := by
  have hi : ∀ (f : Nat) (l : List Nat) (V : Arr K), (l.foldl (fun V i => V.setBlock (c.sd * P * f + i * c.sd + 1)
      (c.sd * P * f + i * c.sd) (c.sd - 1) c.sd (facetRows c J detJ f)) V).rows = V.rows ∧
      (l.foldl (fun V i => V.setBlock (c.sd * P * f + i * c.sd + 1)
      (c.sd * P * f + i * c.sd) (c.sd - 1) c.sd (facetRows c J detJ f)) V).cols = V.cols := by
    intro f l
    induction l with
    | nil => intro V; exact ⟨rfl, rfl⟩
    | cons x l ih => intro V; exact ih _
  have ho : ∀ (l : List Nat) (V : Arr K), (l.foldl (fun V f => (List.range P).foldl (fun V i =>
      V.setBlock (c.sd * P * f + i * c.sd + 1)
      (c.sd * P * f + i * c.sd) (c.sd - 1) c.sd (facetRows c J detJ f)) V) V).rows = V.rows ∧
      (l.foldl (fun V f => (List.range P).foldl (fun V i =>
      V.setBlock (c.sd * P * f + i * c.sd + 1)
      (c.sd * P * f + i * c.sd) (c.sd - 1) c.sd (facetRows c J detJ f)) V) V).cols = V.cols := by
    intro l
    induction l with
    | nil => intro V; exact ⟨rfl, rfl⟩
    | cons x l ih =>
      intro V
      rw [List.foldl_cons]
      exact ⟨(ih _).1.trans (hi x _ V).1, (ih _).2.trans (hi x _ V).2⟩
  exact ho _ _

/-- The rows of the nodes on the facets, where these are numbered from `cur` on. -/
theorem facet_srows [LinearOrder K] [IsStrictOrderedRing K] (N : Nat) (node : Nat → SNode K A d) (h : Nat → K)
    (c : Facets K) (hd : d = 2 ∨ d = 3) (hsd : c.sd = d) (J : Nat → Nat → K) (detJ : K)
    (hdet : detJ = Props.det d J) (h0 : detJ ≠ 0) (P cur : Nat) (hN : cur + c.num * (d * P) ≤ N)
    (hgood : ∀ f < c.num, GoodFacet d (c.tangent f) (c.norm f))
    (hnode : ∀ f < c.num, ∀ i < P, ∃ l : A →ₗ[K] K, ∀ j < d,
      node (cur + (d * P * f + i * d + j)) = .facet f l j)
    (V : Arr K) (a : Nat) (ha : cur ≤ a) (ha' : a < cur + c.num * (d * P)) (hV : V.get a = deltaRow a) :
    SRowOK N node h c.tangent J detJ a ((V.setBlock cur cur (c.num * (d * P)) (c.num * (d * P))
      (facetTransform c P J detJ).get).get a) := by
  have hd0 : 0 < d := by omega
  set q := a - cur with hq
  have hqlt : q < c.num * (d * P) := by omega
  have hW : 0 < d * P := by
    rcases Nat.eq_zero_or_pos (d * P) with hz | hz
    · rw [hz, Nat.mul_zero] at hqlt; omega
    · exact hz
  have hP : 0 < P := Nat.pos_of_mul_pos_left hW
  set f := q / (d * P) with hf
  set m := q % (d * P) with hm
  set i := m / d with hi
  set r := m % d with hr
  have hflt : f < c.num := Nat.div_lt_of_lt_mul (by rw [mul_comm]; exact hqlt)
  have hmlt : m < d * P := Nat.mod_lt _ hW
  have hilt : i < P := Nat.div_lt_of_lt_mul hmlt
  have hrlt : r < d := Nat.mod_lt _ hd0
  have e1 : q = d * P * f + m := by rw [hf, hm]; exact (Nat.div_add_mod q (d * P)).symm
  have e2 : m = i * d + r := by rw [hi, hr, mul_comm]; exact (Nat.div_add_mod m d).symm
  have e3 : q = d * P * f + i * d + r := by rw [e1, Nat.add_assoc, ← e2]
  have hend : d * P * f + i * d + d ≤ c.num * (d * P) := by
    have h1 : i * d + d ≤ d * P := by
      calc i * d + d = d * (i + 1) := by ring
        _ ≤ d * P := Nat.mul_le_mul_left d hilt
    have h2 : d * P * f + d * P ≤ c.num * (d * P) := by
      calc d * P * f + d * P = (f + 1) * (d * P) := by ring
        _ ≤ c.num * (d * P) := Nat.mul_le_mul_right _ hflt
    omega
  obtain ⟨l, hl⟩ := hnode f hflt i hilt
  rw [setBlock_delta V cur _ _ a ha ha' hV, ← hq]
  have hrows := facetTransform_rows c (by omega) P J detJ f i r hflt hilt (by omega)
  rw [hsd, ← e3] at hrows
  rw [hrows]
  have hnd : node a = .facet f l r := by rw [← hl r hrlt, ← e3]; congr 1; omega
  by_cases hz : r = 0
  · rw [if_pos hz, hq, blockRow_delta a cur _ ha]
    rw [hz] at hnd
    exact srow_normal N node h c hd hsd J detJ hdet h0 a (by omega) f (hgood f hflt) l hnd
  · rw [if_neg hz, hq, blockRow_block a cur _ _ _ _ ha hend]
    have ea : a = cur + (d * P * f + i * d) + (r - 1 + 1) := by omega
    have := srow_tangent N node h c hd hsd J detJ hdet h0 (cur + (d * P * f + i * d)) (r - 1) (by omega) (by omega) f
      (hgood f hflt) l (fun j hj => by rw [← hl j hj]; congr 1; omega)
    rw [← ea] at this
    exact this

/-- From rows to basis functions. -/
theorem tensor_nodal (N M : Nat) (hM : M ≤ N) (node : Nat → SNode K A d) (h : Nat → K) (t : Nat → Nat → Nat → K)
    (J : Nat → Nat → K) (detJ : K) (hdet : detJ = Props.det d J) (h0 : detJ ≠ 0) (V : Nat → Nat → K)
    (hrow : ∀ a < N, ∃ r, (∀ b < M, r b = V a b) ∧ SRowOK N node h t J detJ a r) (φ : Nat → Fin d → Fin d → A)
    (hsym : ∀ k < N, ∀ i j, φ k i j = φ k j i)
    (hφ : Nodal N (fun k => (node k).value (fun _ => 1) t id) φ) (k : Nat) (hk : k < N) (i : Nat) (hi : i < M) :
    (node k).value h (images d J t) (doublePull J detJ) (tensorBasis N (fun i j => V j i) J detJ φ i) =
      if k = i then 1 else 0 := by
  choose! r hr using hrow
  have hlin : ∀ k, IsLinearMap K ((node k).value h (images d J t) (doublePull J detJ)) := by
    intro k
    have hpa : ∀ u v : Fin d → Fin d → A, doublePull J detJ (u + v) = doublePull J detJ u + doublePull J detJ v := by
      intro u v; funext i j
      simp only [doublePull, Pi.add_apply, smul_add, Finset.sum_add_distrib]
    have hps : ∀ (c : K) (u : Fin d → Fin d → A), doublePull J detJ (c • u) = c • doublePull J detJ u := by
      intro c u; funext i j
      simp only [doublePull, Pi.smul_apply, Finset.smul_sum]
      exact Finset.sum_congr rfl fun j _ => Finset.sum_congr rfl fun j _ => smul_comm _ _ _
    have hda : ∀ (v : Nat → K) (u w : Fin d → A), dotWith v (u + w) = dotWith v u + dotWith v w := by
      intro v u w; simp only [dotWith, Pi.add_apply, smul_add, Finset.sum_add_distrib]
    have hds : ∀ (v : Nat → K) (c : K) (u : Fin d → A), dotWith v (c • u) = c • dotWith v u := by
      intro v c u
      simp only [dotWith, Pi.smul_apply, Finset.smul_sum]
      exact Finset.sum_congr rfl fun j _ => smul_comm _ _ _
    have hta : ∀ (n : Nat → K) (S T : Fin d → Fin d → A), traction n (S + T) = traction n S + traction n T := by
      intro n S T; funext i; exact hda n (S i) (T i)
    have hts : ∀ (n : Nat → K) (c : K) (S : Fin d → Fin d → A), traction n (c • S) = c • traction n S := by
      intro n c S; funext i; exact hds n c (S i)
    rcases hnk : node k with ⟨v, l, i, j⟩ | ⟨f, l, c⟩ | ⟨l⟩
    · cases v <;> refine ⟨fun u v => ?_, fun c u => ?_⟩ <;>
        simp only [SNode.value, Pi.add_apply, Pi.smul_apply, map_add, map_smul, smul_eq_mul] <;> ring
    all_goals
      refine ⟨fun u v => ?_, fun c u => ?_⟩ <;>
      simp only [SNode.value, map_add, map_smul, smul_eq_mul, hpa, hps, hda, hds, hta, hts]
  have key := nodal_transpose N r _ hlin (fun k => (node k).value (fun _ => 1) t id) (doublePull J detJ)
    (fun j => doublePush J detJ (φ j)) (fun i hi j hj => by
      rw [doublePull_push J detJ hdet h0]
      exact (hr i hi).2 (φ j) (hsym j hj)) (by
      intro i hi j hj
      have := hφ i hi j hj
      simp only [doublePull_push J detJ hdet h0]
      exact this)
  have h1 := key k hk i (by omega)
  rw [← h1]
  unfold tensorBasis
  congr 1
  exact Finset.sum_congr rfl fun j hj => by rw [(hr j (Finset.mem_range.1 hj)).1 i hi]

end FInAT.PiolaNodes
