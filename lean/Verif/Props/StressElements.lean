import Verif.Lemmas.PiolaTensor
import Mathlib.Tactic.FinCases
import Mathlib.Tactic.IntervalCases
import Mathlib.Data.Fin.VecNotation
import Mathlib.LinearAlgebra.Pi

/-!
# C63: nodality of the stress elements

`johnsonMercier`, `arnoldWintherNC`, `arnoldWinther`, `huZhang` model the code; nodes, frames and the double Piola map
are those of `Verif.Spec.PiolaNodes`. `node k` is the `k`-th node of the FIAT element. On the physical cell, components
at vertex `v` are scaled by the square of the size `h v` of the cell.
-/

namespace FInAT.Props

open Finset FInAT.Piola FInAT.Zany FInAT.Stress FInAT.Spec.PiolaNodes FInAT.Spec.Zany FInAT.PiolaNodes

variable {K A : Type} [Field K] [AddCommGroup A] [Module K A] {d : Nat}

/-- Node `k` on the reference cell. -/
def refStress (t : Nat → Nat → Nat → K) (node : Nat → SNode K A d) (k : Nat) : (Fin d → Fin d → A) → K :=
  (node k).value (fun _ => 1) t id

/-- Node `k` on the physical cell. -/
noncomputable def physStress (h : Nat → K) (t : Nat → Nat → Nat → K) (J : Nat → Nat → K) (detJ : K)
    (node : Nat → SNode K A d) (k : Nat) : (Fin d → Fin d → A) → K :=
  (node k).value h (images d J t) (doublePull J detJ)

/-- From number `s` on there are the components of the upper triangle, all measured in the same way. -/
def ComponentsAt (node : Nat → SNode K A d) (v : Option Nat) (s : Nat) : Prop :=
  ∃ l : A →ₗ[K] K, ∀ q < (pairs d).length, ∃ i j : Fin d, (i.1, j.1) = (pairs d).getD q (0, 0) ∧
    node (s + q) = .component v l i j

/-- From number `cur` on there are, facet by facet, `P` moments of the `d` components of the traction. -/
def TractionsAt (node : Nat → SNode K A d) (facets P cur : Nat) : Prop :=
  ∀ f < facets, ∀ i < P, ∃ l : A →ₗ[K] K, ∀ c < d, node (cur + (d * P * f + i * d + c)) = .facet f l c

/-- Nodes that are the same on both cells: the normal component of the traction, and those that are defined by the
reference cell. -/
def Invariant (node : Nat → SNode K A d) (facets k : Nat) : Prop :=
  (∃ f < facets, ∃ l, node k = .facet f l 0) ∨ ∃ l, node k = .other l

variable [LinearOrder K] [IsStrictOrderedRing K]

theorem invariant_row (N : Nat) (node : Nat → SNode K A d) (h : Nat → K) (c : Facets K) (hd : d = 2 ∨ d = 3)
    (hsd : c.sd = d) (J : Nat → Nat → K) (detJ : K) (hdet : detJ = det d J) (h0 : detJ ≠ 0) (a : Nat) (ha : a < N)
    (hgood : ∀ f < c.num, GoodFacet d (c.tangent f) (c.norm f)) (hinv : Invariant node c.num a) :
    SRowOK N node h c.tangent J detJ a (deltaRow a) := by
  rcases hinv with ⟨f, hf, l, hl⟩ | ⟨l, hl⟩
  · exact srow_normal N node h c hd hsd J detJ hdet h0 a ha f (hgood f hf) l hl
  · exact srow_other N node h c.tangent J detJ hdet h0 a ha l hl

/-- Johnson-Mercier, in two and three dimensions: moments of the tractions on the facets, then nodes that are the same
on both cells. `k` ranges over all nodes of the FIAT element, `i` over the functions that are kept. -/
theorem C63_johnsonMercier (hd : d = 2 ∨ d = 3) (c : Facets K) (hsd : c.sd = d) (J : Nat → Nat → K) (detJ : K)
    (hdet : detJ = det d J) (h0 : detJ ≠ 0) (hgood : ∀ f < c.num, GoodFacet d (c.tangent f) (c.norm f)) (P N M : Nat)
    (hM : M ≤ N) (hN : c.num * (d * P) ≤ N) (node : Nat → SNode K A d) (hfacet : TractionsAt node c.num P 0)
    (hrest : ∀ k < N, c.num * (d * P) ≤ k → Invariant node c.num k) (h : Nat → K)
    (φ : Nat → Fin d → Fin d → A) (hsym : ∀ k < N, ∀ i j, φ k i j = φ k j i)
    (hφ : Nodal N (refStress c.tangent node) φ) (k : Nat) (hk : k < N) (i : Nat) (hi : i < M) :
    physStress h c.tangent J detJ node k (tensorBasis N (johnsonMercier c J detJ P N M).get J detJ φ i) =
      if k = i then 1 else 0 := by
  obtain ⟨r1, r2⟩ := facetTransform_dim c P J detJ
  refine tensor_nodal N M hM node h c.tangent J detJ hdet h0
    (fun a b => (johnsonMercier c J detJ P N M).get b a) (fun a ha => ⟨_, fun b _ => rfl, ?_⟩) φ hsym hφ k hk i hi
  have hget : (fun b => (johnsonMercier c J detJ P N M).get b a) = ((identity N M).setBlock 0 0 (c.num * (d * P))
      (c.num * (d * P)) (facetTransform c P J detJ).get).get a := by
    unfold johnsonMercier
    simp only [r1, r2, hsd]
    rfl
  rw [hget]
  by_cases hlt : a < c.num * (d * P)
  · exact facet_srows N node h c hd hsd J detJ hdet h0 P 0 (by omega) hgood hfacet _ a (Nat.zero_le a) (by omega) rfl
  · rw [setBlock_out _ _ _ _ _ _ _ (by omega)]
    exact invariant_row N node h c hd hsd J detJ hdet h0 a ha hgood (hrest a ha (by omega))

/-- Non-conforming Arnold-Winther: two moments of the tractions on three edges, then nodes that are the same on both
cells, among them the three constraints. -/
theorem C63_arnoldWintherNC (c : Facets K) (hsd : c.sd = 2) (hnum : c.num = 3) (J : Nat → Nat → K) (detJ : K)
    (hdet : detJ = det 2 J) (h0 : detJ ≠ 0) (hgood : ∀ f < 3, GoodFacet 2 (c.tangent f) (c.norm f))
    (node : Nat → SNode K A 2) (hfacet : TractionsAt node 3 2 0)
    (hrest : ∀ k < 18, 12 ≤ k → Invariant node 3 k) (h : Nat → K)
    (φ : Nat → Fin 2 → Fin 2 → A) (hsym : ∀ k < 18, ∀ i j, φ k i j = φ k j i)
    (hφ : Nodal 18 (refStress c.tangent node) φ) (k : Nat) (hk : k < 18) (i : Nat) (hi : i < 15) :
    physStress h c.tangent J detJ node k (tensorBasis 18 (arnoldWintherNC c J detJ 18 15).get J detJ φ i) =
      if k = i then 1 else 0 := by
  rw [← hnum] at hgood hfacet hrest
  refine tensor_nodal 18 15 (by omega) node h c.tangent J detJ hdet h0
    (fun a b => (arnoldWintherNC c J detJ 18 15).get b a) (fun a ha => ⟨_, fun b _ => rfl, ?_⟩) φ hsym hφ k hk i hi
  have hget : (fun b => (arnoldWintherNC c J detJ 18 15).get b a) = ((identity 18 15).setBlock 0 0 (c.num * (2 * 2))
      (c.num * (2 * 2)) (facetTransform c 2 J detJ).get).get a := by
    rw [hnum]; rfl
  rw [hget]
  by_cases hlt : a < 12
  · exact facet_srows 18 node h c (.inl rfl) hsd J detJ hdet h0 2 0 (by omega) hgood hfacet _ a (Nat.zero_le a)
      (by omega) rfl
  · rw [setBlock_out _ _ _ _ _ _ _ (by omega)]
    exact invariant_row 18 node h c (.inl rfl) hsd J detJ hdet h0 a ha hgood (hrest a ha (by omega))

omit [LinearOrder K] [IsStrictOrderedRing K] in
theorem scaleVerts_get (n m : Nat) (hn : 0 < n) (h : Nat → K) (V : Arr K) (a b : Nat) :
    (scaleVerts n m h V).get a b = V.get a b * if b < n * m then 1 / (h (b / n) * h (b / n)) else 1 := by
  induction m with
  | zero => simp [scaleVerts]
  | succ m ih =>
    have hs : scaleVerts n (m + 1) h V = (scaleVerts n m h V).scaleCols (n * m) n (1 / (h m * h m)) := by
      unfold scaleVerts
      rw [List.range_succ, List.foldl_append]; rfl
    have hmul : n * (m + 1) = n * m + n := by ring
    rw [hs]
    unfold Arr.scaleCols
    simp only
    rw [ih]
    by_cases hb : n * m ≤ b ∧ b < n * m + n
    · have hq : b / n = m := Nat.div_eq_of_lt_le (by rw [mul_comm]; exact hb.1) (by rw [mul_comm, hmul]; exact hb.2)
      rw [if_pos hb, if_neg (by omega), if_pos (by omega), mul_one, hq]
    · rw [if_neg hb]
      by_cases hb' : b < n * m
      · rw [if_pos hb', if_pos (by omega)]
      · rw [if_neg hb', if_neg (by omega)]

omit [LinearOrder K] [IsStrictOrderedRing K] in
/-- The rows of the components at the vertices. -/
theorem vertexBlocks_row [NeZero (2 : K)] (N : Nat) (hN : 9 ≤ N) (node : Nat → SNode K A 2) (t : Nat → Nat → Nat → K)
    (J : Nat → Nat → K) (detJ : K) (hdet : detJ = det 2 J) (h0 : detJ ≠ 0)
    (hv : ∀ v < 3, ComponentsAt node (some v) (3 * v)) (V : Arr K) (hV : ∀ a, V.get a = deltaRow a) (a : Nat)
    (ha : a < 9) : SRowOK N node (fun _ => 1) t J detJ a
      ((vertexBlocks V (evaluationTransform 2 J).get).get a) := by
  have hlen : (pairs 2).length = 3 := by decide
  obtain ⟨l, hl⟩ := hv (a / 3) (by omega)
  have key := srow_component N node t J detJ hdet h0 (3 * (a / 3)) (a % 3) (by omega) (by omega) (some (a / 3)) l hl
  rw [Nat.div_add_mod, hlen] at key
  have : (vertexBlocks V (evaluationTransform 2 J).get).get a =
      blockRow a (3 * (a / 3)) 3 ((evaluationTransform 2 J).get (a % 3)) := by
    unfold vertexBlocks
    obtain h | h | h : a / 3 = 0 ∨ a / 3 = 1 ∨ a / 3 = 2 := by omega
    · rw [setBlock_out _ _ _ _ _ _ _ (by omega), setBlock_out _ _ _ _ _ _ _ (by omega),
        setBlock_delta _ _ _ _ _ (by omega) (by omega) (hV a), h, show a - 0 = a % 3 by omega]
    · rw [setBlock_out _ _ _ _ _ _ _ (by omega), setBlock_delta _ _ _ _ _ (by omega) (by omega), h,
        show a - 3 = a % 3 by omega]
      rw [setBlock_out _ _ _ _ _ _ _ (by omega), hV]
    · rw [setBlock_delta _ _ _ _ _ (by omega) (by omega), h, show a - 6 = a % 3 by omega]
      rw [setBlock_out _ _ _ _ _ _ _ (by omega), setBlock_out _ _ _ _ _ _ _ (by omega), hV]
  rw [this]
  exact key

omit [Field K] [LinearOrder K] [IsStrictOrderedRing K] in
theorem vertexBlocks_out (V : Arr K) (W : NMat K) (a : Nat) (ha : 9 ≤ a) : (vertexBlocks V W).get a = V.get a := by
  unfold vertexBlocks
  rw [setBlock_out _ _ _ _ _ _ _ (by omega), setBlock_out _ _ _ _ _ _ _ (by omega),
    setBlock_out _ _ _ _ _ _ _ (by omega)]

omit [LinearOrder K] [IsStrictOrderedRing K] in
/-- The last step of `ArnoldWinther` and `HuZhang`. -/
theorem scaled_row (N : Nat) (node : Nat → SNode K A 2) (t : Nat → Nat → Nat → K)
    (J : Nat → Nat → K) (detJ : K) (h : Nat → K) (hh : ∀ v < 3, h v ≠ 0)
    (hv : ∀ v < 3, ComponentsAt node (some v) (3 * v))
    (hno : ∀ k < N, 9 ≤ k → ∀ v l i j, node k ≠ .component (some v) l i j) (V : Arr K) (a : Nat)
    (hV : SRowOK N node (fun _ => 1) t J detJ a (V.get a)) :
    SRowOK N node h t J detJ a (fun b => (scaleVerts 3 3 h V).get a b) := by
  have := srow_scaled N node h (fun b => if b < 3 * 3 then 1 / (h (b / 3) * h (b / 3)) else 1) t J detJ a (V.get a)
    (fun k hk => by
      by_cases h9 : k < 9
      · obtain ⟨l, hl⟩ := hv (k / 3) (by omega)
        obtain ⟨i, j, _, hn⟩ := hl (k % 3) (by rw [show (pairs 2).length = 3 by decide]; omega)
        rw [Nat.div_add_mod] at hn
        refine .inl ⟨_, _, _, _, hn, ?_⟩
        rw [if_pos (by omega)]
        have := hh (k / 3) (by omega)
        field_simp
      · refine .inr ⟨?_, hno k hk (by omega)⟩
        rw [if_neg (by omega)]) hV
  have e : (fun b => (scaleVerts 3 3 h V).get a b) =
      fun b => V.get a b * if b < 3 * 3 then 1 / (h (b / 3) * h (b / 3)) else 1 := by
    funext b; exact scaleVerts_get 3 3 (by decide) h V a b
  rw [e]
  exact this

omit [LinearOrder K] [IsStrictOrderedRing K] in
/-- Tractions and invariant nodes have no vertex. -/
theorem no_vertex (facets P cur : Nat) (node : Nat → SNode K A 2) (hfacet : TractionsAt node facets P cur) (k : Nat)
    (h1 : cur ≤ k) (h2 : k < cur + facets * (2 * P)) : ∀ v l i j, node k ≠ .component (some v) l i j := by
  have hW : 0 < 2 * P := by
    rcases Nat.eq_zero_or_pos (2 * P) with hz | hz
    · rw [hz] at h2; omega
    · exact hz
  have hf : (k - cur) / (2 * P) < facets := Nat.div_lt_of_lt_mul (by rw [mul_comm]; omega)
  have hm := Nat.mod_lt (k - cur) hW
  obtain ⟨l', hl'⟩ := hfacet _ hf ((k - cur) % (2 * P) / 2) (by omega)
  have := hl' ((k - cur) % (2 * P) % 2) (by omega)
  have e : cur + (2 * P * ((k - cur) / (2 * P)) + (k - cur) % (2 * P) / 2 * 2 + (k - cur) % (2 * P) % 2) = k := by
    have := Nat.div_add_mod (k - cur) (2 * P)
    omega
  rw [e] at this
  intro v l i j h
  rw [this] at h
  exact absurd h (by simp)

/-- Arnold-Winther: the components at three vertices, two moments of the tractions on three edges, then nodes that are
the same on both cells, among them the six constraints. -/
theorem C63_arnoldWinther (c : Facets K) (hsd : c.sd = 2) (hnum : c.num = 3) (J : Nat → Nat → K) (detJ : K)
    (hdet : detJ = det 2 J) (h0 : detJ ≠ 0) (hgood : ∀ f < 3, GoodFacet 2 (c.tangent f) (c.norm f))
    (h : Nat → K) (hh : ∀ v < 3, h v ≠ 0) (node : Nat → SNode K A 2)
    (hvert : ∀ v < 3, ComponentsAt node (some v) (3 * v)) (hfacet : TractionsAt node 3 2 9)
    (hrest : ∀ k < 30, 21 ≤ k → Invariant node 3 k)
    (φ : Nat → Fin 2 → Fin 2 → A) (hsym : ∀ k < 30, ∀ i j, φ k i j = φ k j i)
    (hφ : Nodal 30 (refStress c.tangent node) φ) (k : Nat) (hk : k < 30) (i : Nat) (hi : i < 24) :
    physStress h c.tangent J detJ node k (tensorBasis 30 (arnoldWinther c J detJ h 30 24).get J detJ φ i) =
      if k = i then 1 else 0 := by
  obtain ⟨r1, r2⟩ := facetTransform_dim c 2 J detJ
  have hfacet' := hfacet
  have hrest' := hrest
  rw [← hnum] at hgood hfacet hrest
  refine tensor_nodal 30 24 (by omega) node h c.tangent J detJ hdet h0
    (fun a b => (arnoldWinther c J detJ h 30 24).get b a) (fun a ha => ⟨_, fun b _ => rfl, ?_⟩) φ hsym hφ k hk i hi
  have hW : (evaluationTransform 2 J : Arr K).rows = 3 := by rfl
  have hget : (fun b => (arnoldWinther c J detJ h 30 24).get b a) = fun b => (scaleVerts 3 3 h
      ((vertexBlocks (identity 30 24) (evaluationTransform 2 J).get).setBlock 9 9 (c.num * (2 * 2)) (c.num * (2 * 2))
        (facetTransform c 2 J detJ).get)).get a b := by
    unfold arnoldWinther
    simp only [r1, hsd, hW]
    rfl
  rw [hget]
  have hdelta : ∀ a, (identity 30 24 : Arr K).get a = deltaRow a := fun a => rfl
  refine scaled_row 30 node c.tangent J detJ h hh hvert (fun k hk h9 => ?_) _ a ?_
  · by_cases h21 : k < 21
    · exact no_vertex 3 2 9 node hfacet' k h9 (by omega)
    · intro v l i j he
      rcases hrest' k hk (by omega) with ⟨_, _, _, hl⟩ | ⟨_, hl⟩ <;> rw [hl] at he <;> exact absurd he (by simp)
  · by_cases h9 : a < 9
    · rw [setBlock_out _ _ _ _ _ _ _ (by omega)]
      exact vertexBlocks_row 30 (by omega) node c.tangent J detJ hdet h0 hvert _ hdelta a h9
    · by_cases h21 : a < 21
      · exact facet_srows 30 node _ c (.inl rfl) hsd J detJ hdet h0 2 9 (by omega) hgood hfacet _ a (by omega)
          (by omega) (by rw [vertexBlocks_out _ _ _ (by omega), hdelta])
      · rw [setBlock_out _ _ _ _ _ _ _ (by omega), vertexBlocks_out _ _ _ (by omega), hdelta]
        exact invariant_row 30 node _ c (.inl rfl) hsd J detJ hdet h0 a ha hgood (hrest a ha (by omega))

omit [Field K] [LinearOrder K] [IsStrictOrderedRing K] in
theorem interiorBlocks_out (m : Nat) (W : NMat K) (n cur : Nat) (V : Arr K) (a : Nat)
    (ha : a < cur ∨ cur + m * n ≤ a) : (interiorBlocks m W n cur V).get a = V.get a := by
  induction n generalizing cur V with
  | zero => rfl
  | succ n ih =>
    have hm : m * (n + 1) = m * n + m := by ring
    rw [interiorBlocks, ih _ _ (by omega), setBlock_out _ _ _ _ _ _ _ (by omega)]

omit [LinearOrder K] [IsStrictOrderedRing K] in
theorem interiorBlocks_row (m : Nat) (hm0 : 0 < m) (W : NMat K) (n cur : Nat) (V : Arr K) (g p : Nat) (hg : g < n)
    (hp : p < m) (hV : ∀ a, cur ≤ a → V.get a = deltaRow a) :
    (interiorBlocks m W n cur V).get (cur + m * g + p) = blockRow (cur + m * g + p) (cur + m * g) m (W p) := by
  induction n generalizing cur V g with
  | zero => omega
  | succ n ih =>
    rw [interiorBlocks]
    cases g with
    | zero =>
      rw [interiorBlocks_out _ _ _ _ _ _ (by omega), setBlock_delta _ _ _ _ _ (by omega) (by omega) (hV _ (by omega))]
      simp
    | succ g =>
      have e : cur + m * (g + 1) = cur + m + m * g := by ring
      rw [e]
      refine ih (cur + m) _ g (by omega) fun a ha => ?_
      rw [setBlock_out _ _ _ _ _ _ _ (by omega)]
      exact hV a (by omega)

/-- Hu-Zhang, for every number `P` of moments (that is, every degree): the components at three vertices, `P` moments of
the tractions on three edges, and in the interior either components at points or averages (`point = true`) or nodes that
are the same on both cells. -/
theorem C63_huZhang (c : Facets K) (hsd : c.sd = 2) (hnum : c.num = 3) (J : Nat → Nat → K) (detJ : K)
    (hdet : detJ = det 2 J) (h0 : detJ ≠ 0) (hgood : ∀ f < 3, GoodFacet 2 (c.tangent f) (c.norm f))
    (h : Nat → K) (hh : ∀ v < 3, h v ≠ 0) (P G N : Nat) (hN : N = 9 + 6 * P + 3 * G) (point : Bool)
    (node : Nat → SNode K A 2)
    (hvert : ∀ v < 3, ComponentsAt node (some v) (3 * v)) (hfacet : TractionsAt node 3 P 9)
    (hint : ∀ g < G, if point then ComponentsAt node none (9 + 6 * P + 3 * g) else
      ∀ q < 3, Invariant node 3 (9 + 6 * P + 3 * g + q))
    (φ : Nat → Fin 2 → Fin 2 → A) (hsym : ∀ k < N, ∀ i j, φ k i j = φ k j i)
    (hφ : Nodal N (refStress c.tangent node) φ) :
    Nodal N (physStress h c.tangent J detJ node)
      (tensorBasis N (huZhang c J detJ h N P point).get J detJ φ) := by
  intro k hk i hi
  obtain ⟨r1, r2⟩ := facetTransform_dim c P J detJ
  have hfacet' := hfacet
  have hint' := hint
  rw [← hnum] at hgood hfacet
  refine tensor_nodal N N le_rfl node h c.tangent J detJ hdet h0
    (fun a b => (huZhang c J detJ h N P point).get b a) (fun a ha => ⟨_, fun b _ => rfl, ?_⟩) φ hsym hφ k hk i hi
  have hW : (evaluationTransform 2 J : Arr K).rows = 3 := by rfl
  have hlen : (pairs 2).length = 3 := by decide
  set V0 := (vertexBlocks (identity N N) (evaluationTransform 2 J).get).setBlock 9 9 (c.num * (2 * P)) (c.num * (2 * P))
        (facetTransform c P J detJ).get with hV0
  have hget : (fun b => (huZhang c J detJ h N P point).get b a) = fun b => (scaleVerts 3 3 h
      (if point then interiorBlocks 3 (evaluationTransform 2 J).get G (9 + 6 * P) V0 else V0)).get a b := by
    unfold huZhang
    simp only [r1, hsd, hW]
    rw [show (2 + 1) * 3 = 9 by rfl, hnum, show 9 + 3 * (2 * P) = 9 + 6 * P by ring,
      show (N - (9 + 6 * P) + 3 - 1) / 3 = G by omega, hV0, hnum]
    rfl
  rw [hget]
  have hdelta : ∀ a, (identity N N : Arr K).get a = deltaRow a := fun a => rfl
  have hnum' : c.num * (2 * P) = 6 * P := by rw [hnum]; ring
  have hdecomp : ∀ k, 9 + 6 * P ≤ k → k < N → ∃ g < G, ∃ q < 3, k = 9 + 6 * P + 3 * g + q := fun k h1 h2 =>
    ⟨(k - (9 + 6 * P)) / 3, by omega, (k - (9 + 6 * P)) % 3, by omega, by omega⟩
  refine scaled_row N node c.tangent J detJ h hh hvert (fun k hk h9 => ?_) _ a ?_
  · by_cases h21 : k < 9 + 6 * P
    · exact no_vertex 3 P 9 node hfacet' k h9 (by omega)
    · intro v l i j he
      obtain ⟨g, hg, q, hq, rfl⟩ := hdecomp k (by omega) hk
      have := hint' g hg
      cases point with
      | true =>
        obtain ⟨l', hl'⟩ := this
        obtain ⟨_, _, _, hn⟩ := hl' q (by omega)
        rw [hn] at he
        exact absurd he (by simp)
      | false =>
        rcases this q hq with ⟨_, _, _, hl⟩ | ⟨_, hl⟩ <;> rw [hl] at he <;> exact absurd he (by simp)
  · have hout : a < 9 + 6 * P → (if point then interiorBlocks 3 (evaluationTransform 2 J).get G (9 + 6 * P) V0
        else V0).get a = V0.get a := by
      intro hlt
      cases point with
      | true => exact interiorBlocks_out _ _ _ _ _ _ (.inl hlt)
      | false => rfl
    have hrest : ∀ a, 9 + 6 * P ≤ a → V0.get a = deltaRow a := fun a ha => by
      rw [hV0, setBlock_out _ _ _ _ _ _ _ (by omega), vertexBlocks_out _ _ _ (by omega), hdelta]
    by_cases h9 : a < 9
    · rw [hout (by omega), hV0, setBlock_out _ _ _ _ _ _ _ (by omega)]
      exact vertexBlocks_row N (by omega) node c.tangent J detJ hdet h0 hvert _ hdelta a h9
    · by_cases h21 : a < 9 + 6 * P
      · rw [hout h21]
        exact facet_srows N node _ c (.inl rfl) hsd J detJ hdet h0 P 9 (by omega) hgood hfacet _ a (by omega)
          (by omega) (by rw [vertexBlocks_out _ _ _ (by omega), hdelta])
      · obtain ⟨g, hg, q, hq, rfl⟩ := hdecomp a (by omega) ha
        have hi := hint g hg
        rw [show Invariant node 3 = Invariant node c.num by rw [hnum]] at hi
        cases point with
        | true =>
          simp only [if_true] at hi ⊢
          obtain ⟨l, hl⟩ := hi
          rw [interiorBlocks_row 3 (by decide) _ G (9 + 6 * P) V0 g q hg hq hrest]
          have := srow_component N node c.tangent J detJ hdet h0 (9 + 6 * P + 3 * g) q (by omega) (by omega) none l hl
          rw [hlen] at this
          exact this
        | false =>
          simp only [Bool.false_eq_true, if_false] at hi ⊢
          rw [hrest _ (by omega)]
          exact invariant_row N node _ c (.inl rfl) hsd J detJ hdet h0 _ ha hgood (hi q hq)

/-! ### Concrete cases

A scalar function is given by its values at ten places. All edges have the tangent `(3, 4)` and the normal `(4, -3)`. -/

namespace StressCases

def J21 : Nat → Nat → ℚ := fun i j => if i ≤ j then (if i = 0 ∧ j = 0 then 2 else 1) else 0

theorem det_J21 : (2 : ℚ) = det 2 J21 := by
  rw [det, Matrix.det_fin_two]; norm_num [J21]

def edges34 : Facets ℚ := ⟨2, 3, fun _ _ i => if i = 0 then 3 else 4, fun _ => 5⟩

theorem edges34_good (f : Nat) : GoodFacet 2 (edges34.tangent f) (edges34.norm f) :=
  ⟨fun _ => ⟨by norm_num [edges34], by norm_num [edges34, inner, Finset.sum_range_succ]⟩, fun h => absurd h (by decide)⟩

abbrev Tab : Type := Fin 10 → ℚ

def at' (m : Fin 10) : Tab →ₗ[ℚ] ℚ := LinearMap.proj m

/-- `v · σ w` at a place. -/
def form (m : Fin 10) (v w : Fin 2 → ℚ) : (Fin 2 → Fin 2 → Tab) →ₗ[ℚ] ℚ where
  toFun S := ∑ i, ∑ j, v i * w j * S i j m
  map_add' S T := by simp only [Pi.add_apply, mul_add, Finset.sum_add_distrib]
  map_smul' c S := by
    simp only [Pi.smul_apply, smul_eq_mul, RingHom.id_apply, Finset.mul_sum]
    exact Finset.sum_congr rfl fun i _ => Finset.sum_congr rfl fun j _ => by ring

/-- The symmetric tensor with entries `a`, `b`, `c` at place `m`. -/
def tensor (m : Fin 10) (a b c : ℚ) : Fin 2 → Fin 2 → Tab :=
  fun i j q => if q = m then (if i = 0 ∧ j = 0 then a else if i = 1 ∧ j = 1 then c else b) else 0

/-- `n nᵀ`, `n tᵀ + t nᵀ`, `t tᵀ`, over 625. -/
def framed (m : Fin 10) : Nat → Fin 2 → Fin 2 → Tab
  | 0 => tensor m (16 / 625) (-12 / 625) (9 / 625)
  | 1 => tensor m (24 / 625) (7 / 625) (-24 / 625)
  | _ => tensor m (9 / 625) (12 / 625) (16 / 625)

theorem tensor_symm (m : Fin 10) (a b c : ℚ) (i j : Fin 2) : tensor m a b c i j = tensor m a b c j i := by
  funext q
  fin_cases i <;> fin_cases j <;> rfl

theorem framed_symm (m : Fin 10) (k : Nat) (i j : Fin 2) : framed m k i j = framed m k j i := by
  match k with
  | 0 => exact tensor_symm _ _ _ _ _ _
  | 1 => exact tensor_symm _ _ _ _ _ _
  | k + 2 => exact tensor_symm _ _ _ _ _ _

/-- Tangential-tangential components, a node that is not on the edges. -/
def tt (m : Fin 10) : SNode ℚ Tab 2 := .other (form m ![3, 4] ![3, 4])

/-- Two places on each edge. -/
def ncNode (k : Nat) : SNode ℚ Tab 2 :=
  if k < 12 then .facet (k / 4) (at' (Fin.ofNat 10 (k / 2))) (k % 2) else tt (Fin.ofNat 10 (k - 12))

def ncBasis (k : Nat) : Fin 2 → Fin 2 → Tab :=
  if k < 12 then framed (Fin.ofNat 10 (k / 2)) (k % 2) else framed (Fin.ofNat 10 (k - 12)) 2

theorem nc_nodal : Nodal 18 (refStress edges34.tangent ncNode) ncBasis := by
  unfold Nodal
  decide +kernel

theorem nc_tractions : TractionsAt ncNode 3 2 0 := by
  intro f hf i hi
  refine ⟨at' (Fin.ofNat 10 (2 * f + i)), fun c hc => ?_⟩
  unfold ncNode
  rw [if_pos (by omega)]
  congr 1
  · omega
  · congr 2; omega
  · omega

theorem nc_rest (k : Nat) (h : 12 ≤ k) : Invariant ncNode 3 k :=
  .inr ⟨_, by unfold ncNode; rw [if_neg (by omega)]; rfl⟩

theorem nc_symm (k : Nat) (i j : Fin 2) : ncBasis k i j = ncBasis k j i := by
  unfold ncBasis
  split <;> exact framed_symm _ _ _ _

example := C63_arnoldWintherNC edges34 rfl rfl J21 2 det_J21 (by norm_num) (fun f _ => edges34_good f) ncNode
  nc_tractions (fun k _ h => nc_rest k h) (fun _ => 1) ncBasis (fun k _ i j => nc_symm k i j) nc_nodal

example := C63_johnsonMercier (.inl rfl) edges34 rfl J21 2 det_J21 (by norm_num) (fun f _ => edges34_good f) 2 18 15
  (by decide) (by decide) ncNode nc_tractions (fun k _ h => nc_rest k h) (fun _ => 1) ncBasis
  (fun k _ i j => nc_symm k i j) nc_nodal

/-- Three vertices (places 6, 7, 8), two places on each edge, and in the interior place 9. -/
def awNode (k : Nat) : SNode ℚ Tab 2 :=
  if k < 9 then .component (some (k / 3)) (at' (Fin.ofNat 10 (6 + k / 3))) (if k % 3 = 2 then 1 else 0)
    (if k % 3 = 0 then 0 else 1)
  else if k < 21 then ncNode (k - 9)
  else if k < 27 then tt (Fin.ofNat 10 (k - 21))
  else .other (form 9 (if k = 29 then ![0, 1] else ![1, 0]) (if k = 27 then ![1, 0] else ![0, 1]))

def unit (m : Fin 10) : Nat → Fin 2 → Fin 2 → Tab
  | 0 => tensor m 1 0 0
  | 1 => tensor m 0 1 0
  | _ => tensor m 0 0 1

theorem unit_symm (m : Fin 10) (k : Nat) (i j : Fin 2) : unit m k i j = unit m k j i := by
  match k with
  | 0 => exact tensor_symm _ _ _ _ _ _
  | 1 => exact tensor_symm _ _ _ _ _ _
  | k + 2 => exact tensor_symm _ _ _ _ _ _

def awBasis (k : Nat) : Fin 2 → Fin 2 → Tab :=
  if k < 9 then unit (Fin.ofNat 10 (6 + k / 3)) (k % 3)
  else if k < 21 then ncBasis (k - 9)
  else if k < 27 then framed (Fin.ofNat 10 (k - 21)) 2
  else unit 9 (k - 27)

theorem aw_nodal : Nodal 30 (refStress edges34.tangent awNode) awBasis := by
  unfold Nodal
  decide +kernel

theorem aw_vertices (v : Nat) (hv : v < 3) : ComponentsAt awNode (some v) (3 * v) := by
  refine ⟨at' (Fin.ofNat 10 (6 + v)), fun q hq => ⟨if q = 2 then 1 else 0, if q = 0 then 0 else 1, ?_, ?_⟩⟩
  · rw [show (pairs 2).length = 3 by decide] at hq
    interval_cases q <;> rfl
  · rw [show (pairs 2).length = 3 by decide] at hq
    unfold awNode
    rw [if_pos (by omega), show (3 * v + q) / 3 = v by omega, show (3 * v + q) % 3 = q by omega]

theorem aw_tractions : TractionsAt awNode 3 2 9 := by
  intro f hf i hi
  obtain ⟨l, hl⟩ := nc_tractions f hf i hi
  refine ⟨l, fun c hc => ?_⟩
  rw [← hl c hc]
  unfold awNode
  rw [if_neg (by omega), if_pos (by omega)]
  congr 1; omega

theorem aw_symm (k : Nat) (i j : Fin 2) : awBasis k i j = awBasis k j i := by
  unfold awBasis
  split
  · exact unit_symm _ _ _ _
  split
  · exact nc_symm _ _ _
  split
  · exact framed_symm _ _ _ _
  · exact unit_symm _ _ _ _

theorem aw_rest (k : Nat) (h : 21 ≤ k) : Invariant awNode 3 k := by
  refine .inr ?_
  unfold awNode
  rw [if_neg (by omega), if_neg (by omega)]
  split <;> exact ⟨_, rfl⟩

example := C63_arnoldWinther edges34 rfl rfl J21 2 det_J21 (by norm_num) (fun f _ => edges34_good f)
  (fun v => v + 2) (by intro v _; positivity) awNode aw_vertices aw_tractions (fun k _ h => aw_rest k h) awBasis
  (fun k _ i j => aw_symm k i j) aw_nodal

example := C63_huZhang edges34 rfl rfl J21 2 det_J21 (by norm_num) (fun f _ => edges34_good f)
  (fun v => v + 2) (by intro v _; positivity) 2 3 30 rfl false awNode aw_vertices aw_tractions
  (fun g _ q _ => aw_rest _ (by omega)) awBasis
  (fun k _ i j => aw_symm k i j) aw_nodal

/-- The point variant with place 9 in the interior. -/
def hzNode (k : Nat) : SNode ℚ Tab 2 :=
  if k < 21 then awNode k
  else .component none (at' 9) (if k = 23 then 1 else 0) (if k = 21 then 0 else 1)

def hzBasis (k : Nat) : Fin 2 → Fin 2 → Tab := if k < 21 then awBasis k else unit 9 (k - 21)

theorem hz_nodal : Nodal 24 (refStress edges34.tangent hzNode) hzBasis := by
  unfold Nodal
  decide +kernel

example := C63_huZhang edges34 rfl rfl J21 2 det_J21 (by norm_num) (fun f _ => edges34_good f)
  (fun v => v + 2) (by intro v _; positivity) 2 1 24 rfl true hzNode
  (fun v hv => by
    obtain ⟨l, hl⟩ := aw_vertices v hv
    refine ⟨l, fun q hq => ?_⟩
    obtain ⟨i, j, h1, h2⟩ := hl q hq
    rw [show (pairs 2).length = 3 by decide] at hq
    exact ⟨i, j, h1, by unfold hzNode; rw [if_pos (by omega), h2]⟩)
  (fun f hf i hi => by
    obtain ⟨l, hl⟩ := aw_tractions f hf i hi
    exact ⟨l, fun c hc => by unfold hzNode; rw [if_pos (by omega), hl c hc]⟩)
  (fun g hg => by
    obtain rfl : g = 0 := by omega
    refine ⟨at' 9, fun q hq => ⟨if q = 2 then 1 else 0, if q = 0 then 0 else 1, ?_, ?_⟩⟩
    · rw [show (pairs 2).length = 3 by decide] at hq
      interval_cases q <;> rfl
    · rw [show (pairs 2).length = 3 by decide] at hq
      interval_cases q <;> rfl) hzBasis
  (fun k _ i j => by
    unfold hzBasis
    split
    · exact aw_symm _ _ _
    · exact unit_symm _ _ _ _) hz_nodal

end StressCases

end FInAT.Props
