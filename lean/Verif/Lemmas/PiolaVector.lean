import Verif.Lemmas.PiolaNodes
import Verif.Lemmas.ReducedLayout

/-!
# Rows of the matrices of the vector valued elements
-/

namespace FInAT.PiolaNodes

open Finset FInAT.Piola FInAT.Zany FInAT.Stress FInAT.Spec.PiolaNodes FInAT.Spec.Zany

variable {K A : Type} [Field K] [AddCommGroup A] [Module K A] {d : Nat}

/-! ### Writes -/

theorem act_writes' (N : Nat) (n : Nat → K) (l : List (Nat × K)) (r : Nat → K)
    (hnd : (l.map Prod.fst).Nodup) (hN : ∀ p ∈ l, p.1 < N) :
    act N (writes l r) n = act N r n + (l.map fun p => (p.2 - r p.1) * n p.1).sum := by
  unfold writes
  induction l generalizing r with
  | nil => simp
  | cons p l ih =>
    rw [List.map_cons, List.nodup_cons] at hnd
    rw [List.foldl_cons, ih _ hnd.2 (fun x hx => hN x (List.mem_cons_of_mem _ hx)),
      act_update _ _ _ _ _ (hN p (by simp)), List.map_cons, List.sum_cons, add_assoc]
    congr 2
    refine congrArg List.sum (List.map_congr_left fun x hx => ?_)
    rw [Function.update_of_ne]
    intro he
    exact hnd.1 (he ▸ List.mem_map_of_mem hx)

theorem sum_zipIdx (s : List Nat) (k : Nat) (F : Nat × Nat → K) :
    ((s.zipIdx k).map F).sum = ∑ j ∈ range s.length, F (s.getD j 0, k + j) := by
  induction s generalizing k with
  | nil => simp
  | cons a s ih =>
    rw [List.zipIdx_cons, List.map_cons, List.sum_cons, ih, List.length_cons, Finset.sum_range_succ', add_comm]
    congr 1
    refine Finset.sum_congr rfl fun j _ => ?_
    rw [List.getD_cons_succ]
    congr 2; omega

theorem sum_delta_nodup (s : List Nat) (a : Nat) (n : Nat → K) (hs : s.Nodup) (ha : a ∈ s) :
    (s.map fun x => (if a = x then (1 : K) else 0) * n x).sum = n a := by
  induction s with
  | nil => simp at ha
  | cons x s ih =>
    rw [List.nodup_cons] at hs
    rw [List.map_cons, List.sum_cons]
    by_cases h : a = x
    · subst h
      have : (s.map fun x => (if a = x then (1 : K) else 0) * n x) = s.map fun _ => 0 :=
        List.map_congr_left fun y hy => by
          rw [if_neg (by rintro rfl; exact hs.1 hy), zero_mul]
      rw [this]; simp
    · rw [if_neg h, zero_mul, zero_add]
      exact ih hs.2 ((List.mem_cons.1 ha).resolve_left h)

/-- The writes of row `i` of a block with columns `cs`. -/
def blockWrites (cs : List Nat) (B : Nat → K) : List (Nat × K) := cs.zipIdx.map fun p => (p.1, B p.2)

omit [Field K] in
theorem blockWrites_fst (cs : List Nat) (B : Nat → K) : (blockWrites cs B).map Prod.fst = cs := by
  unfold blockWrites
  rw [List.map_map]
  exact List.zipIdx_map_fst 0 cs

theorem act_blockWrites (N : Nat) (n : Nat → K) (s : List Nat) (hs : s.Nodup) (hN : ∀ x ∈ s, x < N) (a : Nat)
    (ha : a ∈ s) (B : Nat → K) :
    act N (writes (blockWrites s B) fun b => if a = b then 1 else 0) n =
      ∑ j ∈ range s.length, B j * n (s.getD j 0) := by
  rw [act_writes', act_delta N n a (hN a ha)]
  · unfold blockWrites
    rw [List.map_map, sum_zipIdx]
    simp only [Function.comp, Nat.zero_add]
    have h2 : ∑ j ∈ range s.length, (if a = s.getD j 0 then (1 : K) else 0) * n (s.getD j 0) = n a := by
      rw [← sum_delta_nodup s a n hs ha]
      have := sum_zipIdx s 0 fun p => (if a = p.1 then (1 : K) else 0) * n p.1
      rw [← this]
      conv_rhs => rw [← List.zipIdx_map_fst 0 s]
      rw [List.map_map]; rfl
    rw [← h2, ← Finset.sum_add_distrib]
    refine Finset.sum_congr rfl fun j _ => by ring
  · rw [blockWrites_fst]; exact hs
  · intro p hp
    refine hN _ ?_
    rw [← blockWrites_fst s B]
    exact List.mem_map_of_mem hp

omit [Field K] in
theorem inner_writes (cs : List Nat) (k r : Nat) (B : Nat → K) (V : Arr K) (a : Nat) :
    ((cs.zipIdx k).foldl (fun V (cj : Nat × Nat) => V.set r cj.1 (B cj.2)) V).get a =
      if a = r then writes ((cs.zipIdx k).map fun p => (p.1, B p.2)) (V.get a) else V.get a := by
  induction cs generalizing k V with
  | nil => simp [writes]
  | cons c cs ih =>
    rw [List.zipIdx_cons, List.foldl_cons, ih]
    by_cases h : a = r
    · simp only [if_pos h, writes, List.map_cons, List.foldl_cons, Arr.set]
    · simp only [if_neg h, Arr.set]

omit [Field K] in
theorem setIx_get (V : Arr K) (rs cs : List Nat) (B : NMat K) (hrs : rs.Nodup) :
    (∀ i < rs.length, (setIx V rs cs B).get (rs.getD i 0) = writes (blockWrites cs (B i)) (V.get (rs.getD i 0))) ∧
      ∀ a ∉ rs, (setIx V rs cs B).get a = V.get a := by
  unfold setIx
  have key := foldl_rows (fun (V : Arr K) (ri : Nat × Nat) =>
      cs.zipIdx.foldl (fun V (cj : Nat × Nat) => V.set ri.1 cj.1 (B ri.2 cj.2)) V) (fun ri a => a = ri.1)
    (fun ri _ r => writes (blockWrites cs (B ri.2)) r) rs.zipIdx
    (fun V ri _ a ha => by rw [inner_writes cs 0 ri.1 (B ri.2) V a, if_pos ha]; rfl)
    (fun V ri _ a ha => by rw [inner_writes cs 0 ri.1 (B ri.2) V a, if_neg ha])
    (by
      have h := (List.pairwise_map (f := Prod.fst) (l := rs.zipIdx) (R := (· ≠ ·))).1
        (by rw [List.zipIdx_map_fst]; exact hrs)
      exact h.imp fun {x y} hne a (hx : a = x.1) (hy : a = y.1) => hne (hx.symm.trans hy)) V
  refine ⟨fun i hi => ?_, fun a ha => key.2 a fun ri hri he => ha ?_⟩
  · refine key.1 (rs.getD i 0, i) ?_ _ rfl
    rw [List.getD_eq_getElem?_getD, List.getElem?_eq_getElem hi, Option.getD_some]
    rw [List.mem_zipIdx_iff_getElem?]
    exact List.getElem?_eq_getElem hi
  · rw [he]
    exact List.fst_mem_of_mem_zipIdx hri

/-! ### Rows that express the reference nodes by the physical ones -/

/-- Row `r` expresses node `a` on the reference cell by the nodes on the physical cell. -/
def RowOK (N : Nat) (node : Nat → Node K A d) (t : Nat → Nat → Nat → K) (D D' : Fin d → A →ₗ[K] A)
    (J : Nat → Nat → K) (detJ : K) (a : Nat) (r : Nat → K) : Prop :=
  ∀ u : Fin d → A, (node a).value t D id u =
    act N r fun k => (node k).value (images d J t) D' (piolaPull J detJ) (piolaPush J detJ u)

theorem rowOK_other (N : Nat) (node : Nat → Node K A d) (t : Nat → Nat → Nat → K) (D D' : Fin d → A →ₗ[K] A)
    (J : Nat → Nat → K) (detJ : K) (hdet : detJ = Props.det d J) (h0 : detJ ≠ 0) (a : Nat) (ha : a < N)
    (l : (Fin d → A) →ₗ[K] K) (hl : node a = .other l) :
    RowOK N node t D D' J detJ a fun b => if a = b then 1 else 0 := by
  intro u
  rw [act_delta N _ a ha, hl]
  simp only [Node.value]
  rw [pull_push J detJ hdet h0]; rfl

theorem rowOK_normal [LinearOrder K] [IsStrictOrderedRing K] (N : Nat) (node : Nat → Node K A d) (c : Facets K)
    (hd : d = 2 ∨ d = 3) (hsd : c.sd = d) (D D' : Fin d → A →ₗ[K] A)
    (J : Nat → Nat → K) (detJ : K) (hdet : detJ = Props.det d J) (h0 : detJ ≠ 0) (a : Nat) (ha : a < N) (f : Nat)
    (hf : GoodFacet d (c.tangent f) (c.norm f)) (l : A →ₗ[K] K) (hl : node a = .facet f l 0) :
    RowOK N node c.tangent D D' J detJ a fun b => if a = b then 1 else 0 := by
  intro u
  rw [act_delta N _ a ha, hl]
  exact (facet_row c hd hsd J detJ hdet h0 f hf l u).2

theorem getD_map_node (s : List Nat) (node : Nat → Node K A d) (G : List (Node K A d)) (h : s.map node = G) (j : Nat)
    (hj : j < s.length) : G[j]? = some (node (s.getD j 0)) := by
  rw [← h, List.getElem?_map, List.getElem?_eq_getElem hj, List.getD_eq_getElem?_getD, List.getElem?_eq_getElem hj]
  rfl

/-- The loop over the degrees of freedom of an entity. -/
theorem undoPiola_rows (hd : 0 < d) (N : Nat) (node : Nat → Node K A d) (deriv : Nat → Bool)
    (t : Nat → Nat → Nat → K) (D D' : Fin d → A →ₗ[K] A) (J : Nat → Nat → K) (detJ : K)
    (hdet : detJ = Props.det d J) (h0 : detJ ≠ 0) (hD : ∀ i a, D i a = ∑ k : Fin d, J k i • D' k a)
    (gs : List (Group K A)) (l : List Nat) (hl : l.map node = gs.flatMap (Group.nodes d))
    (hder : ∀ a ∈ l, deriv a = true ↔ ∃ m, node a = .divergence m) (hnd : l.Nodup) (hN : ∀ a ∈ l, a < N) (n : Nat)
    (hn : l.length ≤ n) (V : Arr K) :
    (∀ a ∉ l, (undoPiola d (piolaInverse d J detJ) detJ deriv n l V).get a = V.get a) ∧
      ∀ a ∈ l, (V.get a = fun b => if a = b then 1 else 0) →
        RowOK N node t D D' J detJ a ((undoPiola d (piolaInverse d J detJ) detJ deriv n l V).get a) := by
  induction gs generalizing l n V with
  | nil =>
    have : l = [] := by simpa using hl
    subst this
    refine ⟨fun a _ => ?_, fun a ha => absurd ha (by simp)⟩
    cases n <;> rfl
  | cons g gs ih =>
    rw [List.flatMap_cons] at hl
    cases g with
    | divergence m =>
      obtain ⟨a, rest, rfl, hm, hr⟩ := List.map_eq_cons_iff.1 hl
      rw [List.nodup_cons] at hnd
      obtain ⟨n, rfl⟩ : ∃ n', n = n' + 1 := ⟨n - 1, by simp only [List.length_cons] at hn; omega⟩
      have hda : deriv a = true := (hder a (by simp)).2 ⟨m, hm⟩
      rw [show undoPiola d (piolaInverse d J detJ) detJ deriv (n + 1) (a :: rest) V =
        undoPiola d (piolaInverse d J detJ) detJ deriv n rest (V.set a a detJ) by rw [undoPiola, if_pos hda]]
      obtain ⟨i1, i2⟩ := ih rest hr (fun x hx => hder x (List.mem_cons_of_mem _ hx)) hnd.2
        (fun x hx => hN x (List.mem_cons_of_mem _ hx)) n (by simp only [List.length_cons] at hn; omega) (V.set a a detJ)
      have hset : ∀ x, x ≠ a → (V.set a a detJ).get x = V.get x := fun x hx => by simp [Arr.set, hx]
      refine ⟨fun x hx => ?_, fun x hx hV => ?_⟩
      · rw [List.mem_cons, not_or] at hx
        rw [i1 x hx.2, hset x hx.1]
      · rcases List.mem_cons.1 hx with rfl | hx'
        · rw [i1 x hnd.1]
          intro u
          rw [show (V.set x x detJ).get x = Function.update (V.get x) x detJ by simp [Arr.set], hV,
            act_update _ _ _ _ _ (hN x (by simp)), act_delta N _ x (hN x (by simp)), if_pos rfl, hm]
          simp only [Node.value]
          rw [divergence_row m J detJ h0 D D' hD u]
          ring
        · refine i2 x hx' ?_
          rw [hset x (by rintro rfl; exact hnd.1 hx'), hV]
    | vector m =>
      obtain ⟨s, rest, rfl, hm, hr⟩ := List.map_eq_append_iff.1 hl
      rw [List.nodup_append] at hnd
      have hlen : s.length = d := by
        have := congrArg List.length hm
        simpa [Group.nodes] using this
      have hnode : ∀ j (hj : j < d), node (s.getD j 0) = .component m ⟨j, hj⟩ := by
        intro j hj
        have h1 := getD_map_node s node _ hm j (by omega)
        simp only [Group.nodes, List.getElem?_map] at h1
        rw [List.getElem?_eq_getElem (by simpa using hj)] at h1
        simpa using h1.symm
      obtain ⟨n, rfl⟩ : ∃ n', n = n' + 1 := ⟨n - 1, by rw [List.length_append] at hn; omega⟩
      obtain ⟨a0, s', hs⟩ : ∃ a0 s', s = a0 :: s' := by
        cases s with
        | nil => simp at hlen; omega
        | cons a0 s' => exact ⟨a0, s', rfl⟩
      have hd0 : deriv a0 = false := by
        rw [Bool.eq_false_iff]
        intro h
        obtain ⟨m', hm'⟩ := (hder a0 (by rw [hs]; simp)).1 h
        have := hnode 0 hd
        rw [hs, List.getD_cons_zero, hm'] at this
        exact absurd this (by simp)
      have hstep : undoPiola d (piolaInverse d J detJ) detJ deriv (n + 1) (s ++ rest) V =
          undoPiola d (piolaInverse d J detJ) detJ deriv n rest (setIx V s s (piolaInverse d J detJ)) := by
        rw [hs, List.cons_append, undoPiola, hd0]
        simp only [Bool.false_eq_true, if_false]
        rw [← List.cons_append, ← hs, ← hlen, List.take_left', List.drop_left'] <;> rfl
      rw [hstep]
      obtain ⟨i1, i2⟩ := ih rest hr (fun x hx => hder x (List.mem_append_right _ hx)) hnd.2.1
        (fun x hx => hN x (List.mem_append_right _ hx)) n (by rw [List.length_append] at hn; omega)
        (setIx V s s (piolaInverse d J detJ))
      obtain ⟨g1, g2⟩ := setIx_get V s s (piolaInverse d J detJ) hnd.1
      refine ⟨fun x hx => ?_, fun x hx hV => ?_⟩
      · rw [List.mem_append, not_or] at hx
        rw [i1 x hx.2, g2 x hx.1]
      · rcases List.mem_append.1 hx with hx' | hx'
        · rw [i1 x fun h => hnd.2.2 x hx' x h rfl]
          obtain ⟨i, hi, rfl⟩ := List.mem_iff_getElem.1 hx'
          have hgi : s[i] = s.getD i 0 := by
            rw [List.getD_eq_getElem?_getD, List.getElem?_eq_getElem hi]; rfl
          rw [hgi] at hV hx' ⊢
          rw [g1 i hi, hV]
          intro u
          rw [act_blockWrites N _ s hnd.1 (fun x hx => hN x (List.mem_append_left _ hx)) _ hx', hlen,
            hnode i (by omega)]
          simp only [Node.value]
          rw [component_row m J detJ hdet h0 u ⟨i, by omega⟩, Finset.sum_range]
          refine Finset.sum_congr rfl fun j _ => ?_
          rw [hnode j j.2]
        · refine i2 x hx' ?_
          rw [g2 x fun h => hnd.2.2 x h x hx' rfl, hV]

/-- From rows to basis functions. -/
theorem vector_nodal (N M : Nat) (hM : M ≤ N) (node : Nat → Node K A d) (t : Nat → Nat → Nat → K)
    (D D' : Fin d → A →ₗ[K] A) (J : Nat → Nat → K) (detJ : K) (hdet : detJ = Props.det d J) (h0 : detJ ≠ 0)
    (V : Nat → Nat → K)
    (hrow : ∀ a < N, ∃ r, (∀ b < M, r b = V a b) ∧ RowOK N node t D D' J detJ a r) (φ : Nat → Fin d → A)
    (hφ : Nodal N (fun k => (node k).value t D id) φ) (k : Nat) (hk : k < N) (i : Nat) (hi : i < M) :
    (node k).value (images d J t) D' (piolaPull J detJ) (vectorBasis N (fun i j => V j i) J detJ φ i) =
      if k = i then 1 else 0 := by
  choose! r hr using hrow
  have hlin : ∀ k, IsLinearMap K ((node k).value (images d J t) D' (piolaPull J detJ)) := by
    intro k
    have hpa : ∀ u v : Fin d → A, piolaPull J detJ (u + v) = piolaPull J detJ u + piolaPull J detJ v := by
      intro u v; funext i
      simp only [piolaPull, Pi.add_apply, smul_add, Finset.sum_add_distrib]
    have hps : ∀ (c : K) (u : Fin d → A), piolaPull J detJ (c • u) = c • piolaPull J detJ u := by
      intro c u; funext i
      simp only [piolaPull, Pi.smul_apply, Finset.smul_sum]
      exact Finset.sum_congr rfl fun j _ => smul_comm _ _ _
    have hda : ∀ (v : Nat → K) (u w : Fin d → A), dotWith v (u + w) = dotWith v u + dotWith v w := by
      intro v u w; simp only [dotWith, Pi.add_apply, smul_add, Finset.sum_add_distrib]
    have hds : ∀ (v : Nat → K) (c : K) (u : Fin d → A), dotWith v (c • u) = c • dotWith v u := by
      intro v c u
      simp only [dotWith, Pi.smul_apply, Finset.smul_sum]
      exact Finset.sum_congr rfl fun j _ => smul_comm _ _ _
    rcases hnk : node k with ⟨l, c⟩ | ⟨l⟩ | ⟨f, l, c⟩ | ⟨l⟩ <;> refine ⟨fun u v => ?_, fun c u => ?_⟩ <;>
      simp only [Node.value, Pi.add_apply, Pi.smul_apply, map_add, map_smul, Finset.sum_add_distrib,
        ← Finset.smul_sum, smul_eq_mul, hpa, hps, hda, hds]
  have key := nodal_transpose N r _ hlin (fun k => (node k).value t D id) (piolaPull J detJ)
    (fun j => piolaPush J detJ (φ j)) (fun i hi j hj => by
      rw [pull_push J detJ hdet h0]
      exact (hr i hi).2 (φ j)) (by
      intro i hi j hj
      have := hφ i hi j hj
      simp only [pull_push J detJ hdet h0]
      exact this)
  have h1 := key k hk i (by omega)
  rw [← h1]
  unfold vectorBasis
  congr 1
  exact Finset.sum_congr rfl fun j hj => by rw [(hr j (Finset.mem_range.1 hj)).1 i hi]

end FInAT.PiolaNodes
