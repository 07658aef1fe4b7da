import Verif.Lemmas.EntityPoint
import Verif.Props.TabExamples

/-!
# C103: tabulating on an entity is tabulating on the cell at the points of the entity
-/

namespace FInAT.Props

open FInAT FInAT.Spec Elem

section
variable {K : Type} [CommRing K] {P : Type} {I : Interp K P} {φ : LeafVals K}

/-- **C103**, for any kind of points (`basis_evaluation` at point sets, `point_evaluation` at symbolic points):
if `p` and `q` are accepted on the entity and on the cell, then wherever the point selected from `q` is the
place in the cell of the point selected from `p`, the two tables have the same entries. -/
theorem C103_any_points (S : Sem I φ) (σ : Nat → Nat → Nat → List K → List K) (hσ : SimplexPoints σ) (e : Elem)
    (hs : Shaped e) (order : Nat) (p q : P) (ent : Dim × Nat) (c : Cell) (vs : List Nat) (n m : Nat)
    (hp : S.wf n p) (hq : S.wf n q) (hm : n ≤ m) (hc : e.cell = .ok c) (hv : e.valueShape = .ok vs)
    (hstd : StandardCubes e) (hl : AllLeaves (LeafAtPoint φ σ) e) (hent : IsEntity c ent)
    (ha : Admits S order e p ent) (hb : Admits S order e q (c.dimension, 0)) :
    Yields (evaluate I e order p (some ent)) m fun T => Yields (evaluate I e order q none) m fun T' =>
      (∀ α, α ∈ T.keys ↔ α ∈ T'.keys) ∧
      ∀ α t t', T.get? α = some t → T'.get? α = some t' → ∀ ρ ρ' i z, S.valid p ρ → S.valid q ρ' →
        (S.at_ p ρ).length = ent.1.total → S.at_ q ρ' = entityPoint σ c ent (S.at_ p ρ) →
        InRange i e.indexShape → InRange z vs → t.eval ρ (i ++ z) = t'.eval ρ' (i ++ z) := by
  obtain ⟨T, k, h1, hT⟩ := tabulation S e hs order p (some ent) c vs n m hp hm hc hv ha
  obtain ⟨T', k', h1', hT'⟩ := tabulation S e hs order q none c vs n m hq hm hc hv hb
  refine ⟨T, k, h1, T', k', h1', fun α => (hT.keys α).trans (hT'.keys α).symm, ?_⟩
  intro α t t' ht ht' ρ ρ' i z hV hV' hlen hat hi hz
  rw [hT.value α t ht ρ i z hV hi hz, hT'.value α t' ht' ρ' i z hV' hi hz, hat]
  exact basisValue_entity hσ α i z hstd hl hc hent hlen

end

section
variable {K : Type} [CommRing K] [DecidableEq K]

theorem leafAtPoint_of {F : Fiat K} {R : Rules K} {σ : Nat → Nat → Nat → List K → List K} {l : Leaf}
    (h : TabulatesAtPoint σ F l) : LeafAtPoint (leafVals F R) σ l := by
  intro α ent x i z ⟨n, hn, hk⟩ hx
  simp only [leafVals, leafFn]
  cases F.mapped l with
  | none => exact h α ent n x _ z hn hk hx
  | some m =>
    simp only
    congr 1
    exact List.map_congr_left fun j _ => by rw [h α ent n x j z hn hk hx]

theorem standard_cubes : ∀ {e : Elem}, StandardCubes e → Cubes e := by
  intro e
  refine Elem.rec (motive_1 := fun e => StandardCubes e → Cubes e)
    (motive_2 := fun es => StandardCubesL es → CubesL es) ?_ ?_ ?_ ?_ ?_ ?_ ?_ ?_ ?_ ?_ ?_ ?_ e
  · intros; simp only [Cubes]
  · intro fs ih h; simp only [StandardCubes] at h; simp only [Cubes]; exact ih h
  · intro p ih h; simp only [StandardCubes] at h; simp only [Cubes]
    exact ⟨ih h.1, fun c hc => isCube_standard (h.2 c hc)⟩
  · intro fs ih h; simp only [StandardCubes] at h; simp only [Cubes]; exact ih h
  · intro e _ _ ih h; simp only [StandardCubes] at h; simp only [Cubes]; exact ih h
  · intro e ih h; simp only [StandardCubes] at h; simp only [Cubes]; exact ih h
  · intro e _ _ ih h; simp only [StandardCubes] at h; simp only [Cubes]; exact ih h
  · intro e ih h; simp only [StandardCubes] at h; simp only [Cubes]; exact ih h
  · intro e ih h; simp only [StandardCubes] at h; simp only [Cubes]; exact ih h
  · intros; simp only [Cubes]
  · intros; simp only [CubesL]
  · intro e es ih1 ih2 h; simp only [StandardCubesL] at h; simp only [CubesL]; exact ⟨ih1 h.1, ih2 h.2⟩

/-- **C103.** `basis_evaluation` on an entity, at unstructured points `pts` of the entity, and
`basis_evaluation` on the cell, at the places of these points in the cell, both succeed and give tables with
the same derivatives and the same entries, for every basis function, component and point. -/
theorem C103_entity_partial (F : Fiat K) (R : Rules K) (σ : Nat → Nat → Nat → List K → List K) (hσ : SimplexPoints σ)
    (e : Elem) (c : Cell) (vs : List Nat) (order n : Nat) (ent : Dim × Nat) (pts : List (List K)) (idx : List Index)
    (hs : Shaped e) (hstd : StandardCubes e)
    (hl : AllLeaves (fun l => PlainLeafOK F order l ∧ TabulatesAtPoint σ F l) e)
    (hc : e.cell = .ok c) (hv : e.valueShape = .ok vs) (hent : ∃ k, (ent.1, k) ∈ c.topology ∧ ent.2 < k)
    (hw : (PSet.points .plain pts idx).WF n) (hne : pts ≠ []) (hd : ∀ pt ∈ pts, pt.length = ent.1.total) :
    Yields (evaluate (basisInterp F R) e order (.points .plain pts idx) (some ent)) n fun T =>
      Yields (evaluate (basisInterp F R) e order (.points .plain (pts.map (entityPoint σ c ent)) idx) none) n
        fun T' => (∀ α, α ∈ T.keys ↔ α ∈ T'.keys) ∧
          ∀ α t t', T.get? α = some t → T'.get? α = some t' → ∀ ρ i z,
            (PSet.points .plain pts idx).Valid ρ → InRange i e.indexShape → InRange z vs →
            t.eval ρ (i ++ z) = t'.eval ρ (i ++ z) := by
  have hlen : ∀ pt ∈ pts.map (entityPoint σ c ent), pt.length = c.spatialDim := by
    intro pt h
    obtain ⟨x, hx, rfl⟩ := List.mem_map.1 h
    exact entityPoint_length hσ hent (hd x hx)
  have hw' : (PSet.points .plain (pts.map (entityPoint σ c ent)) idx).WF n := by
    simp only [PSet.WF] at hw ⊢
    exact ⟨hw.1, by rw [List.length_map]; exact hw.2.1, c.spatialDim, hlen⟩
  have hcube := standard_cubes hstd
  have hpl := AllLeaves.imp (fun _ h => h.1) e hl
  have ha := admits_plain F R order e (.points .plain pts idx) ent c hcube hpl hc hent ⟨pts, idx, rfl, hne, hd⟩
  have hb := admits_plain F R order e (.points .plain (pts.map (entityPoint σ c ent)) idx) (c.dimension, 0) c hcube
    hpl hc ⟨1, c.dimension_mem, by simp⟩ ⟨_, _, rfl, by simpa using hne, by rw [Cell.total_dimension]; exact hlen⟩
  obtain ⟨T, k, h1, T', k', h1', hk, h⟩ := C103_any_points (basisSem F R) σ hσ e hs order
    (.points .plain pts idx) (.points .plain (pts.map (entityPoint σ c ent)) idx) ent c vs n n hw hw'
    (Nat.le_refl _) hc hv hstd (AllLeaves.imp (fun _ h => leafAtPoint_of h.2) e hl) hent ha hb
  refine ⟨T, k, h1, T', k', h1', hk, fun α t t' ht ht' ρ i z hV hi hz => ?_⟩
  have hV' : (PSet.points .plain (pts.map (entityPoint σ c ent)) idx).Valid ρ := hV
  have hm := PSet.pointAt_mem hw hV
  refine h α t t' ht ht' ρ ρ i z hV hV' (hd _ hm) ?_ hi hz
  show PSet.pointAt ρ _ = entityPoint σ c ent (PSet.pointAt ρ _)
  have hp := (PSet.pts_at hw).2 hV
  have hp' := (PSet.pts_at hw').2 hV'
  simp only [PSet.pts, PSet.indices] at hp hp'
  rw [List.getElem?_map, hp, Option.map_some] at hp'
  exact (Option.some.inj hp').symm

/-- **C103**, polynomials: if the basis functions of the leaves are polynomials, `basis_evaluation` on an entity
gives the partial derivatives (with respect to the coordinates of the cell) of the composite polynomial at the
places of the points in the cell. -/
theorem C103_polynomial_partial (F : Fiat K) (R : Rules K) (Q : Leaf → Nat → List Nat → MvPolynomial ℕ K)
    (σ : Nat → Nat → Nat → List K → List K) (hσ : SimplexPoints σ)
    (e : Elem) (c : Cell) (vs : List Nat) (order n : Nat) (ent : Dim × Nat) (p : PSet K)
    (hs : Shaped e) (hstd : StandardCubes e)
    (hl : AllLeaves (fun l => (PlainLeafOK F order l ∧ LeafIsPoly (leafVals F R) Q l) ∧ TabulatesAtPoint σ F l) e)
    (hc : e.cell = .ok c) (hv : e.valueShape = .ok vs) (hent : ∃ k, (ent.1, k) ∈ c.topology ∧ ent.2 < k)
    (hw : p.WF n) (hp : PlainPoints p ent.1.total) :
    Yields (evaluate (basisInterp F R) e order p (some ent)) n fun T =>
      IsTable p.Valid T c.spatialDim order e.indexShape vs fun α ρ i z =>
        evalAt (entityPoint σ c ent (p.pointAt ρ)) (partialD 0 α (treePoly Q e i z)) := by
  have ha := admits_plain F R order e p ent c (standard_cubes hstd) (AllLeaves.imp (fun _ h => h.1.1) e hl) hc hent hp
  obtain ⟨T, n', h1, hT⟩ := tabulation (basisSem F R) e hs order p (some ent) c vs n n hw (Nat.le_refl n) hc hv ha
  refine ⟨T, n', h1, hT.once, hT.keys, hT.shape, ?_⟩
  intro α t ht ρ i z hV hi hz
  have hk : α ∈ T.keys := by rw [← Dict.get?_isSome_iff, ht]; rfl
  have hlen : (p.pointAt ρ).length = ent.1.total := by
    have hm := PSet.pointAt_mem hw hV
    obtain ⟨pts, idx, rfl, _, hd⟩ := hp
    exact hd _ hm
  rw [hT.value α t ht ρ i z hV hi hz]
  refine (basisValue_entity hσ α i z hstd (AllLeaves.imp (fun _ h => leafAtPoint_of h.2) e hl) hc hent hlen).trans ?_
  exact basisValue_poly Q e c (AllLeaves.imp (fun _ h => h.1.2) e hl) hc α _ i z ((hT.keys α).1 hk).1
    (entityPoint_length hσ hent hlen)

end

namespace EntityCases

/-- Vertices of the interval at 0 and 1; other simplices are not used in the examples. -/
def ufcPoint (n d i : Nat) (x : List ℤ) : List ℤ := if d = n then x else List.replicate n (i : ℤ)

theorem ufcPoint_ok : SimplexPoints ufcPoint := by
  intro n d i x _ hx
  unfold ufcPoint
  split
  · next h => rw [hx, h]
  · simp

theorem leaf_ok (l : Leaf) (hl : l.cell = .simplex 1) : TabulatesAtPoint ufcPoint exFiat l := by
  intro α ent n x i z hn hk hx
  obtain ⟨d, k⟩ := ent
  rw [hl] at hn
  have h : ∀ p ∈ (Cell.simplex 1).topology, p = (.int 0, 2) ∨ p = (.int 1, 1) := by decide +kernel
  rcases h _ hn with h | h
  · simp only [Prod.mk.injEq] at h
    obtain ⟨rfl, rfl⟩ := h
    rw [hl]
    rfl
  · simp only [Prod.mk.injEq] at h
    obtain ⟨rfl, rfl⟩ := h
    rw [hl]
    rfl

/-- A scalar element on the hexahedron, as extruded quadrilateral. -/
def extruded : Elem := .flattened (.tensorProduct [q2, .leaf cg1])

theorem standard_q2 : StandardCubes q2 := by
  simp only [q2, StandardCubes, StandardCubesL, true_and, and_true]
  intro c hc
  cases hc
  exact .inl rfl

theorem standard_extruded : StandardCubes extruded := by
  simp only [extruded, StandardCubes, StandardCubesL, standard_q2, true_and, and_true]
  intro c hc
  cases hc
  exact .inr (.inr rfl)

theorem shaped_extruded : Shaped extruded := by
  simp only [extruded, q2, Shaped, List.mem_cons, List.not_mem_nil, or_false, forall_eq_or_imp, forall_eq]
  simp

theorem leaves_extruded (order : Nat) : AllLeaves (fun l => (PlainLeafOK exFiat order l ∧
    LeafIsPoly (leafVals exFiat exRules) exPoly l) ∧ TabulatesAtPoint ufcPoint exFiat l) extruded := by
  have h1 := exLeaf order cg1 (.inl rfl)
  have h2 := exLeaf order cg2 (.inr (.inl rfl))
  simp only [extruded, q2, AllLeaves, AllLeavesL]
  exact ⟨⟨⟨h2, leaf_ok _ rfl⟩, ⟨h2, leaf_ok _ rfl⟩, trivial⟩, ⟨h1, leaf_ok _ rfl⟩, trivial⟩

/-- C103 applies to edge 2 of the hexahedron, which is the edge `(1, 0, x)`. -/
example (order : Nat) := C103_entity_partial exFiat exRules ufcPoint ufcPoint_ok extruded .hex [] order 1 (.int 1, 2)
  [[0], [5]] [⟨0, 2⟩] shaped_extruded standard_extruded
  (AllLeaves.imp (fun _ h => ⟨h.1.1, h.2⟩) _ (leaves_extruded order)) rfl rfl ⟨12, by decide, by decide⟩
  ⟨by simp, by decide, 1, by simp⟩ (by simp) (by simp; decide)
example (order : Nat) := C103_polynomial_partial exFiat exRules exPoly ufcPoint ufcPoint_ok extruded .hex [] order 1
  (.int 1, 2) edgePts shaped_extruded standard_extruded (leaves_extruded order) rfl rfl ⟨12, by decide, by decide⟩
  (by simp only [edgePts]; exact ⟨by simp, by decide, 1, by simp⟩) ⟨_, _, rfl, by simp, by simp; decide⟩
example (x : ℤ) : entityPoint ufcPoint .hex (.int 1, 2) [x] = [1, 0, x] := rfl

/-- The same space as interval x quadrilateral: the wrapped product has the factors in the other order. -/
def sideways : Elem := .tensorProduct [.leaf cg1, q2]

end EntityCases

/-- **C103**, limit: a flattened product of an interval and a quadrilateral (in this order) is an element on the
hexahedron, but the entities of its product cell are numbered differently: on edge 2, which is the edge
`(1, 0, x)` of the hexahedron, the product is tabulated on the edge `(0, x, 0)`. -/
theorem C103_sideways (x : ℤ) :
    (Elem.flattened EntityCases.sideways).cell = .ok .hex ∧
    EntityCases.sideways.cell = .ok (.prod [.simplex 1, .quad]) ∧
    entityPoint EntityCases.ufcPoint .hex (.int 1, 2) [x] = [1, 0, x] ∧
    entityPoint EntityCases.ufcPoint (.prod [.simplex 1, .quad])
      (productEnt EntityCases.sideways (.int 1, 2)) [x] = [0, x, 0] := by
  refine ⟨rfl, rfl, rfl, ?_⟩
  have h : productEnt EntityCases.sideways (.int 1, 2) = (.tup [.int 0, .int 1], 2) := by
    have : flattenedEntity (.prod [.simplex 1, .quad]) (some (1, 2)) = .ok (.tup [.int 0, .int 1], 2) := by
      decide +kernel
    have hc : EntityCases.sideways.cell = .ok (.prod [.simplex 1, .quad]) := rfl
    simp only [productEnt, unflattenEntity, hc, bind, Except.bind, this]
  rw [h]
  rfl

end FInAT.Props
