import Verif.Spec.EntityPoint
import Verif.Lemmas.Interpolate

/-!
# Tabulating on an entity is tabulating at the points of the entity in the cell
-/

namespace FInAT

open Spec Elem Props

variable {K : Type} {σ : Nat → Nat → Nat → List K → List K}

/-! ### Lengths -/

theorem axisPoint_length (hσ : SimplexPoints σ) : ∀ (as : List (Nat × Nat)) (x : List K),
    (∀ a ∈ as, a.1 ≤ 1) → x.length = (as.map Prod.fst).sum → (axisPoint σ as x).length = as.length
  | [], _, _, _ => rfl
  | a :: as, x, h1, hx => by
    simp only [List.map_cons, List.sum_cons] at hx
    simp only [axisPoint, List.length_append, List.length_cons]
    rw [hσ 1 a.1 a.2 _ (h1 a List.mem_cons_self) (by rw [List.length_take]; omega),
      axisPoint_length hσ as _ (fun b hb => h1 b (List.mem_cons_of_mem _ hb)) (by rw [List.length_drop]; omega)]
    omega

theorem axisPoint_append : ∀ (as bs : List (Nat × Nat)) (x : List K), axisPoint σ (as ++ bs) x =
    axisPoint σ as (x.take (as.map Prod.fst).sum) ++ axisPoint σ bs (x.drop (as.map Prod.fst).sum)
  | [], bs, x => by simp [axisPoint]
  | a :: as, bs, x => by
    simp only [List.cons_append, axisPoint, List.map_cons, List.sum_cons, axisPoint_append as bs, List.append_assoc,
      List.take_take, List.drop_drop, List.drop_take, Nat.add_sub_cancel_left]
    rw [Nat.min_eq_left (by omega)]

/-- The cube entities have the right dimension. -/
def cubeAxes (n t k : Nat) : List (Nat × Nat) := ((cubeEntities n t)[k]?).getD []

theorem quad_axes : ∀ p ∈ Cell.quad.topology, ∀ k < p.2, (cubeAxes 2 p.1.total k).length = 2 ∧
    (∀ a ∈ cubeAxes 2 p.1.total k, a.1 ≤ 1) ∧ ((cubeAxes 2 p.1.total k).map Prod.fst).sum = p.1.total := by
  decide +kernel

theorem hex_axes : ∀ p ∈ Cell.hex.topology, ∀ k < p.2, (cubeAxes 3 p.1.total k).length = 3 ∧
    (∀ a ∈ cubeAxes 3 p.1.total k, a.1 ≤ 1) ∧ ((cubeAxes 3 p.1.total k).map Prod.fst).sum = p.1.total := by
  decide +kernel

theorem entityPoint_prod {cs : List Cell} {ent : Dim × Nat} {ents : List (Dim × Nat)}
    (h : factorEntity cs (some ent) = .ok ents) (x : List K) :
    entityPoint σ (.prod cs) ent x = productPoint σ cs ents x := by
  obtain ⟨d, k⟩ := ent
  unfold factorEntity at h
  simp only [Option.getD_some] at h
  cases d with
  | int t => cases h
  | tup ds =>
    simp only at h
    split at h
    · next hl =>
      rw [bind_ok] at h
      obtain ⟨shape, h1, h⟩ := h
      rw [bind_ok] at h
      obtain ⟨ids, h2, h⟩ := h
      cases h
      have h3 : ids = unravel shape k := by
        unfold unravelIndex at h2
        split at h2
        · cases h2; rfl
        · cases h2
      have h4 : shape = (cs.zip ds).map fun p => (Dict.get? p.1.topology p.2).getD 0 := by
        clear h2 h3 hl
        generalize cs.zip ds = l at h1
        induction l generalizing shape with
        | nil => cases h1; rfl
        | cons p l ih =>
          rw [List.mapM_cons, bind_ok] at h1
          obtain ⟨a, ha, h1⟩ := h1
          rw [bind_ok] at h1
          obtain ⟨b, hb, h1⟩ := h1
          cases h1
          rw [List.map_cons, ← ih b hb]
          congr 1
          unfold Dict.get at ha
          cases hg : Dict.get? p.1.topology p.2 with
          | none => rw [hg] at ha; cases ha
          | some v => rw [hg] at ha; cases ha; rfl
      simp only [entityPoint, h3, h4]
    · cases h

mutual
theorem entityPoint_length (hσ : SimplexPoints σ) : ∀ {c : Cell} {ent : Dim × Nat} {x : List K},
    IsEntity c ent → x.length = ent.1.total → (entityPoint σ c ent x).length = c.spatialDim
  | .simplex n, ent, x, h, hx => by
    obtain ⟨m, hm, hk⟩ := h
    simp only [Cell.topology] at hm
    obtain ⟨k, hk', he⟩ := List.mem_map.1 hm
    have h1 : ent.1 = .int k := (congrArg Prod.fst he).symm
    have := List.mem_range.1 hk'
    simp only [entityPoint, Cell.spatialDim]
    exact hσ _ _ _ _ (by rw [h1]; simp only [Dim.total]; omega) hx
  | .quad, ent, x, h, hx => by
    obtain ⟨m, hm, hk⟩ := h
    obtain ⟨h1, h2, h3⟩ := quad_axes _ hm _ hk
    simp only [entityPoint]
    exact (axisPoint_length hσ _ x h2 (by rw [hx]; exact h3.symm)).trans h1
  | .hex, ent, x, h, hx => by
    obtain ⟨m, hm, hk⟩ := h
    obtain ⟨h1, h2, h3⟩ := hex_axes _ hm _ hk
    simp only [entityPoint]
    exact (axisPoint_length hσ _ x h2 (by rw [hx]; exact h3.symm)).trans h1
  | .prod cs, ent, x, h, hx => by
    obtain ⟨ents, h1, h2, h3⟩ := isEntity_factor h
    rw [entityPoint_prod h1, Cell.spatialDim]
    exact productPoint_length hσ h2 (by rw [hx, h3])
theorem productPoint_length (hσ : SimplexPoints σ) : ∀ {cs : List Cell} {ents : List (Dim × Nat)} {x : List K},
    List.Forall₂ IsEntity cs ents → x.length = (ents.map fun e => e.1.total).sum →
      (productPoint σ cs ents x).length = Cell.spatialDimL cs
  | [], _, _, h, _ => by
    cases h
    simp [productPoint, Cell.spatialDimL]
  | c :: cs, ents, x, h, hx => by
    cases h with
    | @cons _ ent _ ents h1 h2 =>
    simp only [List.map_cons, List.sum_cons] at hx
    simp only [productPoint, List.length_append, Cell.spatialDimL]
    rw [entityPoint_length hσ h1 (by rw [List.length_take]; omega),
      productPoint_length hσ h2 (by rw [List.length_drop]; omega)]
end

/-! ### Flattening -/

theorem intervals_point : ∀ (as : List (Nat × Nat)) (x : List K),
    productPoint σ (as.map fun _ => .simplex 1) (as.map fun a => (.int a.1, a.2)) x = axisPoint σ as x
  | [], _ => by simp [productPoint, axisPoint]
  | a :: as, x => by
    simp only [List.map_cons, productPoint, entityPoint, Dim.total, axisPoint, intervals_point as]

/-- The entities of the factors of the unflattened entity, with the check that they are those of the cube. -/
def flattensTo (cs : List Cell) (n : Nat) (split : List (Nat × Nat) → List (Dim × Nat)) (t k : Nat) : Bool :=
  match flattenedEntity (.prod cs) (some (t, k)) with
  | .ok ent => match factorEntity cs (some ent) with
    | .ok ents => decide (ents = split (cubeAxes n t k))
    | .error _ => false
  | .error _ => false

theorem flattens_quad : ∀ p ∈ Cell.quad.topology, ∀ k < p.2,
    flattensTo [.simplex 1, .simplex 1] 2 (fun as => as.map fun a => (.int a.1, a.2)) p.1.total k = true := by
  decide +kernel

theorem flattens_hex : ∀ p ∈ Cell.hex.topology, ∀ k < p.2,
    flattensTo [.simplex 1, .simplex 1, .simplex 1] 3 (fun as => as.map fun a => (.int a.1, a.2)) p.1.total k =
      true := by
  decide +kernel

/-- The number of a list of entities of axes among those of the square. -/
def quadNumber (as : List (Nat × Nat)) : Nat := (cubeEntities 2 (as.map Prod.fst).sum).idxOf as

theorem flattens_extruded : ∀ p ∈ Cell.hex.topology, ∀ k < p.2,
    flattensTo [.quad, .simplex 1] 3 (fun as => [(.int ((as.take 2).map Prod.fst).sum, quadNumber (as.take 2)),
      (.int (as.getD 2 (0, 0)).1, (as.getD 2 (0, 0)).2)]) p.1.total k = true ∧
    cubeAxes 2 (((cubeAxes 3 p.1.total k).take 2).map Prod.fst).sum (quadNumber ((cubeAxes 3 p.1.total k).take 2)) =
      (cubeAxes 3 p.1.total k).take 2 := by
  decide +kernel

theorem flattensTo_spec {cs : List Cell} {n t k : Nat} {split : List (Nat × Nat) → List (Dim × Nat)}
    (h : flattensTo cs n split t k = true) {p : Elem} (hc : p.cell = .ok (.prod cs)) (x : List K) :
    entityPoint σ (.prod cs) (productEnt p (.int t, k)) x = productPoint σ cs (split (cubeAxes n t k)) x := by
  unfold flattensTo at h
  split at h
  · next ent h1 =>
    split at h
    · next ents h2 =>
      have h3 : productEnt p (.int t, k) = ent := by
        simp only [productEnt, unflattenEntity, hc, bind, Except.bind, h1]
      rw [h3, entityPoint_prod h2, of_decide_eq_true h]
    · cases h
  · cases h

theorem quad_int {ent : Dim × Nat} (h : IsEntity .quad ent) : ent.1 = .int ent.1.total := by
  obtain ⟨n, hn, _⟩ := h
  have : ∀ p ∈ Cell.quad.topology, p.1 = .int p.1.total := by decide +kernel
  exact this (ent.1, n) hn

theorem hex_int {ent : Dim × Nat} (h : IsEntity .hex ent) : ent.1 = .int ent.1.total := by
  obtain ⟨n, hn, _⟩ := h
  have : ∀ p ∈ Cell.hex.topology, p.1 = .int p.1.total := by decide +kernel
  exact this (ent.1, n) hn

theorem list_three {α : Type} {l : List α} (h : l.length = 3) (a0 : α) : l = l.take 2 ++ [l.getD 2 a0] := by
  match l, h with
  | [a, b, c], _ => rfl

theorem unflatten_point {p : Elem} {c cf : Cell} (hc : p.cell = .ok c) (hcf : (Elem.flattened p).cell = .ok cf)
    (hstd : StandardCube c) {ent : Dim × Nat} (h : IsEntity cf ent) (x : List K) :
    entityPoint σ cf ent x = entityPoint σ c (productEnt p ent) x := by
  rcases hstd with rfl | rfl | rfl
  · have : cf = .quad := by
      simp only [Elem.cell, hc, bind, Except.bind] at hcf
      cases hcf; rfl
    subst this
    have hi := quad_int h
    obtain ⟨n, hn, hk⟩ := h
    have hent : ent = (.int ent.1.total, ent.2) := Prod.ext hi rfl
    obtain ⟨h1, _, _⟩ := quad_axes _ hn _ hk
    have h2 := flattensTo_spec (σ := σ) (flattens_quad _ hn _ hk) hc x
    simp only at h1 h2
    rw [hent, h2, entityPoint, ← intervals_point]
    have h3 : ∀ as : List (Nat × Nat), as.length = 2 → [Cell.simplex 1, .simplex 1] = as.map fun _ => .simplex 1 := by
      intro as h
      match as, h with
      | [a, b], _ => rfl
    rw [h3 _ h1]
    rfl
  · have : cf = .hex := by
      simp only [Elem.cell, hc, bind, Except.bind] at hcf
      cases hcf; rfl
    subst this
    have hi := hex_int h
    obtain ⟨n, hn, hk⟩ := h
    have hent : ent = (.int ent.1.total, ent.2) := Prod.ext hi rfl
    obtain ⟨h1, _, _⟩ := hex_axes _ hn _ hk
    have h2 := flattensTo_spec (σ := σ) (flattens_hex _ hn _ hk) hc x
    simp only at h1 h2
    rw [hent, h2, entityPoint, ← intervals_point]
    have h3 : ∀ as : List (Nat × Nat), as.length = 3 →
        [Cell.simplex 1, .simplex 1, .simplex 1] = as.map fun _ => .simplex 1 := by
      intro as h
      match as, h with
      | [a, b, c], _ => rfl
    rw [h3 _ h1]
    rfl
  · have : cf = .hex := by
      simp only [Elem.cell, hc, bind, Except.bind] at hcf
      cases hcf; rfl
    subst this
    have hi := hex_int h
    obtain ⟨n, hn, hk⟩ := h
    have hent : ent = (.int ent.1.total, ent.2) := Prod.ext hi rfl
    obtain ⟨h1, _, _⟩ := hex_axes _ hn _ hk
    obtain ⟨f1, f2⟩ := flattens_extruded _ hn _ hk
    have h2 := flattensTo_spec (σ := σ) f1 hc x
    simp only at h1 h2 f2
    rw [hent, h2, entityPoint]
    show axisPoint σ (cubeAxes 3 ent.1.total ent.2) x = _
    generalize cubeAxes 3 ent.1.total ent.2 = as at h1 f2
    rw [list_three h1 (0, 0), axisPoint_append, ← list_three h1 (0, 0)]
    simp only [productPoint, entityPoint, Dim.total, axisPoint]
    simp only [cubeAxes] at f2
    rw [f2]

/-! ### Values -/

variable [CommRing K] {φ : LeafVals K}

/-- The leaves are tabulated at the points of the cell. -/
def LeafAtPoint (φ : LeafVals K) (σ : Nat → Nat → Nat → List K → List K) (l : Leaf) : Prop :=
  ∀ α ent x i z, IsEntity l.cell ent → x.length = ent.1.total →
    φ.leaf l α ent x i z = φ.leaf l α (l.cell.dimension, 0) (entityPoint σ l.cell ent x) i z

theorem factorEnts_eq {fs : List Elem} {cs : List Cell} {ent : Dim × Nat} {ents : List (Dim × Nat)}
    (hc : Elem.cellL fs = .ok cs) (h : factorEntity cs (some ent) = .ok ents) : factorEnts fs ent = ents := by
  simp only [factorEnts, hc, bind, Except.bind, h]

theorem isCube_standard {c : Cell} (h : StandardCube c) : IsCube c := by
  rcases h with rfl | rfl | rfl <;> simp [IsCube, IsCubeL]

mutual
theorem basisValue_entity (hσ : SimplexPoints σ) : ∀ {e : Elem} {c : Cell} {ent : Dim × Nat} {x : List K}
    (α i z : List Nat), StandardCubes e → AllLeaves (LeafAtPoint φ σ) e → e.cell = .ok c → IsEntity c ent →
    x.length = ent.1.total →
    basisValue φ e α ent x i z = basisValue φ e α (c.dimension, 0) (entityPoint σ c ent x) i z
  | .leaf l, c, ent, x, α, i, z, _, hl, hc, he, hx => by
    simp only [Elem.cell, Except.ok.injEq] at hc
    subst hc
    simp only [AllLeaves] at hl
    simp only [basisValue]
    exact hl α ent x i z he hx
  | .tensorProduct fs, c, ent, x, α, i, z, hs, hl, hc, he, hx => by
    simp only [StandardCubes] at hs
    simp only [AllLeaves] at hl
    simp only [Elem.cell] at hc
    rw [bind_ok] at hc
    obtain ⟨cs, hcs, hc⟩ := hc
    cases hc
    obtain ⟨ents, h1, h2, h3⟩ := isEntity_factor he
    simp only [basisValue]
    rw [factorEnts_eq hcs h1, factorEnts_eq hcs (factorEntity_cell cs), entityPoint_prod h1]
    exact prodValue_entity hσ α i z hs hl hcs h2 (by rw [hx, h3])
  | .flattened p, cf, ent, x, α, i, z, hs, hl, hcf, he, hx => by
    simp only [StandardCubes] at hs
    simp only [AllLeaves] at hl
    have hc0 : ∃ c, p.cell = .ok c := by
      cases h : p.cell with
      | ok c => exact ⟨c, rfl⟩
      | error e => simp only [Elem.cell, h, bind, Except.bind] at hcf; cases hcf
    obtain ⟨c, hc⟩ := hc0
    have hstd := hs.2 c hc
    obtain ⟨ent', h1, h2, h3⟩ := isEntity_unflatten hc hcf (isCube_standard hstd) he
    have h4 : productEnt p ent = ent' := by simp only [productEnt, h1]
    have h5 : productEnt p (cf.dimension, 0) = (c.dimension, 0) := by
      simp only [productEnt, (unflatten_cell hc hcf (isCube_standard hstd)).1]
    simp only [basisValue]
    rw [h5, unflatten_point hc hcf hstd he, h4]
    exact basisValue_entity hσ α i z hs.1 hl hc h2 (by rw [hx, h3])
  | .enriched es, c, ent, x, α, i, z, hs, hl, hc, he, hx => by
    simp only [StandardCubes] at hs
    simp only [AllLeaves] at hl
    simp only [Elem.cell, bind, Except.bind] at hc
    cases hcs : Elem.cellL es with
    | error e => rw [hcs] at hc; cases hc
    | ok cs =>
      rw [hcs] at hc
      simp only [basisValue]
      exact sumValue_entity hσ α _ z hs hl hcs (uniqueOf_mem hc).2 he hx
  | .mixedSub e _ _, c, ent, x, α, i, z, hs, hl, hc, he, hx => by
    simp only [StandardCubes] at hs
    simp only [AllLeaves] at hl
    simp only [Elem.cell] at hc
    simp only [basisValue]
    rw [basisValue_entity hσ α i _ hs hl hc he hx]
  | .discontinuous e, c, ent, x, α, i, z, hs, hl, hc, he, hx => by
    simp only [StandardCubes] at hs
    simp only [AllLeaves] at hl
    simp only [Elem.cell] at hc
    simp only [basisValue]
    exact basisValue_entity hσ α i _ hs hl hc he hx
  | .tensorFE e shape tr, c, ent, x, α, i, z, hs, hl, hc, he, hx => by
    simp only [StandardCubes] at hs
    simp only [AllLeaves] at hl
    simp only [Elem.cell] at hc
    simp only [basisValue]
    rw [basisValue_entity hσ α _ _ hs hl hc he hx]
  | .hdiv w, c, ent, x, α, i, z, hs, hl, hc, he, hx => by
    simp only [StandardCubes] at hs
    simp only [AllLeaves] at hl
    simp only [Elem.cell] at hc
    simp only [basisValue]
    rw [show basisValue φ w α ent x i = _ from funext fun v => basisValue_entity hσ α i v hs hl hc he hx]
  | .hcurl w, c, ent, x, α, i, z, hs, hl, hc, he, hx => by
    simp only [StandardCubes] at hs
    simp only [AllLeaves] at hl
    simp only [Elem.cell] at hc
    simp only [basisValue]
    rw [show basisValue φ w α ent x i = _ from funext fun v => basisValue_entity hσ α i v hs hl hc he hx]
  | .quadrature _ _ _, _, _, _, _, _, _, _, hl, _, _, _ => by
    simp only [AllLeaves] at hl
theorem prodValue_entity (hσ : SimplexPoints σ) : ∀ {fs : List Elem} {cs : List Cell} {ents : List (Dim × Nat)}
    {x : List K} (α i z : List Nat), StandardCubesL fs → AllLeavesL (LeafAtPoint φ σ) fs →
    Elem.cellL fs = .ok cs → List.Forall₂ IsEntity cs ents → x.length = (ents.map fun e => e.1.total).sum →
    prodValue φ fs α ents x i z =
      prodValue φ fs α (cs.map fun c => (c.dimension, 0)) (productPoint σ cs ents x) i z
  | [], _, _, _, _, _, _, _, _, _, _, _ => by simp only [prodValue]
  | f :: fs, cs, ents, x, α, i, z, hs, hl, hc, he, hx => by
    obtain ⟨c, cs', h1, h2, rfl⟩ := cellL_cons hc
    simp only [StandardCubesL] at hs
    simp only [AllLeavesL] at hl
    cases he with
    | @cons _ ent _ ents g1 g2 =>
    simp only [List.map_cons, List.sum_cons] at hx
    have hlen : (x.take ent.1.total).length = ent.1.total := by rw [List.length_take]; omega
    have hp := entityPoint_length hσ g1 hlen
    simp only [prodValue, List.map_cons, productPoint, Cell.total_dimension]
    rw [List.take_left' hp, List.drop_left' hp, ← basisValue_entity hσ _ _ _ hs.1 hl.1 h1 g1 hlen,
      ← prodValue_entity hσ _ _ _ hs.2 hl.2 h2 g2 (by rw [List.length_drop]; omega)]
theorem sumValue_entity (hσ : SimplexPoints σ) : ∀ {es : List Elem} {cs : List Cell} {c : Cell} {ent : Dim × Nat}
    {x : List K} (α : List Nat) (k : Nat) (z : List Nat), StandardCubesL es → AllLeavesL (LeafAtPoint φ σ) es →
    Elem.cellL es = .ok cs → (∀ c' ∈ cs, c' = c) → IsEntity c ent → x.length = ent.1.total →
    sumValue φ es α ent x k z = sumValue φ es α (c.dimension, 0) (entityPoint σ c ent x) k z
  | [], _, _, _, _, _, _, _, _, _, _, _, _, _ => by simp only [sumValue]
  | e :: es, cs, c, ent, x, α, k, z, hs, hl, hc, hall, he, hx => by
    obtain ⟨c1, cs', h1, h2, rfl⟩ := cellL_cons hc
    have h3 := hall c1 List.mem_cons_self
    simp only [StandardCubesL] at hs
    simp only [AllLeavesL] at hl
    simp only [sumValue]
    rw [basisValue_entity hσ α _ z hs.1 hl.1 (h3 ▸ h1) he hx,
      sumValue_entity hσ α _ z hs.2 hl.2 h2 (fun c' h => hall c' (List.mem_cons_of_mem _ h)) he hx]
end

end FInAT
