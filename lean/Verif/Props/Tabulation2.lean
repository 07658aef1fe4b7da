import Verif.Props.Tabulation
import Verif.Lemmas.PolyFiat

/-!
# Tabulation: C14-C17
-/

namespace FInAT.Props

open FInAT Spec Elem MvPolynomial

section
variable {K : Type} [CommRing K] {P : Type} {I : Interp K P} {φ : LeafVals K}

/-! ## C14 -/

/-- One factor of a tabulated product: its element, its points, its entity and its table. -/
structure FactorTab (K P : Type) where
  elem : Elem
  points : P
  entity : Dim × Nat
  table : Tab K

theorem factor_tables (S : Sem I φ) {order n m : Nat} (hm : n ≤ m) :
    ∀ {fs : List Elem} {ps : List P} {ents : List (Dim × Nat)} {cs : List Cell} {vss : List (List Nat)},
      (∀ f ∈ fs, Shaped f) → (∀ q ∈ ps, S.wf n q) → Elem.cellL fs = .ok cs →
      Elem.valueShapeL fs = .ok vss → AdmitsZip S order fs ps ents →
      ∃ L : List (FactorTab K P), L.map FactorTab.elem = fs ∧ L.map FactorTab.points = ps ∧
        L.map FactorTab.entity = ents ∧
        ∀ x ∈ L, ∃ m', evaluate I x.elem order x.points (some x.entity) m = .ok (x.table, m') ∧
          ∃ c vs, x.elem.cell = .ok c ∧ x.elem.valueShape = .ok vs ∧
            IsTable (S.valid x.points) x.table c.spatialDim order x.elem.indexShape vs fun α ρ i z =>
              basisValue φ x.elem α x.entity (S.at_ x.points ρ) i z
  | [], [], [], _, _, _, _, _, _, _ => ⟨[], rfl, rfl, rfl, by simp⟩
  | f :: fs, p :: ps, e :: es, cs, vss, hs, hw, hc, hv, ha => by
    obtain ⟨c, cs', hc1, hc2, rfl⟩ := cellL_cons hc
    obtain ⟨vs, vss', hv1, hv2, rfl⟩ := valueShapeL_cons hv
    simp only [AdmitsZip] at ha
    obtain ⟨T, m', h1, h2⟩ := tabulation S f (hs f List.mem_cons_self) order p (some e) c vs n m
      (hw p List.mem_cons_self) hm hc1 hv1 ha.1
    obtain ⟨L, l1, l2, l3, l4⟩ := factor_tables S hm (fun g hg => hs g (List.mem_cons_of_mem _ hg))
      (fun q hq => hw q (List.mem_cons_of_mem _ hq)) hc2 hv2 ha.2
    refine ⟨⟨f, p, e, T⟩ :: L, by simp [l1], by simp [l2], by simp [l3], ?_⟩
    intro x hx
    rcases List.mem_cons.1 hx with rfl | hx
    · exact ⟨m', h1, c, vs, hc1, hv1, h2⟩
    · exact l4 x hx
  | [], _ :: _, _, _, _, _, _, _, _, ha => by simp only [AdmitsZip] at ha
  | [], [], _ :: _, _, _, _, _, _, _, ha => by simp only [AdmitsZip] at ha
  | _ :: _, [], _, _, _, _, _, _, _, ha => by simp only [AdmitsZip] at ha
  | _ :: _, _ :: _, [], _, _, _, _, _, _, ha => by simp only [AdmitsZip] at ha

/-- The factors of an entry of a product table: the entry for the part of the derivative belonging to
the factor, at the factor's own basis index and value index. -/
def FactorEntries (L : List (FactorTab K P)) (dims : List Nat) (α : List Nat) (ρ : Nat → Nat)
    (is zs : List (List Nat)) (vals : List K) : Prop :=
  List.Forall₂ (fun (x : FactorTab K P × List Nat × List Nat × List Nat) v =>
    ∃ t, x.1.table.get? x.2.1 = some t ∧ v = t.eval ρ (x.2.2.1 ++ x.2.2.2))
    (L.zip ((splitLens dims α).zip (is.zip zs))) vals

theorem prodValue_entries (S : Sem I φ) {order : Nat} {ρ : Env} :
    ∀ {L : List (FactorTab K P)} {cs : List Cell} {vss : List (List Nat)} {α : List Nat} {x : List K}
      {is zs : List (List Nat)},
      Elem.cellL (L.map FactorTab.elem) = .ok cs →
      Elem.valueShapeL (L.map FactorTab.elem) = .ok vss →
      (∀ y ∈ L, ∃ c vs, y.elem.cell = .ok c ∧ y.elem.valueShape = .ok vs ∧
        IsTable (S.valid y.points) y.table c.spatialDim order y.elem.indexShape vs fun α ρ i z =>
              basisValue φ y.elem α y.entity (S.at_ y.points ρ) i z) →
      (∀ y ∈ L, S.valid y.points ρ) →
      L.map (fun y => S.at_ y.points ρ) = splitLens (L.map fun y => y.entity.1.total) x →
      α.length = (cs.map Cell.spatialDim).sum → α.sum ≤ order →
      List.Forall₂ InRange is (L.map fun y => y.elem.indexShape) → List.Forall₂ InRange zs vss →
      ∃ vals, FactorEntries L (cs.map Cell.spatialDim) α ρ is zs vals ∧
        prodValue φ (L.map FactorTab.elem) α (L.map FactorTab.entity) x is.flatten zs.flatten = vals.prod
  | [], cs, vss, α, x, is, zs, hc, hv, _, _, _, _, _, hi, hz => by
    cases hi
    simp only [List.map_nil, Elem.cellL, Except.ok.injEq] at hc
    subst hc
    exact ⟨[], by simp [FactorEntries], by simp [prodValue]⟩
  | y :: L, cs, vss, α, x, is, zs, hc, hv, hT, hV, hx, hα, ho, hi, hz => by
    obtain ⟨c, cs', hc1, hc2, rfl⟩ := cellL_cons hc
    obtain ⟨vs, vss', hv1, hv2, rfl⟩ := valueShapeL_cons hv
    obtain ⟨c', vs', hc', hv', ht⟩ := hT y List.mem_cons_self
    rw [hc1] at hc'; cases hc'
    rw [hv1] at hv'; cases hv'
    match is, zs, hi, hz with
    | i :: is, z :: zs, .cons hi1 hi2, .cons hz1 hz2 =>
      simp only [List.map_cons, splitLens, List.cons.injEq] at hx
      simp only [List.map_cons, List.sum_cons] at hα
      have hsum : (α.take c.spatialDim).sum + (α.drop c.spatialDim).sum = α.sum := by
        rw [← List.sum_append, List.take_append_drop]
      obtain ⟨vals, h1, h2⟩ := prodValue_entries S (α := α.drop c.spatialDim) (x := x.drop y.entity.1.total) hc2 hv2
        (fun w hw => hT w (List.mem_cons_of_mem _ hw)) (fun w hw => hV w (List.mem_cons_of_mem _ hw))
        hx.2 (by simp; omega) (by omega) hi2 hz2
      obtain ⟨t, ht'⟩ := IsTable.get ht (α := α.take c.spatialDim) (by simp; omega) (by omega)
      refine ⟨t.eval ρ (i ++ z) :: vals, ?_, ?_⟩
      · simp only [FactorEntries, List.map_cons, splitLens, List.zip_cons_cons]
        exact .cons ⟨t, ht', rfl⟩ h1
      · have hli : i.length = y.elem.indexShape.length := InB.length hi1
        have hlz : z.length = vs.length := InB.length hz1
        simp only [List.map_cons, prodValue, List.flatten_cons, sdim_eq hc1, vshape_eq hv1, List.prod_cons]
        rw [← hli, ← hlz, List.take_left, List.drop_left, List.take_left, List.drop_left, h2,
          ht.value _ t ht' ρ i z (hV y List.mem_cons_self) hi1 hz1, hx.1]

/-- **C14.** Tabulating a tensor product succeeds together with tabulating its factors (each at its own
part of the points, on its own entity), the keys are exactly the derivatives of order at most the
requested order, and the entry for the derivative `α`, the concatenated basis indices and the
concatenated value indices is the product of the factor entries for the consecutive parts of `α`. -/
theorem C14_product_tables (S : Sem I φ) (fs : List Elem) (hs : Shaped (.tensorProduct fs)) (order : Nat)
    (p : P) (entity : Option (Dim × Nat)) (cs : List Cell) (vss : List (List Nat)) (vs : List Nat)
    (n m : Nat) (hp : S.wf n p) (hm : n ≤ m) (hc : Elem.cellL fs = .ok cs)
    (hvs : Elem.valueShapeL fs = .ok vss) (hv : (Elem.tensorProduct fs).valueShape = .ok vs)
    (ha : Admits S order (.tensorProduct fs) p (entity.getD ((Cell.prod cs).dimension, 0))) :
    Yields (evaluate I (.tensorProduct fs) order p entity) m fun T =>
      (∀ α, α ∈ T.keys ↔ α.length = (cs.map Cell.spatialDim).sum ∧ α.sum ≤ order) ∧
      ∃ L : List (FactorTab K P),
        L.map FactorTab.elem = fs ∧
        factorEntity cs (some (entity.getD ((Cell.prod cs).dimension, 0))) = .ok (L.map FactorTab.entity) ∧
        (∀ k, I.factor cs (L.map fun x => x.entity.1) p k = .ok (L.map FactorTab.points, k)) ∧
        (∀ x ∈ L, ∃ m', evaluate I x.elem order x.points (some x.entity) m = .ok (x.table, m')) ∧
        ∀ α t, T.get? α = some t → ∀ ρ is zs, S.valid p ρ →
          List.Forall₂ InRange is (fs.map Elem.indexShape) → List.Forall₂ InRange zs vss →
          ∃ vals, FactorEntries L (cs.map Cell.spatialDim) α ρ is zs vals ∧
            t.eval ρ (is.flatten ++ zs.flatten) = vals.prod := by
  have hcell : (Elem.tensorProduct fs).cell = .ok (.prod cs) := by
    simp [Elem.cell, hc, bind, Except.bind, pure, Except.pure]
  obtain ⟨T, m', h1, hT⟩ := tabulation S (.tensorProduct fs) hs order p entity (.prod cs) vs n m hp hm
    hcell hv ha
  have hsd : (Cell.prod cs).spatialDim = (cs.map Cell.spatialDim).sum := by
    simp only [Cell.spatialDim]
    clear * -
    induction cs with
    | nil => rfl
    | cons c cs ih => simp [Cell.spatialDimL, ih]
  refine ⟨T, m', h1, fun α => by rw [hT.keys, hsd], ?_⟩
  simp only [Admits] at ha
  obtain ⟨cs', ents, ps, hc', hfe, hfp, hz⟩ := ha
  rw [hc] at hc'; cases hc'
  simp only [Shaped] at hs
  obtain ⟨hwf, hval⟩ := S.factor hp hfp
  obtain ⟨L, l1, l2, l3, l4⟩ := factor_tables S hm hs.2 hwf hc hvs hz
  have l5 : ents.map Prod.fst = L.map fun x => x.entity.1 := by rw [← l3, List.map_map]; rfl
  refine ⟨L, l1, by rw [l3]; exact hfe, fun k => by rw [← l5, l2]; exact hfp k,
    fun x hx => (l4 x hx).imp fun m' h => h.1, ?_⟩
  intro α t ht ρ is zs hV hi hzr
  have hα : α.length = (cs.map Cell.spatialDim).sum ∧ α.sum ≤ order := by
    rw [← hsd, ← hT.keys, ← Dict.get?_isSome_iff, ht]; rfl
  obtain ⟨hv1, hv2⟩ := hval ρ hV
  have hdim : (ents.map Prod.fst).map Dim.total = L.map fun y => y.entity.1.total := by
    rw [l5, List.map_map]; rfl
  obtain ⟨vals, hf, hprod⟩ := prodValue_entries S (ρ := ρ) (x := S.at_ p ρ) (α := α) (is := is) (zs := zs)
    (by rw [l1]; exact hc) (by rw [l1]; exact hvs)
    (fun y hy => by obtain ⟨_, _, h⟩ := l4 y hy; exact h)
    (fun y hy => hv1 _ (by rw [← l2]; exact List.mem_map_of_mem hy))
    (by rw [← hdim, ← hv2, ← l2, List.map_map]; rfl) hα.1 hα.2
    (by rw [show (L.map fun y => y.elem.indexShape) = (L.map FactorTab.elem).map Elem.indexShape by
      rw [List.map_map]; rfl, l1]; exact hi) hzr
  refine ⟨vals, hf, ?_⟩
  have hflatI : InRange is.flatten (Elem.tensorProduct fs).indexShape := by
    have hfl : (Elem.tensorProduct fs).indexShape = (fs.map Elem.indexShape).flatten := by
      simp only [Elem.indexShape]
      clear * -
      induction fs with
      | nil => rfl
      | cons f fs ih => simp [Elem.indexShapeL, ih]
    rw [hfl]
    clear * - hi
    generalize fs.map Elem.indexShape = ss at hi
    induction hi with
    | nil => exact .nil
    | cons h _ ih => exact InB.append h ih
  have hflatZ : InRange zs.flatten vs := by
    have hfl : vs = vss.flatten := by
      simp only [Elem.valueShape] at hv
      rw [bind_ok] at hv
      obtain ⟨ss, hss, hv⟩ := hv
      rw [hvs] at hss; cases hss
      exact prodValueShape_flatten hv
    rw [hfl]
    clear * - hzr
    induction hzr with
    | nil => exact .nil
    | cons h _ ih => exact InB.append h ih
  rw [hT.value α t ht ρ _ _ hV hflatI hflatZ]
  have hfent : factorEnts fs (entity.getD ((Cell.prod cs).dimension, 0)) = ents := by
    simp only [factorEnts, hc, bind, Except.bind, hfe]
  simp only [basisValue, hfent, ← hprod, l1, l3]

end

section
variable {K : Type} [CommRing K] [DecidableEq K]

/-- **C14**, polynomials: if the leaves are given by polynomials (tabulated correctly by FIAT), then
tabulating any composite element on its cell at unstructured points succeeds, has exactly the
derivatives of order at most `order` as keys, and the entry for the derivative `α` and basis function
`i`, component `z` is the value, at the selected point, of the partial derivative `α` of the composite
polynomial `treePoly` - for a tensor product: of the product of the factor polynomials, each in its own
coordinates. -/
theorem C14_derivative_of_product (F : Fiat K) (R : Rules K) (Q : Leaf → Nat → List Nat → MvPolynomial ℕ K)
    (e : Elem) (c : Cell) (vs : List Nat) (order n : Nat) (p : PSet K) (hs : Shaped e) (hcube : Cubes e)
    (hl : AllLeaves (fun l => PlainLeafOK F order l ∧ LeafIsPoly (leafVals F R) Q l) e)
    (hc : e.cell = .ok c) (hv : e.valueShape = .ok vs) (hw : p.WF n) (hp : PlainPoints p c.spatialDim) :
    Yields (evaluate (basisInterp F R) e order p none) n fun T =>
      IsTable p.Valid T c.spatialDim order e.indexShape vs fun α ρ i z =>
        evalAt (p.pointAt ρ) (partialD 0 α (treePoly Q e i z)) := by
  have hent : IsEntity c (c.dimension, 0) := ⟨1, c.dimension_mem, by simp⟩
  have hp' : PlainPoints p (c.dimension, 0).1.total := by rw [Cell.total_dimension]; exact hp
  have ha := admits_plain F R order e p (c.dimension, 0) c hcube (AllLeaves.imp (fun _ h => h.1) e hl) hc
    hent hp'
  obtain ⟨T, n', h1, hT⟩ := tabulation (basisSem F R) e hs order p none c vs n n hw (Nat.le_refl n) hc hv ha
  refine ⟨T, n', h1, hT.once, hT.keys, hT.shape, ?_⟩
  intro α t ht ρ i z hV hi hz
  have hk : α ∈ T.keys := by rw [← Dict.get?_isSome_iff, ht]; rfl
  have hlen : (p.pointAt ρ).length = c.spatialDim := by
    have hm := PSet.pointAt_mem hw hV
    obtain ⟨pts, idx, rfl, _, hd⟩ := hp
    exact hd _ hm
  rw [hT.value α t ht ρ i z hV hi hz]
  exact basisValue_poly Q e c (AllLeaves.imp (fun _ h => h.2) e hl) hc α _ i z ((hT.keys α).1 hk).1 hlen

end

end FInAT.Props
