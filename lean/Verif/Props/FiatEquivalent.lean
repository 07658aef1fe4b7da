import Verif.Lemmas.FiatEquivalent
import Verif.Props.Independent

/-!
# C86: the FIAT equivalent of an element has the same functions in the same numbering
-/

namespace FInAT.Props

open FInAT FInAT.Spec

section
variable {K : Type} [CommRing K] (φ : LeafVals K) (ψ : FiatVals K) (runtime : Nat → Bool)

/-- **C86 (partial).** Whenever an element has a FIAT equivalent, that is an element of the same cell dimension with as many
functions, the same value shape, and function `i` of the element is function number `ravel i` of its equivalent, for all
derivatives, points and components. Missing: sums of several mixed elements, for which the claim is false (`C86_sum_of_mixed`);
`SameParts` asks for the parts of every mixed element to be laid out one after the other, as `MixedElement` does
(`C86_mixed_layout`). -/
theorem C86_functions_partial (e : Elem) (c : Cell) (vs : List Nat) (t : FTree) (hs : Shaped e) (h : SameParts φ ψ runtime e)
    (hc : e.cell = .ok c) (hv : e.valueShape = .ok vs) (ht : fiatEquivalent runtime e = .ok t) : Equivalent φ ψ e c vs t :=
  equivalent e c vs t hs h hc hv ht

theorem laidOut_map (N : Nat) : ∀ (es : List Elem) (ss : List (List Nat)) (l : List Nat) (o : Nat),
    Elem.valueShapeL es = .ok ss → o + (ss.map List.prod).sum = N → o = l.sum →
    LaidOut N o (((List.range es.length).zip es).map fun p =>
      .mixedSub p.2 N ((l ++ ss.map List.prod).take (l.length + p.1)).sum)
  | [], ss, l, o, hv, hN, _ => by
    simp only [Elem.valueShapeL, Except.ok.injEq] at hv
    subst hv
    simpa [LaidOut] using hN
  | e :: es, ss, l, o, hv, hN, ho => by
    obtain ⟨s, ss', h1, h2, rfl⟩ := valueShapeL_cons hv
    have hs : vshape e = s := by simp [vshape, h1]
    simp only [List.length_cons, List.range_succ_eq_map, List.zip_cons_cons, List.map_cons, LaidOut]
    refine ⟨trivial, by simp [ho], ?_⟩
    have := laidOut_map N es ss' (l ++ [s.prod]) (o + s.prod) h2 (by simpa [Nat.add_assoc] using hN) (by simp [ho])
    rw [hs, List.zip_map_left, List.map_map]
    refine cast ?_ this
    congr 1
    refine List.map_congr_left fun p _ => ?_
    simp [Function.comp_def, Nat.add_comm, Nat.add_left_comm]

/-- **C86.** `MixedElement` of at least two elements (or none) lays its parts out one after the other, and its equivalent is
`FIAT.MixedElement` of the equivalents of the parts in the same order. -/
theorem C86_mixed_layout (es : List Elem) (e : Elem) (hl : es.length ≠ 1) (h : mkMixed es = .ok e) :
    ∃ fs size, e = .enriched fs ∧ LaidOut size 0 fs ∧
      fiatEquivalent runtime e = (fiatEquivalents runtime es).map .mixed := by
  obtain ⟨ss, hss⟩ : ∃ ss, Elem.valueShapeL es = .ok ss := by
    unfold mkMixed at h
    rw [bind_ok] at h
    obtain ⟨ss, hss, _⟩ := h
    exact ⟨ss, hss⟩
  rw [C13_mixed_construction es ss hss, Except.ok.injEq] at h
  subst h
  set N := (ss.map List.prod).sum with hN
  set sub : Nat × Elem → Elem := fun p => .mixedSub p.2 N ((ss.map List.prod).take p.1).sum with hsub
  have hm : mkEnriched (((List.range es.length).zip es).map sub) = .enriched (((List.range es.length).zip es).map sub) := by
    unfold mkEnriched
    rw [enrichedParts_mixed sub (fun p => ⟨_, _, _, rfl⟩)]
    split
    · next x hx =>
      have := congrArg List.length hx
      simp at this
      exact absurd this hl
    · rfl
  rw [hm]
  refine ⟨_, N, rfl, ?_, ?_⟩
  · have := laidOut_map N es ss [] 0 hss (by simp [hN]) rfl
    simpa using this
  · have hmix : isMixed (((List.range es.length).zip es).map sub) = true := by
      simp [isMixed, hsub, isMixedSub, List.all_map, Function.comp_def]
    have hparts : ∀ l : List (Nat × Elem), fiatEquivalentParts runtime (l.map sub) = fiatEquivalents runtime (l.map Prod.snd) := by
      intro l
      induction l with
      | nil => rfl
      | cons p l ih => simp only [List.map_cons, fiatEquivalentParts, fiatEquivalents, ih]; rfl
    rw [fiatEquivalent, if_pos hmix, hparts, List.map_snd_zip (by simp)]
    cases fiatEquivalents runtime es <;> rfl

/-- **C86.** Without an equivalent: a mixed element of one element is the `MixedSubElement` itself, which has none. -/
theorem C86_single_mixed (f e : Elem) (h : mkMixed [f] = .ok e) : fiatEquivalent runtime e = .error .notImplemented := by
  obtain ⟨ss, hss⟩ : ∃ ss, Elem.valueShapeL [f] = .ok ss := by
    unfold mkMixed at h
    rw [bind_ok] at h
    obtain ⟨ss, hss, _⟩ := h
    exact ⟨ss, hss⟩
  rw [C13_mixed_construction [f] ss hss, Except.ok.injEq] at h
  subst h
  rfl

/-- **C86.** Without an equivalent: products with one or with more than two factors. -/
theorem C86_product (fs : List Elem) (h : fs.length ≠ 2) :
    fiatEquivalent runtime (.tensorProduct fs) = .error .valueError := by
  rw [fiatEquivalent, if_neg h]

/-- **C86.** Without an equivalent: quadrature elements whose points are known at run time only, and vector or tensor elements
made of blocks, alone or as a factor of a product, a summand or inside a wrapper, as long as the parts before it have one. -/
theorem C86_blocks (e : Elem) (s : List Nat) (tr : Bool) :
    fiatEquivalent runtime (.tensorFE e s tr) = .error .notImplemented ∧
    (∀ a ta, fiatEquivalent runtime a = .ok ta →
      fiatEquivalent runtime (.tensorProduct [a, .tensorFE e s tr]) = .error .notImplemented ∧
      fiatEquivalent runtime (.tensorProduct [.tensorFE e s tr, a]) = .error .notImplemented) ∧
    ∀ r c ext, runtime r = true → fiatEquivalent runtime (.quadrature r c ext) = .error .valueError := by
  refine ⟨rfl, fun a ta ha => ⟨?_, rfl⟩, fun r c ext h => ?_⟩
  · simp [fiatEquivalent, fiatEquivalents, ha, bind, Except.bind]
  · simp [fiatEquivalent, h]

/-- **C86, refuted for sums of mixed elements.** The sum of two mixed elements of two scalar elements has two components, but
all its summands are `MixedSubElement`s, so that it is taken for a mixed element of four elements: its equivalent has four
components. -/
theorem C86_sum_of_mixed (l : Leaf) (hl : l.valueShape = []) :
    ∃ m e t, mkMixed [.leaf l, .leaf l] = .ok m ∧ mkEnriched [m, m] = e ∧ e.valueShape = .ok [2] ∧
      fiatEquivalent runtime e = .ok t ∧ FTree.shape t = [4] := by
  have hss : Elem.valueShapeL [.leaf l, .leaf l] = .ok [[], []] := by
    simp [Elem.valueShapeL, Elem.valueShape, hl, bind, Except.bind, pure, Except.pure]
  refine ⟨_, _, _, C13_mixed_construction _ _ hss, rfl, ?_, rfl, ?_⟩
  · rfl
  · simp [FTree.shape, FTree.components, hl]

end

/-! ### The hypotheses are met -/

namespace FiatEquivalentExample

open IndependentExample

/-- FIAT's functions for the example: those of the leaves, and `Hdiv` of a product of two elements. -/
noncomputable def exPsi : FiatVals ℤ where
  size l := l.fns.length
  leaf l α x k z := (leafVals exFiat exRules).leaf l α (l.cell.dimension, 0) x [k] z
  quad r c ext x k := (leafVals exFiat exRules).quad r c ext x (unravel ext k)
  hdiv t F j := match t with
    | .tensor (.element a) (.element b) => wrapValue (selectHdiv [.leaf a, .leaf b]) F j
    | _ => 0
  hcurl _ _ _ := 0

theorem leaf_same (l : Leaf) : SameParts (leafVals exFiat exRules) exPsi (fun _ => false) (.leaf l) := by
  simp only [SameParts]
  exact ⟨rfl, fun _ _ _ _ _ => rfl⟩

theorem rt_same : SameParts (leafVals exFiat exRules) exPsi (fun _ => false) rt := by
  simp only [rt, parts, SameParts, SamePartsL]
  refine ⟨⟨⟨⟨⟨rfl, fun _ _ _ _ _ => rfl⟩, ⟨rfl, fun _ _ _ _ _ => rfl⟩, trivial⟩, fun t ht F j => ?_⟩,
    ⟨⟨⟨rfl, fun _ _ _ _ _ => rfl⟩, ⟨rfl, fun _ _ _ _ _ => rfl⟩, trivial⟩, fun t ht F j => ?_⟩, trivial⟩, fun h => by simp [isMixed, isMixedSub] at h⟩
  · cases ht; rfl
  · cases ht; rfl

/-- The mixed element of Raviart-Thomas and bilinear functions. -/
def taylor : List Elem := [rt, .flattened (.tensorProduct [.leaf cg1, .leaf cg1])]

/-- Raviart-Thomas and bilinear functions: 4 + 4 functions with 2 + 1 components. -/
example : ∃ e t, mkMixed taylor = .ok e ∧ fiatEquivalent (fun _ => false) e = .ok t ∧ FTree.size exPsi t = 8 ∧
    FTree.shape t = [3] ∧ Equivalent (leafVals exFiat exRules) exPsi e .quad [3] t := by
  have he : mkMixed taylor = .ok (.enriched [.mixedSub rt 3 0, .mixedSub (.flattened (.tensorProduct [.leaf cg1, .leaf cg1])) 3 2]) := rfl
  refine ⟨_, _, he, rfl, rfl, rfl, C86_functions_partial _ _ (fun _ => false) _ _ _ _ ?_ ?_ rfl rfl rfl⟩
  · simp only [Shaped]
    intro f hf
    simp only [List.mem_cons, List.not_mem_nil, or_false] at hf
    rcases hf with rfl | rfl
    · simp only [Shaped]
      exact ⟨rt_shaped, by decide, [2], rfl, by decide⟩
    · simp only [Shaped]
      exact ⟨⟨by simp, by simp [Shaped]⟩, by decide, [], rfl, by decide⟩
  · simp only [SameParts, SamePartsL]
    refine ⟨⟨rt_same, ⟨⟨rfl, fun _ _ _ _ _ => rfl⟩, ⟨rfl, fun _ _ _ _ _ => rfl⟩, trivial⟩, trivial⟩, fun _ => ⟨3, ?_⟩⟩
    simp only [LaidOut]
    exact ⟨trivial, trivial, trivial, rfl, rfl⟩

example := C86_mixed_layout (fun _ => false) taylor _ (by decide) rfl
example := C86_single_mixed (fun _ => false) rt _ rfl
example := C86_product (fun _ => false) [.leaf cg1, .leaf cg1, .leaf cg1] (by decide)
example := (C86_blocks (fun _ => true) rt [2] false).2.1 (.leaf cg1) _ rfl
example := C86_sum_of_mixed (fun _ => false) cg1 rfl

end FiatEquivalentExample

end FInAT.Props
