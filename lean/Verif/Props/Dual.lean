import Verif.Lemmas.Duality
import Verif.Lemmas.DualEval
import Verif.Props.Tabulation3
import Verif.Props.TabExamples

/-!
# Dual bases and dual evaluation (C19-C21)

`nodeValue`, `dualValue`: the functionals of FIAT elements and of composite elements, see
`Verif/Spec/Dual.lean`. `D` is FIAT (its nodes), `R` the quadrature rules of quadrature elements.
-/

namespace FInAT.Props

open FInAT Spec Elem

variable {K : Type} [CommRing K]

theorem isDualBasis_of {Q : Gem K} {ps : PSet K} {n n' : Nat} {qi is vs : List Nat}
    {L : List Nat → (List K → List Nat → K) → K} (h : DualDen Q ps n n' qi is vs L) :
    IsDualBasis Q ps is vs L := by
  obtain ⟨G, hQ, hc⟩ := h.contract
  refine ⟨hQ.shape, h.nodup, fun ρ i f hi => ?_⟩
  rw [← hc i f hi]
  refine lsum_congr fun v hv => lsum_congr fun z hz => ?_
  have hv : InB v _ := mem_ndindex.1 hv
  have hz : InB z _ := mem_ndindex.1 hz
  have hm := map_bindIx ρ h.nodup (v := v) (by rw [hv.length]; simp)
  rw [hQ.val _ _ (PSet.valid_bindIx h.nodup ρ hv) (InB.append hi hz), hm, PSet.at_eq h.nodup hm]

variable [DecidableEq K] (D : FiatDual K) (R : Rules K)

/-- **C19.** For a FIAT element whose nodes are point functionals, `dual_basis` returns a tensor of shape
(number of nodes) ++ value shape and a point set such that contracting the tensor with the values of any
function at the points gives every node applied to the function. This includes the identity matrix
shortcut, provided that only weights equal to one are taken for one (`isOne`). -/
theorem C19_dual_basis (l : Leaf) (n d : Nat) (hone : ∀ w, D.isOne w = true → w = 1)
    (hok : NodesOK l.valueShape (D.nodes l)) (hlen : (D.nodes l).length = l.fns.length)
    (hd : ∀ nd ∈ D.nodes l, ∀ pt ∈ nd.ptDict.keys, pt.length = d) :
    Yields (leafDualBasis D l) n fun r =>
      IsDualBasis r.1 r.2 [(D.nodes l).length] l.valueShape fun i f =>
        match (D.nodes l)[i.headD 0]? with
        | some nd => nodeValue nd f
        | none => 0 := by
  let R0 : Rules K := ⟨fun _ => .singleton [], fun _ _ => true⟩
  have hD : DualOK D R0 0 (.leaf l) := by
    simp only [DualOK]
    exact ⟨hok, hlen, d, hd⟩
  obtain ⟨r, n', h1, _, h2⟩ := leafDual_spec hone hD n
  refine ⟨r, n', h1, ?_⟩
  rw [hlen]
  exact isDualBasis_of h2

omit [CommRing K] in
theorem collect_error (le : List K → List K → Bool) :
    ∀ (nodes : List (Node K)) st, (∃ nd ∈ nodes, nd.hasDeriv = true) →
      nodes.foldlM (fun (st : Dict (List (List K)) (Nat × Nat) × List (List K)) dual =>
        if dual.hasDeriv then Except.error Err.notImplemented
        else
          let pts := sortBy le dual.ptDict.keys
          if pts ∈ st.1.keys then .ok st
          else .ok (st.1.set pts (st.2.length, st.2.length + pts.length), st.2 ++ pts)) st =
        Except.error Err.notImplemented
  | [], _, h => by simp at h
  | nd :: nodes, st, h => by
    rw [List.foldlM_cons]
    by_cases hn : nd.hasDeriv = true
    · simp only [hn, if_true, bind, Except.bind]
    · have h' : ∃ nd ∈ nodes, nd.hasDeriv = true := by
        obtain ⟨x, hx, hd⟩ := h
        rcases List.mem_cons.1 hx with rfl | hx
        · exact absurd hd hn
        · exact ⟨x, hx, hd⟩
      simp only [hn, Bool.false_eq_true, if_false]
      split
      · exact collect_error le nodes _ h'
      · exact collect_error le nodes _ h'

/-- **C19**, elements with derivative nodes: `NotImplementedError`, wherever the node is in the list. -/
theorem C19_derivative_nodes (l : Leaf) (n : Nat) (h : ∃ nd ∈ D.nodes l, nd.hasDeriv = true) :
    leafDualBasis D l n = .error .notImplemented := by
  have := collect_error D.le (D.nodes l) ([], []) h
  unfold leafDualBasis collectPoints
  rw [this]
  rfl

/-- **C20**, representation: the dual basis of any tree of products, flattened, discontinuous,
tensor-valued and H(div)/H(curl) elements represents the functionals of the tree, `dualValue`: functionals
of products act factor by factor, those of tensor-valued elements on one component, those of H(div)/H(curl)
elements on the placed components. Quadrature elements in the tree must not share point indices. -/
theorem C20_dual_basis_partial (hone : ∀ w, D.isOne w = true → w = 1) (e : Elem) (n : Nat) (vs : List Nat)
    (hs : Shaped e) (hok : DualOK D R n e) (hq : (quadIds R e).Nodup) (hv : e.valueShape = .ok vs) :
    Yields (dualBasis D R e) n fun r =>
      IsDualBasis r.1 r.2 e.indexShape vs (dualValue (fiatDuals D R) e) := by
  obtain ⟨r, n', h1, _, h2⟩ := dualRuns hone e hs n n vs hok (Nat.le_refl _) hq hv
  exact ⟨r, n', h1, isDualBasis_of h2⟩

omit [DecidableEq K] in
/-- **C20**, duality: if on every leaf the functionals `ψ` are dual to the basis functions `φ`, the same
holds for the composite element: functional `i` applied to basis function `j` is one if `i = j` and zero
otherwise. -/
theorem C20_duality (φ : LeafVals K) (ψ : LeafDuals K) (e : Elem) (c : Cell) (vs i j : List Nat)
    (hs : Shaped e) (hp : DualPair φ ψ e) (hc : e.cell = .ok c) (hv : e.valueShape = .ok vs)
    (hi : InRange i e.indexShape) (hj : InRange j e.indexShape) :
    dualValue ψ e i (fun x z => basisValue φ e (List.replicate c.spatialDim 0) (c.dimension, 0) x j z) =
      if i = j then 1 else 0 :=
  duality hs hp hc hv hi hj

/-- **C20.** Interpolating a basis function yields the unit vector: if the nodes of all leaves are dual to
their basis functions, contracting the dual basis of the composite element with the values of its basis
function `j` gives the `j`-th unit vector. -/
theorem C20_interpolation_partial (hone : ∀ w, D.isOne w = true → w = 1) (φ : LeafVals K) (e : Elem) (c : Cell)
    (n : Nat) (vs : List Nat) (hs : Shaped e) (hok : DualOK D R n e) (hq : (quadIds R e).Nodup)
    (hv : e.valueShape = .ok vs) (hc : e.cell = .ok c) (hp : DualPair φ (fiatDuals D R) e) :
    Yields (dualBasis D R e) n fun r => ∀ ρ i j, InRange i e.indexShape → InRange j e.indexShape →
      ((ndindex (r.2.indices.map Index.extent)).map fun v => ((ndindex vs).map fun z =>
        r.1.eval (bindIx ρ r.2.indices v) (i ++ z) *
          basisValue φ e (List.replicate c.spatialDim 0) (c.dimension, 0)
            (r.2.pointAt (bindIx ρ r.2.indices v)) j z).sum).sum = if i = j then 1 else 0 := by
  obtain ⟨r, n', h1, h2⟩ := C20_dual_basis_partial D R hone e n vs hs hok hq hv
  refine ⟨r, n', h1, fun ρ i j hi hj => ?_⟩
  rw [h2.contract ρ i (fun x z => basisValue φ e (List.replicate c.spatialDim 0) (c.dimension, 0) x j z) hi]
  exact C20_duality φ _ e c vs i j hs hp hc hv hi hj

omit [DecidableEq K] in
/-- The placement hypothesis of `DualPair` holds for the H(div) elements that can be built (see C16). -/
theorem placement_hdiv {a b : Elem} {ca : Cell} {ka kb : Nat} {vs : List Nat}
    (h : FormPair a b ca ka kb vs) (hk : ka + kb = ca.spatialDim) :
    Placement K (selectHdiv (Elem.tensorProduct [a, b]).factorsOf) (sdim (.tensorProduct [a, b]))
      (vshape (.tensorProduct [a, b])) := by
  obtain ⟨comps, h1, _, _, h2⟩ := hdiv_select (K := K) h hk
  rw [sdim_eq h.cell, vshape_eq h.shape, spatialDim_pair]
  simp only [factorsOf, h1]
  exact h2

omit [DecidableEq K] in
/-- The placement hypothesis of `DualPair` holds for the H(curl) elements that can be built (see C16). -/
theorem placement_hcurl {a b : Elem} {ca : Cell} {ka kb : Nat} {vs : List Nat}
    (h : FormPair a b ca ka kb vs) (hk : ka + kb = 1) :
    Placement K (selectHcurl (Elem.tensorProduct [a, b]).factorsOf) (sdim (.tensorProduct [a, b]))
      (vshape (.tensorProduct [a, b])) := by
  obtain ⟨comps, h1, _, _, h2⟩ := hcurl_select (K := K) h hk
  rw [sdim_eq h.cell, vshape_eq h.shape, spatialDim_pair]
  simp only [factorsOf, h1]
  exact h2

/-- The elements whose `dual_evaluation` returns its indices in the wrong order. -/
def TransposedTensor : Elem → Prop
  | .tensorFE _ _ true => True
  | _ => False

omit [DecidableEq K] in
theorem evaluates_runs {fn : PSet K → M (Gem K)} {f : Env → List K → List Nat → K} {vs : List Nat} {n : Nat}
    (h : Evaluates fn f vs n) : ∀ ps m, n ≤ m → ps.WF m → Runs (fn ps) m fun t m' => m ≤ m' ∧
      Den ps.Valid t vs fun ρ z => f ρ (ps.pointAt ρ) z := by
  intro ps m hm hw
  obtain ⟨t, m', h1, h2, h3, h4⟩ := h ps m hm hw
  exact ⟨t, m', h1, h2, h3, h4⟩

/-- **C21.** `dual_evaluation` applied to a function returns a scalar expression and distinct basis
indices whose extents are the index shape; giving the basis indices the value `i`, the expression is the
functional `i` applied to the function (which may depend on further argument indices).
Missing for the full claim: tensor-valued elements with `transpose=True`, for which it is false, see
`C21_transposed`. -/
theorem C21_dual_evaluation_partial (hone : ∀ w, D.isOne w = true → w = 1) (e : Elem) (n : Nat)
    (vs : List Nat) (hs : Shaped e) (hok : DualOK D R n e) (hq : (quadIds R e).Nodup)
    (hv : e.valueShape = .ok vs) (hT : ¬ TransposedTensor e)
    (fn : PSet K → M (Gem K)) (f : Env → List K → List Nat → K)
    (hfn : Evaluates fn f vs n) (hf : IndependentOf f (quadIds R e) n) :
    Yields (dualEvaluation D R e fn) n fun r => r.1.shape = [] ∧ (r.2.map Index.id).Nodup ∧
      r.2.map Index.extent = e.indexShape ∧ ∀ ρ i, InRange i e.indexShape →
        r.1.eval (bindIx ρ r.2 i) [] = dualValue (fiatDuals D R) e i (f ρ) := by
  have hd := dualRuns (R := R) hone e hs
  have fin : ∀ {x : M (Gem K × List Index)}, Runs x n (fun (r : Gem K × List Index) n' =>
      n ≤ n' ∧ Fresh n n' r.2 ∧ r.1.shape = [] ∧
        r.2.map Index.extent = e.indexShape ∧ ∀ ρ i, InB i e.indexShape →
          r.1.eval (bindIx ρ r.2 i) [] = dualValue (fiatDuals D R) e i (f ρ)) →
      Yields x n fun r => r.1.shape = [] ∧ (r.2.map Index.id).Nodup ∧
      r.2.map Index.extent = e.indexShape ∧ ∀ ρ i, InRange i e.indexShape →
        r.1.eval (bindIx ρ r.2 i) [] = dualValue (fiatDuals D R) e i (f ρ) := by
    rintro x ⟨r, n', h1, _, h2, h3, h4, h5⟩
    exact ⟨r, n', h1, h3, h2.1, h4, h5⟩
  have base := dualEval_base hd hok hq hv hf (fun r m _ h1 h2 => evaluates_runs hfn r.2 m h1 h2)
  cases e with
  | tensorFE b shape tr =>
    cases tr with
    | true => exact absurd trivial hT
    | false =>
      simp only [Elem.valueShape] at hv
      rw [bind_ok] at hv
      obtain ⟨bvs, hbv, hv⟩ := hv
      cases hv
      apply fin
      refine (dualEval_tensor hd hok hq hbv hf (fun r m _ h1 h2 => evaluates_runs hfn r.2 m h1 h2)).mono ?_
      rintro r n' ⟨h1, h2, h3, h4, h5⟩
      refine ⟨h1, h2, h3, by simpa [Elem.indexShape] using h4, fun ρ i hi => ?_⟩
      simp only [Elem.indexShape, Bool.false_eq_true, if_false] at hi
      have := h5 ρ (i.take b.indexShape.length) (i.drop b.indexShape.length) hi.split.1 hi.split.2
      rw [List.take_append_drop] at this
      simpa [dualValue] using this
  | _ => exact fin base

/-- **C21**, tensor-valued elements: with either layout, the returned indices run over the index shape of
the base element followed by the tensor shape. Giving them the value `i ++ c`, the expression is functional
`i` of the base element applied to component `c`. -/
theorem C21_tensor (hone : ∀ w, D.isOne w = true → w = 1) (b : Elem) (shape : List Nat) (tr : Bool) (n : Nat)
    (bvs : List Nat) (hs : Shaped (.tensorFE b shape tr)) (hok : DualOK D R n b) (hq : (quadIds R b).Nodup)
    (hv : b.valueShape = .ok bvs)
    (fn : PSet K → M (Gem K)) (f : Env → List K → List Nat → K)
    (hfn : Evaluates fn f (shape ++ bvs) n) (hf : IndependentOf f (quadIds R b) n) :
    Yields (dualEvaluation D R (.tensorFE b shape tr) fn) n fun r => r.1.shape = [] ∧
      (r.2.map Index.id).Nodup ∧ r.2.map Index.extent = b.indexShape ++ shape ∧
      ∀ ρ i c, InRange i b.indexShape → InRange c shape → r.1.eval (bindIx ρ r.2 (i ++ c)) [] =
        dualValue (fiatDuals D R) b i fun x z => f ρ x (c ++ z) := by
  obtain ⟨r, n', h1, _, h2, h3, h4, h5⟩ := dualEval_tensor (dualRuns (R := R) hone _ hs)
    (by simp only [DualOK]; exact hok) (by simpa only [quadIds] using hq) hv
    (by simpa only [quadIds, IndependentOf] using hf) (fun r m _ h1 h2 => evaluates_runs hfn r.2 m h1 h2)
  exact ⟨r, n', h1, h3, h2.1, h4, h5⟩

/-- **C21** fails for every tensor-valued element with `transpose=True` whose tensor shape and base index
shape do not commute: the returned indices do not have the extents of the index shape. -/
theorem C21_transposed (hone : ∀ w, D.isOne w = true → w = 1) (b : Elem) (shape : List Nat) (n : Nat)
    (bvs : List Nat) (hs : Shaped (.tensorFE b shape true)) (hok : DualOK D R n b) (hq : (quadIds R b).Nodup)
    (hv : b.valueShape = .ok bvs) (hne : b.indexShape ++ shape ≠ shape ++ b.indexShape)
    (fn : PSet K → M (Gem K)) (f : Env → List K → List Nat → K)
    (hfn : Evaluates fn f (shape ++ bvs) n) (hf : IndependentOf f (quadIds R b) n) :
    Yields (dualEvaluation D R (.tensorFE b shape true) fn) n fun r =>
      r.2.map Index.extent ≠ (Elem.tensorFE b shape true).indexShape := by
  obtain ⟨r, n', h1, _, _, h4, _⟩ := C21_tensor D R hone b shape true n bvs hs hok hq hv fn f hfn hf
  refine ⟨r, n', h1, ?_⟩
  show r.2.map Index.extent ≠ _
  rw [h4]
  simpa [Elem.indexShape] using hne

/-! ### Counterexamples -/

/-- A FIAT whose element with number 7 has one node: at the point 5, weights 1 and 2 for the same
component. -/
def twiceDual : FiatDual ℤ where
  nodes _ := [⟨[([5], [(1, []), (2, [])])], false⟩]
  le _ _ := true
  isOne w := decide (w = 1)

/-- **C19** needs distinct components: a weight that is listed twice for the same point and component is
overwritten instead of added. The functional is `3 f(5)`, its representation is `2 f(5)`. -/
theorem C19_repeated_component :
    ∃ Q ps n', leafDualBasis twiceDual cg1 0 = .ok ((Q, ps), n') ∧ ps.pts = [[5]] ∧
      (∀ ρ, Q.eval (bindIx ρ ps.indices [0]) [0] = 2) ∧
      ∀ nd ∈ twiceDual.nodes cg1, ∀ f, nodeValue nd f = 3 * f [5] [] := by
  refine ⟨_, _, _, rfl, rfl, fun ρ => rfl, ?_⟩
  intro nd hnd f
  simp only [twiceDual, List.mem_singleton] at hnd
  subst hnd
  simp only [nodeValue, List.map_cons, List.map_nil, List.sum_cons, List.sum_nil]
  ring

/-- A rule with two points on the interval. -/
def twoRule : Rules ℤ where
  pointSet _ := .points .plain [[0], [1]] [⟨0, 2⟩]
  close x y := decide (x = y)

/-- **C20** needs distinct point indices: for the product of a quadrature element with itself, both factors
use the point index of the rule, and the functional `(0, 1)` (evaluation at the point with coordinates
0, 1) has weight zero at every point. -/
theorem C20_repeated_rule (D : FiatDual ℤ) :
    ∃ Q ps n', dualBasis D twoRule (.tensorProduct [.quadrature 0 (.simplex 1) [2],
        .quadrature 0 (.simplex 1) [2]]) 1 = .ok ((Q, ps), n') ∧ Q.shape = [2, 2] ∧
      ps.indices = [⟨0, 2⟩, ⟨0, 2⟩] ∧ ∀ ρ, Q.eval ρ [0, 1] = 0 := by
  refine ⟨_, _, _, rfl, rfl, rfl, fun ρ => ?_⟩
  show (if ρ 0 = 0 then (1 : ℤ) else 0) * (if ρ 0 = 1 then 1 else 0) = 0
  split_ifs <;> simp_all

/-! ### The hypotheses are met -/

omit [DecidableEq K] in
theorem nodeValue_lawful {vs : List Nat} {d : Nat} {nd : Node K}
    (hp : ∀ p ∈ nd.ptDict, p.1.length = d) (hw : ∀ p ∈ nd.ptDict, ∀ wc ∈ p.2, InRange wc.2 vs) :
    Lawful d vs (nodeValue nd) := by
  constructor
  · intro f g h
    unfold nodeValue
    refine lsum_congr fun p hpm => lsum_congr fun wc hwm => ?_
    rw [h _ _ (hp p hpm) (hw p hpm wc hwm)]
  · intro c f
    unfold nodeValue
    refine Eq.trans ?_ (lsum_mul_left c nd.ptDict _)
    refine lsum_congr fun p _ => ?_
    refine Eq.trans ?_ (lsum_mul_left c p.2 _)
    exact lsum_congr fun wc _ => by ring

/-- Evaluation at a point, as FIAT writes it. -/
def ptEval (x : List ℤ) : Node ℤ := ⟨[(x, [(1, [])])], false⟩

/-- The nodes of CG1 (end points) and of the constant element (one point). -/
def exDual : FiatDual ℤ where
  nodes l := if l.id = 0 then [ptEval [0], ptEval [1]] else [ptEval [3]]
  le x y := decide (x.headD 0 ≤ y.headD 0)
  isOne w := decide (w = 1)

theorem exDual_one : ∀ w, exDual.isOne w = true → w = 1 := fun w h => of_decide_eq_true h

theorem nodesOK_ptEval {xs : List (List ℤ)} (h : xs ≠ []) : NodesOK [] (xs.map ptEval) := by
  refine ⟨?_, by simpa using h, ?_, ?_, by simp⟩
  · simp [ptEval]
  · simp [ptEval, Dict.keys]
  · simp [ptEval]

theorem exDual_ok (l : Leaf) (hl : l = cg1 ∨ l = dg0) (n : Nat) : DualOK exDual twoRule n (.leaf l) := by
  simp only [DualOK]
  rcases hl with rfl | rfl
  · exact ⟨nodesOK_ptEval (xs := [[0], [1]]) (by simp), rfl, 1, by simp [exDual, cg1, ptEval, Dict.keys]⟩
  · exact ⟨nodesOK_ptEval (xs := [[3]]) (by simp), rfl, 1, by simp [exDual, dg0, ptEval, Dict.keys]⟩

/-- The nodes are dual to the basis functions of the example FIAT. -/
theorem exDual_pair (l : Leaf) (hl : l = cg1 ∨ l = dg0) :
    DualPair (leafVals exFiat twoRule) (fiatDuals exDual twoRule) (.leaf l) := by
  simp only [DualPair]
  have hlaw : ∀ x : ℤ, Lawful 1 [] (nodeValue (ptEval [x])) := fun x =>
    nodeValue_lawful (by simp [ptEval]) (by simp [ptEval, InRange])
  rcases hl with rfl | rfl
  · constructor
    · intro i hi
      have : i = 0 ∨ i = 1 := by have : i < 2 := hi; omega
      rcases this with rfl | rfl
      · exact hlaw 0
      · exact hlaw 1
    · intro i hi j hj
      have h1 : i = 0 ∨ i = 1 := by have : i < 2 := hi; omega
      have h2 : j = 0 ∨ j = 1 := by have : j < 2 := hj; omega
      have hfn : ∀ x z, (leafVals exFiat twoRule).leaf cg1 (List.replicate cg1.cell.spatialDim 0)
        (cg1.cell.dimension, 0) x [j] z = evalAt x (exPoly cg1 j z) := fun _ _ => rfl
      simp only [hfn]
      rcases h1 with rfl | rfl <;> rcases h2 with rfl | rfl <;>
        simp [fiatDuals, exDual, cg1, nodeValue, ptEval, exPoly, evalAt]
  · constructor
    · intro i hi
      have : i = 0 := by have : i < 1 := hi; omega
      subst this
      exact hlaw 3
    · intro i hi j hj
      have h1 : i = 0 := by have : i < 1 := hi; omega
      have h2 : j = 0 := by have : j < 1 := hj; omega
      subst h1 h2
      have hfn : ∀ x z, (leafVals exFiat twoRule).leaf dg0 (List.replicate dg0.cell.spatialDim 0)
        (dg0.cell.dimension, 0) x [0] z = evalAt x (exPoly dg0 0 z) := fun _ _ => rfl
      simp only [hfn]
      simp [fiatDuals, exDual, dg0, nodeValue, ptEval, exPoly, evalAt]

/-- A quadrature element on the interval. -/
def exQuad : Elem := .quadrature 0 (.simplex 1) [2]

theorem exQuad_ok : DualOK exDual twoRule 1 exQuad := by
  simp only [exQuad, DualOK, twoRule, PSet.WF]
  exact ⟨⟨by simp, by decide, 1, by simp⟩, rfl, by simp⟩

theorem exQuad_pair : DualPair (leafVals exFiat twoRule) (fiatDuals exDual twoRule) exQuad := by
  simp only [exQuad, DualPair]
  have key : ∀ i : List Nat, List.Forall₂ (· < ·) i [2] → i = [0] ∨ i = [1] := by
    intro i hi
    cases hi with
    | @cons a _ t _ ha ht =>
    cases ht
    have : a = 0 ∨ a = 1 := by omega
    rcases this with rfl | rfl
    · exact .inl rfl
    · exact .inr rfl
  constructor
  · intro i hi
    rcases key i hi with rfl | rfl
    · exact ⟨fun f g h => h [0] [] rfl .nil, fun c f => rfl⟩
    · exact ⟨fun f g h => h [1] [] rfl .nil, fun c f => rfl⟩
  · intro i j hi hj
    rcases key i hi with rfl | rfl <;> rcases key j hj with rfl | rfl <;> rfl

/-- Vector-valued (three components, functions numbered by component first): the product of an H(div)
element on the square with a quadrature element. -/
def exTree (tr : Bool) : Elem :=
  .tensorFE (.tensorProduct [.hdiv (.tensorProduct [.leaf cg1, .leaf dg0]), .discontinuous exQuad]) [3] tr

theorem exTree_shaped (tr : Bool) : Shaped (exTree tr) := by
  have h1 : Shaped (.hdiv (.tensorProduct [.leaf cg1, .leaf dg0])) := by
    rw [Shaped]
    exact ⟨shaped_rt, _, _, _, rfl, rfl, rfl, rfl, by simp, by simp⟩
  simp only [exTree]
  rw [Shaped, Shaped]
  refine ⟨⟨by simp, ?_⟩, by simp⟩
  intro f hf
  rcases List.mem_cons.1 hf with rfl | hf
  · exact h1
  · rcases List.mem_cons.1 hf with rfl | hf
    · simp [Shaped, exQuad]
    · simp at hf

theorem exTree_ok (tr : Bool) : DualOK exDual twoRule 1 (exTree tr) := by
  simp only [exTree, DualOK, DualOKL, and_true]
  exact ⟨⟨by simpa only [DualOK] using exDual_ok cg1 (.inl rfl) 1,
    by simpa only [DualOK] using exDual_ok dg0 (.inr rfl) 1⟩, exQuad_ok⟩

theorem exTree_pair (tr : Bool) : DualPair (leafVals exFiat twoRule) (fiatDuals exDual twoRule) (exTree tr) := by
  have h1 := exDual_pair cg1 (.inl rfl)
  have h2 := exDual_pair dg0 (.inr rfl)
  have h3 := exQuad_pair
  have h4 : DualPair (leafVals exFiat twoRule) (fiatDuals exDual twoRule)
      (.hdiv (.tensorProduct [.leaf cg1, .leaf dg0])) := by
    rw [DualPair]
    exact ⟨by rw [DualPair, DualPairL, DualPairL, DualPairL]; exact ⟨h1, h2, trivial⟩,
      placement_hdiv pair_rt rfl⟩
  simp only [exTree]
  rw [DualPair, DualPair, DualPairL, DualPairL, DualPairL, DualPair]
  exact ⟨h4, h3, trivial⟩

/-- C19 applies. -/
example := C19_dual_basis exDual cg1 0 1 exDual_one (nodesOK_ptEval (xs := [[0], [1]]) (by simp)) rfl
  (by simp [exDual, cg1, ptEval, Dict.keys])

/-- C20 applies to a tree with 12 basis functions with values of shape (3, 2), on a hexahedron-like cell
(interval x interval) x interval. -/
example (tr : Bool) := C20_interpolation_partial exDual twoRule exDual_one (leafVals exFiat twoRule) (exTree tr)
  (.prod [.prod [.simplex 1, .simplex 1], .simplex 1]) 1 [3, 2] (exTree_shaped tr) (exTree_ok tr)
  (by simp [exTree, quadIds, quadIdsL, exQuad, twoRule, PSet.indices]) rfl rfl (exTree_pair tr)

/-- A constant function: the components are 10, 11, 20, 21, 30, 31. -/
def exFn (_ : PSet ℤ) : M (Gem ℤ) :=
  pure (.literal [3, 2] fun v => 10 * (v.headD 0 + 1 : ℤ) + (v.drop 1).headD 0)

theorem exFn_evaluates : Evaluates exFn (fun _ _ v => 10 * (v.headD 0 + 1 : ℤ) + (v.drop 1).headD 0) [3, 2] 1 :=
  fun ps m _ _ => ⟨_, m, rfl, Nat.le_refl _, rfl, fun ρ z _ _ => rfl⟩

/-- C21 applies, and fails for the transposed element. -/
example := C21_dual_evaluation_partial exDual twoRule exDual_one (exTree false) 1 [3, 2] (exTree_shaped _)
  (exTree_ok _) (by simp [exTree, quadIds, quadIdsL, exQuad, twoRule, PSet.indices]) rfl
  (by simp [TransposedTensor, exTree]) exFn _ exFn_evaluates (fun _ _ _ => rfl)
example := C21_transposed exDual twoRule exDual_one _ [3] 1 [2] (exTree_shaped true)
  (exTree_ok true) (by simp [quadIds, quadIdsL, exQuad, twoRule, PSet.indices]) rfl
  (by decide) exFn _ exFn_evaluates (fun _ _ _ => rfl)

end FInAT.Props
