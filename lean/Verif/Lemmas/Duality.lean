import Verif.Lemmas.Dual
import Verif.Lemmas.Poly
import Verif.Props.Dofs

/-!
# Duality of composite elements
-/

namespace FInAT

open Spec Elem Props

variable {K : Type} [CommRing K] {φ : LeafVals K} {ψ : LeafDuals K}

theorem unwrapValue_ok (l : List Comp) (g : List Nat → K) (z : List Nat) :
    unwrapValue (.ok l) g z = lsum (List.range l.length) fun j =>
      (match l[j]? with | none => 0 | some c => compCoeff z c) * g [j] := rfl

theorem lawful_wrap {d : Nat} {vs : List Nat} {L : (List K → List Nat → K) → K} (h : Lawful d vs L)
    {comps : List Comp} (hl : comps.length = d') :
    Lawful d [d'] (fun f => L fun x z => unwrapValue (.ok comps) (f x) z) := by
  constructor
  · intro f g hfg
    refine h.congr _ _ fun x z hx _ => ?_
    rw [unwrapValue_ok, unwrapValue_ok]
    refine lsum_congr fun j hj => ?_
    rw [hfg x [j] hx (.cons (by rw [← hl]; exact List.mem_range.1 hj) .nil)]
  · intro c f
    rw [← h.smul]
    refine h.congr _ _ fun x z _ _ => ?_
    rw [unwrapValue_ok, unwrapValue_ok, ← lsum_mul_left]
    exact lsum_congr fun j _ => by ring

mutual
theorem lawful_dual : ∀ {e : Elem} {c : Cell} {vs i : List Nat}, Shaped e → DualPair φ ψ e → e.cell = .ok c →
    e.valueShape = .ok vs → InB i e.indexShape → Lawful c.spatialDim vs (dualValue ψ e i)
  | .leaf l, c, vs, i, _, hp, hc, hv, hi => by
    simp only [Elem.cell] at hc
    simp only [Elem.valueShape] at hv
    cases hc; cases hv
    simp only [DualPair] at hp
    simp only [Elem.indexShape] at hi
    cases hi with
    | @cons a _ t _ ha ht =>
    cases ht
    have := hp.1 a ha
    exact ⟨fun f g h => by simp only [dualValue, List.headD_cons]; exact this.congr f g h,
      fun c f => by simp only [dualValue, List.headD_cons]; exact this.smul c f⟩
  | .tensorProduct fs, c, vs, i, hs, hp, hc, hv, hi => by
    rw [Shaped] at hs
    simp only [DualPair] at hp
    simp only [Elem.cell] at hc
    rw [bind_ok] at hc
    obtain ⟨cs, hcs, hc⟩ := hc
    cases hc
    simp only [Elem.valueShape] at hv
    rw [bind_ok] at hv
    obtain ⟨ss, hss, hpv⟩ := hv
    have hfl := prodValueShape_flatten hpv
    subst hfl
    simp only [Elem.indexShape] at hi
    have := lawful_prod hs.2 hp hcs hss hi
    simp only [Cell.spatialDim]
    exact ⟨fun f g h => by simp only [dualValue]; exact this.congr f g h,
      fun c f => by simp only [dualValue]; exact this.smul c f⟩
  | .flattened p, c, vs, i, hs, hp, hc, hv, hi => by
    rw [Shaped] at hs
    simp only [DualPair] at hp
    simp only [Elem.valueShape] at hv
    simp only [Elem.indexShape] at hi
    simp only [Elem.cell] at hc
    rw [bind_ok] at hc
    obtain ⟨cq, hcq, hc⟩ := hc
    have hsd : c.spatialDim = cq.spatialDim := by
      split at hc
      · next h => cases hc; rw [h]; rfl
      · split at hc
        · next h => cases hc; rw [h]; rfl
        · cases hc
    rw [hsd]
    have := lawful_dual hs hp hcq hv hi
    exact ⟨fun f g h => by simp only [dualValue]; exact this.congr f g h,
      fun c f => by simp only [dualValue]; exact this.smul c f⟩
  | .enriched _, _, _, _, _, hp, _, _, _ => by simp [DualPair] at hp
  | .mixedSub _ _ _, _, _, _, _, hp, _, _, _ => by simp [DualPair] at hp
  | .discontinuous e, c, vs, i, hs, hp, hc, hv, hi => by
    rw [Shaped] at hs
    simp only [DualPair] at hp
    simp only [Elem.cell] at hc
    simp only [Elem.valueShape] at hv
    simp only [Elem.indexShape] at hi
    have := lawful_dual hs hp hc hv hi
    exact ⟨fun f g h => by simp only [dualValue]; exact this.congr f g h,
      fun c f => by simp only [dualValue]; exact this.smul c f⟩
  | .tensorFE e shape tr, c, vs', i, hs, hp, hc, hv, hi => by
    rw [Shaped] at hs
    simp only [DualPair] at hp
    simp only [Elem.cell] at hc
    simp only [Elem.valueShape] at hv
    rw [bind_ok] at hv
    obtain ⟨vs, hvs, hv⟩ := hv
    cases hv
    simp only [Elem.indexShape] at hi
    have hb : InB (if tr then i.drop shape.length else i.take e.indexShape.length) e.indexShape ∧
        InB (if tr then i.take shape.length else i.drop e.indexShape.length) shape := by
      cases tr
      · simp only [Bool.false_eq_true, if_false] at hi ⊢
        exact hi.split
      · simp only [if_true] at hi ⊢
        exact hi.split.symm
    have := lawful_dual hs.1 hp hc hvs hb.1
    constructor
    · intro f g h
      simp only [dualValue]
      exact this.congr _ _ fun x z hx hz => h x _ hx (InB.append hb.2 hz)
    · intro a f
      simp only [dualValue]
      exact this.smul a _
  | .hdiv w, c, vs', i, hs, hp, hc, hv, hi => by
    rw [Shaped] at hs
    obtain ⟨hs, comps, vs, c', h1, h2, h3, h4, _, _⟩ := hs
    simp only [DualPair] at hp
    simp only [Elem.cell, h3] at hc
    cases hc
    simp only [Elem.valueShape, h3, bind, Except.bind] at hv
    cases hv
    simp only [Elem.indexShape] at hi
    have := lawful_wrap (lawful_dual hs hp.1 h3 h2 hi) h4
    exact ⟨fun f g h => by simp only [dualValue, h1]; exact this.congr f g h,
      fun c f => by simp only [dualValue, h1]; exact this.smul c f⟩
  | .hcurl w, c, vs', i, hs, hp, hc, hv, hi => by
    rw [Shaped] at hs
    obtain ⟨hs, comps, vs, c', h1, h2, h3, h4, _, _⟩ := hs
    simp only [DualPair] at hp
    simp only [Elem.cell, h3] at hc
    cases hc
    simp only [Elem.valueShape, h3, bind, Except.bind] at hv
    cases hv
    simp only [Elem.indexShape] at hi
    have := lawful_wrap (lawful_dual hs hp.1 h3 h2 hi) h4
    exact ⟨fun f g h => by simp only [dualValue, h1]; exact this.congr f g h,
      fun c f => by simp only [dualValue, h1]; exact this.smul c f⟩
  | .quadrature r c0 ext, c, vs, i, _, hp, hc, hv, hi => by
    simp only [Elem.cell] at hc
    simp only [Elem.valueShape] at hv
    cases hc; cases hv
    simp only [DualPair] at hp
    simp only [Elem.indexShape] at hi
    have := hp.1 i hi
    exact ⟨fun f g h => by simp only [dualValue]; exact this.congr f g h,
      fun c f => by simp only [dualValue]; exact this.smul c f⟩
theorem lawful_prod : ∀ {fs : List Elem} {cs : List Cell} {ss : List (List Nat)} {i : List Nat},
    (∀ f ∈ fs, Shaped f) → DualPairL φ ψ fs → Elem.cellL fs = .ok cs → Elem.valueShapeL fs = .ok ss →
    InB i (Elem.indexShapeL fs).flatten → Lawful (Cell.spatialDimL cs) ss.flatten (prodDualValue ψ fs i)
  | [], cs, ss, i, _, _, hc, hs, hi => by
    simp only [Elem.cellL] at hc
    simp only [Elem.valueShapeL] at hs
    cases hc; cases hs
    constructor
    · intro f g h
      simp only [prodDualValue]
      exact h [] [] rfl .nil
    · intro c f
      simp only [prodDualValue]
  | f :: fs, cs, ss, i, hsh, hp, hc, hs, hi => by
    obtain ⟨c, cs', hc1, hc2, rfl⟩ := cellL_cons hc
    obtain ⟨s, ss', hs1, hs2, rfl⟩ := valueShapeL_cons hs
    simp only [DualPairL] at hp
    simp only [Elem.indexShapeL, List.flatten_cons] at hi
    have h1 := lawful_dual (hsh f List.mem_cons_self) hp.1 hc1 hs1 hi.split.1
    have h2 := lawful_prod (fun g hg => hsh g (List.mem_cons_of_mem _ hg)) hp.2 hc2 hs2 hi.split.2
    simp only [Cell.spatialDimL, List.flatten_cons]
    constructor
    · intro g g' h
      simp only [prodDualValue]
      refine h1.congr _ _ fun x z hx hz => h2.congr _ _ fun y w hy hw => ?_
      exact h _ _ (by simp [hx, hy]) (InB.append hz hw)
    · intro a g
      simp only [prodDualValue]
      rw [← h1.smul]
      exact h1.congr _ _ fun x z _ _ => h2.smul a _
end

theorem compCoeff_eq (z : List Nat) (c : Comp) :
    (compCoeff z c : K) = compValue (fun ix => if ix = z then 1 else 0) c := by
  cases c with
  | zero => rfl
  | entry neg ix =>
    cases neg
    · simp [compCoeff, compValue]
    · simp only [compCoeff, compValue]
      split_ifs <;> simp

/-- Unwrapping a wrapped function. -/
theorem unwrap_wrap {comps : List Comp} {d : Nat} {vs : List Nat} (hl : comps.length = d)
    (h : Placement K (.ok comps) d vs) (F : List Nat → K) {z : List Nat} (hz : InB z vs) :
    unwrapValue (.ok comps) (fun w => wrapValue (.ok comps) F (w.headD 0)) z = F z := by
  have := h (fun ix => if ix = z then 1 else 0) F
  have hr : ((ndindex vs).map fun w => (if w = z then 1 else 0) * F w).sum = F z := by
    have h2 := lsum_delta (K := K) (nodup_ndindex vs) (mem_ndindex.2 hz) F
    rw [← h2]
    refine lsum_congr fun w _ => ?_
    by_cases hw : w = z
    · simp [hw]
    · rw [if_neg hw, if_neg (Ne.symm hw), zero_mul]
  rw [hr] at this
  rw [← this, unwrapValue_ok, hl]
  refine lsum_congr fun j hj => ?_
  simp only [List.headD_cons, wrapValue]
  cases comps[j]? with
  | none => simp
  | some c => simp only [compCoeff_eq]

mutual
theorem duality : ∀ {e : Elem} {c : Cell} {vs i j : List Nat}, Shaped e → DualPair φ ψ e → e.cell = .ok c →
    e.valueShape = .ok vs → InB i e.indexShape → InB j e.indexShape →
    dualValue ψ e i (fun x z => basisValue φ e (List.replicate c.spatialDim 0) (c.dimension, 0) x j z) =
      if i = j then 1 else 0
  | .leaf l, c, vs, i, j, _, hp, hc, hv, hi, hj => by
    simp only [Elem.cell] at hc
    cases hc
    simp only [DualPair] at hp
    simp only [Elem.indexShape] at hi hj
    cases hi with
    | @cons a _ t _ ha ht =>
    cases ht
    cases hj with
    | @cons b _ t _ hb ht =>
    cases ht
    simp only [dualValue, basisValue, List.headD_cons]
    rw [hp.2 a ha b hb]
    simp
  | .tensorProduct fs, c, vs, i, j, hs, hp, hc, hv, hi, hj => by
    rw [Shaped] at hs
    simp only [DualPair] at hp
    simp only [Elem.cell] at hc
    rw [bind_ok] at hc
    obtain ⟨cs, hcs, hc⟩ := hc
    cases hc
    simp only [Elem.valueShape] at hv
    rw [bind_ok] at hv
    obtain ⟨ss, hss, hpv⟩ := hv
    simp only [Elem.indexShape] at hi hj
    have := duality_prod hs.2 hp hcs hss hi hj
    simp only [dualValue, basisValue, factorEnts_cell hcs, Cell.spatialDim]
    exact this
  | .flattened p, c, vs, i, j, hs, hp, hc, hv, hi, hj => by
    rw [Shaped] at hs
    simp only [DualPair] at hp
    have hc0 := hc
    simp only [Elem.valueShape] at hv
    simp only [Elem.indexShape] at hi hj
    simp only [Elem.cell] at hc
    rw [bind_ok] at hc
    obtain ⟨cq, hcq, hc⟩ := hc
    have hsd : c.spatialDim = cq.spatialDim := by
      split at hc
      · next h => cases hc; rw [h]; rfl
      · split at hc
        · next h => cases hc; rw [h]; rfl
        · cases hc
    have hun : productEnt p (c.dimension, 0) = (cq.dimension, 0) := productEnt_cell hcq hc0
    have := duality hs hp hcq hv hi hj
    simp only [dualValue, basisValue, hun, hsd]
    exact this
  | .enriched _, _, _, _, _, _, hp, _, _, _, _ => by simp [DualPair] at hp
  | .mixedSub _ _ _, _, _, _, _, _, hp, _, _, _, _ => by simp [DualPair] at hp
  | .discontinuous e, c, vs, i, j, hs, hp, hc, hv, hi, hj => by
    rw [Shaped] at hs
    simp only [DualPair] at hp
    simp only [Elem.cell] at hc
    simp only [Elem.valueShape] at hv
    simp only [Elem.indexShape] at hi hj
    simp only [dualValue, basisValue]
    exact duality hs hp hc hv hi hj
  | .tensorFE e shape tr, c, vs', i, j, hs, hp, hc, hv, hi, hj => by
    rw [Shaped] at hs
    simp only [DualPair] at hp
    simp only [Elem.cell] at hc
    simp only [Elem.valueShape] at hv
    rw [bind_ok] at hv
    obtain ⟨vs, hvs, hv⟩ := hv
    cases hv
    simp only [Elem.indexShape] at hi hj
    have key : ∀ i, InB i (if tr then shape ++ e.indexShape else e.indexShape ++ shape) →
        InB (if tr then i.drop shape.length else i.take e.indexShape.length) e.indexShape ∧
        InB (if tr then i.take shape.length else i.drop e.indexShape.length) shape := by
      intro i hi
      cases tr
      · simp only [Bool.false_eq_true, if_false] at hi ⊢
        exact hi.split
      · simp only [if_true] at hi ⊢
        exact hi.split.symm
    have hbi := key i hi
    have hbj := key j hj
    have hij : i = j ↔ (if tr then i.drop shape.length else i.take e.indexShape.length) =
        (if tr then j.drop shape.length else j.take e.indexShape.length) ∧
        (if tr then i.take shape.length else i.drop e.indexShape.length) =
        (if tr then j.take shape.length else j.drop e.indexShape.length) := by
      constructor
      · rintro rfl; exact ⟨rfl, rfl⟩
      · rintro ⟨h1, h2⟩
        cases tr
        · simp only [Bool.false_eq_true, if_false] at h1 h2
          rw [← List.take_append_drop e.indexShape.length i, h1, h2, List.take_append_drop]
        · simp only [if_true] at h1 h2
          rw [← List.take_append_drop shape.length i, h1, h2, List.take_append_drop]
    simp only [dualValue, basisValue, hij]
    generalize (if tr then i.drop shape.length else i.take e.indexShape.length) = bi at *
    generalize (if tr then j.drop shape.length else j.take e.indexShape.length) = bj at *
    generalize (if tr then i.take shape.length else i.drop e.indexShape.length) = ci at *
    generalize (if tr then j.take shape.length else j.drop e.indexShape.length) = cj at *
    have hL := lawful_dual hs.1 hp hc hvs hbi.1
    have hd := duality hs.1 hp hc hvs hbi.1 hbj.1
    rw [hL.congr _ (fun x z => (if cj = ci then 1 else 0) *
      basisValue φ e (List.replicate c.spatialDim 0) (c.dimension, 0) x bj z) (fun x z hx hz => by
        rw [← hbi.2.length, List.take_left, List.drop_left]
        split_ifs <;> simp), hL.smul, hd]
    by_cases h1 : bi = bj <;> by_cases h2 : cj = ci
    · simp [h1, h2]
    · simp [h2, Ne.symm h2]
    · simp [h1]
    · simp [h1]
  | .hdiv w, c, vs', i, j, hs, hp, hc, hv, hi, hj => by
    rw [Shaped] at hs
    obtain ⟨hs, comps, vs, c', h1, h2, h3, h4, _, _⟩ := hs
    simp only [DualPair] at hp
    simp only [Elem.cell, h3] at hc
    cases hc
    simp only [Elem.indexShape] at hi hj
    have hL := lawful_dual hs hp.1 h3 h2 hi
    have hd := duality hs hp.1 h3 h2 hi hj
    have hpl := hp.2
    rw [h1, sdim_eq h3, vshape_eq h2] at hpl
    simp only [dualValue, basisValue, h1]
    rw [← hd]
    exact hL.congr _ _ fun x z _ hz => unwrap_wrap h4 hpl _ hz
  | .hcurl w, c, vs', i, j, hs, hp, hc, hv, hi, hj => by
    rw [Shaped] at hs
    obtain ⟨hs, comps, vs, c', h1, h2, h3, h4, _, _⟩ := hs
    simp only [DualPair] at hp
    simp only [Elem.cell, h3] at hc
    cases hc
    simp only [Elem.indexShape] at hi hj
    have hL := lawful_dual hs hp.1 h3 h2 hi
    have hd := duality hs hp.1 h3 h2 hi hj
    have hpl := hp.2
    rw [h1, sdim_eq h3, vshape_eq h2] at hpl
    simp only [dualValue, basisValue, h1]
    rw [← hd]
    exact hL.congr _ _ fun x z _ hz => unwrap_wrap h4 hpl _ hz
  | .quadrature r c0 ext, c, vs, i, j, _, hp, hc, hv, hi, hj => by
    simp only [Elem.cell] at hc
    cases hc
    simp only [DualPair] at hp
    simp only [Elem.indexShape] at hi hj
    simp only [dualValue, basisValue]
    exact hp.2 i j hi hj
theorem duality_prod : ∀ {fs : List Elem} {cs : List Cell} {ss : List (List Nat)} {i j : List Nat},
    (∀ f ∈ fs, Shaped f) → DualPairL φ ψ fs → Elem.cellL fs = .ok cs → Elem.valueShapeL fs = .ok ss →
    InB i (Elem.indexShapeL fs).flatten → InB j (Elem.indexShapeL fs).flatten →
    prodDualValue ψ fs i (fun x z => prodValue φ fs (List.replicate (Cell.spatialDimL cs) 0)
      (cs.map fun c => (c.dimension, 0)) x j z) = if i = j then 1 else 0
  | [], cs, ss, i, j, _, _, hc, hs, hi, hj => by
    simp only [Elem.indexShapeL, List.flatten_nil] at hi hj
    cases hi; cases hj
    simp [prodDualValue, prodValue]
  | f :: fs, cs, ss, i, j, hsh, hp, hc, hs, hi, hj => by
    obtain ⟨c, cs', hc1, hc2, rfl⟩ := cellL_cons hc
    obtain ⟨s, ss', hs1, hs2, rfl⟩ := valueShapeL_cons hs
    simp only [DualPairL] at hp
    simp only [Elem.indexShapeL, List.flatten_cons] at hi hj
    have h1 := lawful_dual (hsh f List.mem_cons_self) hp.1 hc1 hs1 hi.split.1
    have h2 := lawful_prod (fun g hg => hsh g (List.mem_cons_of_mem _ hg)) hp.2 hc2 hs2 hi.split.2
    have d1 := duality (hsh f List.mem_cons_self) hp.1 hc1 hs1 hi.split.1 hj.split.1
    have d2 := duality_prod (fun g hg => hsh g (List.mem_cons_of_mem _ hg)) hp.2 hc2 hs2 hi.split.2 hj.split.2
    simp only [prodDualValue, List.map_cons, prodValue, Cell.spatialDimL, sdim_eq hc1, vshape_eq hs1,
      Cell.total_dimension]
    rw [h1.congr _ (fun x z => (if i.drop f.indexShape.length = j.drop f.indexShape.length then 1 else 0) *
      basisValue φ f (List.replicate c.spatialDim 0) (c.dimension, 0) x (j.take f.indexShape.length) z)]
    · rw [h1.smul, d1]
      by_cases e1 : i.take f.indexShape.length = j.take f.indexShape.length <;>
        by_cases e2 : i.drop f.indexShape.length = j.drop f.indexShape.length
      · have hij : i = j := by
          rw [← List.take_append_drop f.indexShape.length i, e1, e2, List.take_append_drop]
        rw [if_pos e1, if_pos e2, if_pos hij, one_mul]
      · have hij : ¬ i = j := fun h => e2 (by rw [h])
        rw [if_neg e2, if_neg hij, zero_mul]
      · have hij : ¬ i = j := fun h => e1 (by rw [h])
        rw [if_neg e1, if_neg hij, mul_zero]
      · have hij : ¬ i = j := fun h => e2 (by rw [h])
        rw [if_neg e2, if_neg hij, zero_mul]
    · intro x z hx hz
      rw [← d2, mul_comm, ← h2.smul]
      refine h2.congr _ _ fun y w hy hw => ?_
      have hz' : z.length = s.length := InB.length hz
      rw [List.take_left' hx, List.drop_left' hx, List.take_left' hz', List.drop_left' hz']
      simp [List.take_replicate, List.drop_replicate]
end

end FInAT
