import Verif.Spec.Poly
import Verif.Lemmas.Admits
import Mathlib.Algebra.MvPolynomial.Supported

/-!
# Derivatives of products of polynomials in separate variables
-/

namespace FInAT

open Spec Elem MvPolynomial Props

variable {K : Type} [CommRing K]

/-- Polynomials in the first `d` variables. -/
noncomputable abbrev PolyLt (K : Type) [CommRing K] (d : Nat) : Subalgebra K (MvPolynomial ℕ K) :=
  supported K {k | k < d}

theorem pderiv_supported (s : Set ℕ) (k : ℕ) {p : MvPolynomial ℕ K} (h : p ∈ supported K s) :
    pderiv k p ∈ supported K s := by
  classical
  rw [supported_eq_adjoin_X] at h
  induction h using Algebra.adjoin_induction with
  | mem x hx =>
    obtain ⟨j, hj, rfl⟩ := hx
    rw [pderiv_X]
    by_cases hk : j = k
    · subst hk; rw [Pi.single_eq_same]; exact one_mem _
    · rw [Pi.single_eq_of_ne hk]; exact zero_mem _
  | algebraMap r =>
    rw [show algebraMap K (MvPolynomial ℕ K) r = C r from rfl, pderiv_C]; exact zero_mem _
  | add x y _ _ hx hy => rw [map_add]; exact add_mem hx hy
  | mul x y hx' hy' hx hy =>
    rw [pderiv_mul]
    exact add_mem (mul_mem hx hy') (mul_mem hx' hy)

theorem pderiv_zero_of_supported {s : Set ℕ} {k : ℕ} {p : MvPolynomial ℕ K} (h : p ∈ supported K s)
    (hk : k ∉ s) : pderiv k p = 0 :=
  pderiv_eq_zero_of_notMem_vars fun hm => hk (mem_supported.1 h hm)

theorem iter_supported (s : Set ℕ) (k a : ℕ) {p : MvPolynomial ℕ K} (h : p ∈ supported K s) :
    (pderiv k)^[a] p ∈ supported K s := by
  induction a generalizing p with
  | zero => exact h
  | succ a ih => rw [Function.iterate_succ_apply]; exact ih (pderiv_supported s k h)

theorem partialD_supported (s : Set ℕ) {p : MvPolynomial ℕ K} (h : p ∈ supported K s) :
    ∀ (o : Nat) (α : List Nat), partialD o α p ∈ supported K s
  | _, [] => h
  | o, a :: α => iter_supported s o a (partialD_supported s h (o + 1) α)

theorem iter_zero (k a : ℕ) : (pderiv k)^[a] (0 : MvPolynomial ℕ K) = 0 := by
  induction a with
  | zero => rfl
  | succ a ih => rw [Function.iterate_succ_apply, map_zero, ih]

theorem iter_neg (k a : ℕ) (p : MvPolynomial ℕ K) : (pderiv k)^[a] (-p) = -(pderiv k)^[a] p := by
  induction a generalizing p with
  | zero => rfl
  | succ a ih => rw [Function.iterate_succ_apply, map_neg, ih, Function.iterate_succ_apply]

theorem partialD_zero : ∀ (o : Nat) (α : List Nat), partialD o α (0 : MvPolynomial ℕ K) = 0
  | _, [] => rfl
  | o, a :: α => by rw [partialD, partialD_zero, iter_zero]

theorem partialD_neg : ∀ (o : Nat) (α : List Nat) (p : MvPolynomial ℕ K),
    partialD o α (-p) = - partialD o α p
  | _, [], _ => rfl
  | o, a :: α, p => by rw [partialD, partialD_neg, iter_neg, partialD]

theorem iter_mul_const {k : ℕ} {r : MvPolynomial ℕ K} (hr : pderiv k r = 0) (a : ℕ)
    (p : MvPolynomial ℕ K) : (pderiv k)^[a] (p * r) = (pderiv k)^[a] p * r := by
  induction a generalizing p with
  | zero => rfl
  | succ a ih =>
    rw [Function.iterate_succ_apply, pderiv_mul, hr, mul_zero, add_zero, ih, Function.iterate_succ_apply]

/-- A factor without the variables `o, o+1, ...` covered by `α` can be pulled out on the right. -/
theorem partialD_mul_right {r : MvPolynomial ℕ K} : ∀ (o : Nat) (α : List Nat) (p : MvPolynomial ℕ K),
    (∀ k, o ≤ k → k < o + α.length → pderiv k r = 0) → partialD o α (p * r) = partialD o α p * r
  | _, [], _, _ => rfl
  | o, a :: α, p, h => by
    rw [partialD, partialD_mul_right (o + 1) α p (fun k h1 h2 => h k (by omega) (by simp; omega)),
      iter_mul_const (h o (Nat.le_refl _) (by simp)), partialD]

theorem partialD_mul_left {r : MvPolynomial ℕ K} (o : Nat) (α : List Nat) (p : MvPolynomial ℕ K)
    (h : ∀ k, o ≤ k → k < o + α.length → pderiv k r = 0) :
    partialD o α (r * p) = r * partialD o α p := by
  rw [mul_comm, partialD_mul_right o α p h, mul_comm]

theorem partialD_append : ∀ (o : Nat) (α β : List Nat) (p : MvPolynomial ℕ K),
    partialD o (α ++ β) p = partialD o α (partialD (o + α.length) β p)
  | _, [], _, _ => by simp [partialD]
  | o, a :: α, β, p => by
    simp only [List.cons_append, partialD, List.length_cons]
    rw [partialD_append (o + 1) α β p, show o + (α.length + 1) = o + 1 + α.length by omega]

theorem iter_rename (d k a : ℕ) (p : MvPolynomial ℕ K) :
    (pderiv (k + d))^[a] (rename (· + d) p) = rename (· + d) ((pderiv k)^[a] p) := by
  induction a generalizing p with
  | zero => rfl
  | succ a ih =>
    rw [Function.iterate_succ_apply, Function.iterate_succ_apply, ← ih]
    congr 1
    exact pderiv_rename (f := fun j : ℕ => j + d) (fun a b h => by simpa using h) k p

theorem partialD_rename (d : ℕ) : ∀ (o : Nat) (α : List Nat) (p : MvPolynomial ℕ K),
    partialD (o + d) α (rename (· + d) p) = rename (· + d) (partialD o α p)
  | _, [], _ => rfl
  | o, a :: α, p => by
    rw [partialD, show o + d + 1 = (o + 1) + d by omega, partialD_rename d (o + 1) α p, iter_rename, partialD]

theorem rename_supported {d e : ℕ} {p : MvPolynomial ℕ K} (h : p ∈ PolyLt K e) :
    rename (· + d) p ∈ supported K {k : ℕ | d ≤ k ∧ k < d + e} := by
  rw [mem_supported] at *
  refine (Finset.coe_subset.2 (vars_rename _ p)).trans ?_
  intro k hk
  simp only [Finset.coe_image, Set.mem_image] at hk
  obtain ⟨j, hj, rfl⟩ := hk
  have := h hj
  simp only [Set.mem_ofPred_eq] at this ⊢
  omega

/-- The derivative of a product of polynomials in separate variables. -/
theorem partialD_prod {d e : ℕ} {p q : MvPolynomial ℕ K} (hp : p ∈ PolyLt K d) (hq : q ∈ PolyLt K e)
    (α : List Nat) (hα : d ≤ α.length) :
    partialD 0 α (p * rename (· + d) q) =
      partialD 0 (α.take d) p * rename (· + d) (partialD 0 (α.drop d) q) := by
  conv_lhs => rw [← List.take_append_drop d α]
  have hl : (α.take d).length = d := by simp; omega
  rw [partialD_append, hl, Nat.zero_add]
  rw [partialD_mul_left d _ _ (fun k h1 _ => pderiv_zero_of_supported hp (by simp; omega))]
  have := partialD_rename d 0 (α.drop d) q
  rw [Nat.zero_add] at this
  rw [this]
  refine partialD_mul_right 0 _ _ (fun k _ h2 => ?_)
  refine pderiv_zero_of_supported (rename_supported (d := d) (partialD_supported _ hq 0 _)) ?_
  simp
  omega

theorem evalAt_take {d : ℕ} {p : MvPolynomial ℕ K} (hp : p ∈ PolyLt K d) (x : List K) :
    evalAt (x.take d) p = evalAt x p := by
  unfold evalAt
  refine eval₂Hom_congr' rfl (fun i hi _ => ?_) rfl
  have := mem_supported.1 hp hi
  simp only [Set.mem_ofPred_eq] at this
  simp [List.getD_eq_getElem?_getD, this]

theorem evalAt_drop (d : ℕ) (p : MvPolynomial ℕ K) (x : List K) :
    evalAt x (rename (· + d) p) = evalAt (x.drop d) p := by
  unfold evalAt
  rw [eval_rename]
  congr 2
  funext j
  simp [List.getD_eq_getElem?_getD, List.getElem?_drop, Nat.add_comm]

/-! ### Trees -/

/-- The polynomials of a leaf are polynomials in the coordinates of its cell. -/
def LeafPoly (P : Leaf → Nat → List Nat → MvPolynomial ℕ K) (l : Leaf) : Prop :=
  ∀ i z, P l i z ∈ PolyLt K l.cell.spatialDim

theorem wrapPoly_mem {d : ℕ} {comps : Except Err (List Comp)} {F : List Nat → MvPolynomial ℕ K}
    (h : ∀ z, F z ∈ PolyLt K d) (j : Nat) : wrapPoly comps F j ∈ PolyLt K d := by
  unfold wrapPoly
  split
  · exact zero_mem _
  · split
    · exact zero_mem _
    · next c _ =>
      cases c with
      | zero => exact zero_mem _
      | entry neg ix =>
        cases neg
        · exact h ix
        · exact neg_mem (h ix)

theorem PolyLt_mono {d e : ℕ} (h : d ≤ e) {p : MvPolynomial ℕ K} (hp : p ∈ PolyLt K d) : p ∈ PolyLt K e :=
  supported_mono (fun k (hk : k < d) => Nat.lt_of_lt_of_le hk h) hp

theorem flattened_spatialDim {p : Elem} {c cf : Cell} (hc : p.cell = .ok c)
    (h : (Elem.flattened p).cell = .ok cf) : cf.spatialDim = c.spatialDim := by
  simp only [Elem.cell, hc, bind, Except.bind] at h
  split at h
  · next h' => cases h; exact h'.symm
  · split at h
    · next h' => cases h; exact h'.symm
    · cases h

theorem cell_tensorProduct {fs : List Elem} {c : Cell} (hc : (Elem.tensorProduct fs).cell = .ok c) :
    ∃ cs, Elem.cellL fs = .ok cs ∧ c = .prod cs := by
  simp only [Elem.cell, bind, Except.bind] at hc
  cases hcs : Elem.cellL fs with
  | error e => rw [hcs] at hc; cases hc
  | ok cs => rw [hcs] at hc; cases hc; exact ⟨cs, rfl, rfl⟩

theorem cell_flattened {p : Elem} {cf : Cell} (h : (Elem.flattened p).cell = .ok cf) :
    ∃ c, p.cell = .ok c := by
  cases hc : p.cell with
  | ok c0 => exact ⟨c0, rfl⟩
  | error e => simp only [Elem.cell, hc, bind, Except.bind] at h; cases h

theorem cell_enriched {es : List Elem} {c : Cell} (hc : (Elem.enriched es).cell = .ok c) :
    ∃ cs, Elem.cellL es = .ok cs ∧ ∀ c' ∈ cs, c' = c := by
  simp only [Elem.cell, bind, Except.bind] at hc
  cases hcs : Elem.cellL es with
  | error e => rw [hcs] at hc; cases hc
  | ok cs => rw [hcs] at hc; exact ⟨cs, rfl, (uniqueOf_mem hc).2⟩

mutual
theorem treePoly_mem (P : Leaf → Nat → List Nat → MvPolynomial ℕ K) :
    ∀ e c, AllLeaves (LeafPoly P) e → e.cell = .ok c → ∀ i z, treePoly P e i z ∈ PolyLt K c.spatialDim
  | .leaf l, c, hl, hc, i, z => by
    simp only [Elem.cell, Except.ok.injEq] at hc
    subst hc
    simp only [treePoly]
    exact hl _ z
  | .tensorProduct fs, c, hl, hc, i, z => by
    obtain ⟨cs, hcs, rfl⟩ := cell_tensorProduct hc
    simp only [treePoly, Cell.spatialDim]
    exact prodPoly_mem P fs cs hl hcs i z
  | .flattened p, c, hl, hc, i, z => by
    obtain ⟨c0, hc0⟩ := cell_flattened hc
    simp only [treePoly, flattened_spatialDim hc0 hc]
    exact treePoly_mem P p c0 hl hc0 i z
  | .enriched es, c, hl, hc, i, z => by
    obtain ⟨cs, hcs, hall⟩ := cell_enriched hc
    simp only [treePoly]
    exact sumPoly_mem P es cs c hl hcs hall _ z
  | .mixedSub e _ _, c, hl, hc, i, z => by
    simp only [treePoly]
    split
    · exact treePoly_mem P e c hl hc _ _
    · exact zero_mem _
  | .discontinuous e, c, hl, hc, i, z => by
    simp only [treePoly]
    exact treePoly_mem P e c hl hc _ _
  | .tensorFE e _ _, c, hl, hc, i, z => by
    simp only [treePoly]
    split <;> split
    · exact treePoly_mem P e c hl hc _ _
    · exact zero_mem _
    · exact treePoly_mem P e c hl hc _ _
    · exact zero_mem _
  | .hdiv w, c, hl, hc, i, z => by
    simp only [treePoly]
    exact wrapPoly_mem (fun z => treePoly_mem P w c hl hc i z) _
  | .hcurl w, c, hl, hc, i, z => by
    simp only [treePoly]
    exact wrapPoly_mem (fun z => treePoly_mem P w c hl hc i z) _
  | .quadrature _ _ _, c, hl, hc, i, z => by
    simp only [AllLeaves] at hl
theorem prodPoly_mem (P : Leaf → Nat → List Nat → MvPolynomial ℕ K) :
    ∀ fs cs, AllLeavesL (LeafPoly P) fs → Elem.cellL fs = .ok cs → ∀ i z,
      prodPoly P fs i z ∈ PolyLt K (Cell.spatialDimL cs)
  | [], cs, _, _, i, z => by
    simp only [prodPoly]; exact one_mem _
  | f :: fs, cs, hl, hc, i, z => by
    obtain ⟨c, cs', h1, h2, rfl⟩ := cellL_cons hc
    simp only [AllLeavesL] at hl
    have m1 := treePoly_mem P f c hl.1 h1 (i.take f.indexShape.length) (z.take (vshape f).length)
    have m2 := prodPoly_mem P fs cs' hl.2 h2 (i.drop f.indexShape.length) (z.drop (vshape f).length)
    simp only [prodPoly, Cell.spatialDimL, sdim_eq h1]
    refine mul_mem (PolyLt_mono (by omega) m1) ?_
    refine supported_mono ?_ (rename_supported (d := c.spatialDim) m2)
    intro k hk
    exact hk.2
theorem sumPoly_mem (P : Leaf → Nat → List Nat → MvPolynomial ℕ K) :
    ∀ es cs c, AllLeavesL (LeafPoly P) es → Elem.cellL es = .ok cs → (∀ c' ∈ cs, c' = c) → ∀ k z,
      sumPoly P es k z ∈ PolyLt K c.spatialDim
  | [], cs, c, _, _, _, k, z => by
    simp only [sumPoly]; exact zero_mem _
  | e :: es, cs, c, hl, hc, hall, k, z => by
    obtain ⟨c1, cs', h1, h2, rfl⟩ := cellL_cons hc
    simp only [AllLeavesL] at hl
    have h3 := hall c1 List.mem_cons_self
    simp only [sumPoly]
    split
    · exact treePoly_mem P e c hl.1 (h3 ▸ h1) _ _
    · exact sumPoly_mem P es cs' c hl.2 h2 (fun c' h => hall c' (List.mem_cons_of_mem _ h)) _ _
end

theorem factorEnts_cell {fs : List Elem} {cs : List Cell} (hcs : Elem.cellL fs = .ok cs) :
    factorEnts fs ((Cell.prod cs).dimension, 0) = cs.map fun c => (c.dimension, 0) := by
  have h := C05_default_entity cs
  have h2 : factorEntity cs (some ((Cell.prod cs).dimension, 0)) = factorEntity cs none := rfl
  simp only [factorEnts, hcs, bind, Except.bind, h2, h]

theorem productEnt_cell {p : Elem} {c cf : Cell} (hc : p.cell = .ok c)
    (h : (Elem.flattened p).cell = .ok cf) : productEnt p (cf.dimension, 0) = (c.dimension, 0) := by
  have hd := C06_default_entity c
  have hs := flattened_spatialDim hc h
  have hcf : cf.dimension = .int c.spatialDim := by
    simp only [Elem.cell, hc, bind, Except.bind] at h
    split at h
    · next h' => cases h; rw [h']; rfl
    · split at h
      · next h' => cases h; rw [h']; rfl
      · cases h
  simp only [productEnt, hcf, unflattenEntity, hc, bind, Except.bind]
  have : flattenedEntity c (some (c.spatialDim, 0)) = flattenedEntity c none := rfl
  rw [this, hd]

theorem evalAt_wrap {comps : Except Err (List Comp)} {F : List Nat → K}
    {G : List Nat → MvPolynomial ℕ K} {x : List K} {α : List Nat}
    (h : ∀ z, F z = evalAt x (partialD 0 α (G z))) (j : Nat) :
    wrapValue comps F j = evalAt x (partialD 0 α (wrapPoly comps G j)) := by
  unfold wrapValue wrapPoly
  cases comps with
  | error e => simp [partialD_zero]
  | ok l =>
    cases hc : l[j]? with
    | none => simp [partialD_zero, hc]
    | some c =>
      simp only [hc]
      cases c with
      | zero => simp [compValue, compPoly, partialD_zero]
      | entry neg ix =>
        cases neg
        · exact h ix
        · simp only [compValue, compPoly, partialD_neg, map_neg, h ix]

variable {φ : LeafVals K}

/-- The values of a leaf on its cell are those of polynomials. -/
def LeafIsPoly (φ : LeafVals K) (P : Leaf → Nat → List Nat → MvPolynomial ℕ K) (l : Leaf) : Prop :=
  LeafPoly P l ∧ ∀ α x i z, α.length = l.cell.spatialDim → x.length = l.cell.spatialDim →
    φ.leaf l α (l.cell.dimension, 0) x i z = evalAt x (partialD 0 α (P l (i.headD 0) z))

mutual
theorem AllLeaves.imp {L L' : Leaf → Prop} (h : ∀ l, L l → L' l) : ∀ e, AllLeaves L e → AllLeaves L' e
  | .leaf l, hl => h l hl
  | .tensorProduct fs, hl => by simp only [AllLeaves] at hl ⊢; exact AllLeavesL.imp h fs hl
  | .flattened p, hl => by simp only [AllLeaves] at hl ⊢; exact AllLeaves.imp h p hl
  | .enriched es, hl => by simp only [AllLeaves] at hl ⊢; exact AllLeavesL.imp h es hl
  | .mixedSub e _ _, hl => by simp only [AllLeaves] at hl ⊢; exact AllLeaves.imp h e hl
  | .discontinuous e, hl => by simp only [AllLeaves] at hl ⊢; exact AllLeaves.imp h e hl
  | .tensorFE e _ _, hl => by simp only [AllLeaves] at hl ⊢; exact AllLeaves.imp h e hl
  | .hdiv w, hl => by simp only [AllLeaves] at hl ⊢; exact AllLeaves.imp h w hl
  | .hcurl w, hl => by simp only [AllLeaves] at hl ⊢; exact AllLeaves.imp h w hl
  | .quadrature _ _ _, hl => by simp only [AllLeaves] at hl
theorem AllLeavesL.imp {L L' : Leaf → Prop} (h : ∀ l, L l → L' l) :
    ∀ es, AllLeavesL L es → AllLeavesL L' es
  | [], _ => by simp only [AllLeavesL]
  | e :: es, hl => by
    simp only [AllLeavesL] at hl ⊢
    exact ⟨AllLeaves.imp h e hl.1, AllLeavesL.imp h es hl.2⟩
end

mutual
/-- The values of a composite element on its cell are those of the derivatives of its polynomials. -/
theorem basisValue_poly (P : Leaf → Nat → List Nat → MvPolynomial ℕ K) :
    ∀ e c, AllLeaves (LeafIsPoly φ P) e → e.cell = .ok c → ∀ α x i z, α.length = c.spatialDim →
      x.length = c.spatialDim →
      basisValue φ e α (c.dimension, 0) x i z = evalAt x (partialD 0 α (treePoly P e i z))
  | .leaf l, c, hl, hc, α, x, i, z, hα, hx => by
    simp only [Elem.cell, Except.ok.injEq] at hc
    subst hc
    simp only [basisValue, treePoly]
    exact hl.2 α x i z hα hx
  | .tensorProduct fs, c, hl, hc, α, x, i, z, hα, hx => by
    obtain ⟨cs, hcs, rfl⟩ := cell_tensorProduct hc
    simp only [basisValue, treePoly, factorEnts_cell hcs]
    simp only [Cell.spatialDim] at hα hx
    exact prodValue_poly P fs cs hl hcs α x i z hα hx
  | .flattened p, c, hl, hc, α, x, i, z, hα, hx => by
    obtain ⟨c0, hc0⟩ := cell_flattened hc
    have hs := flattened_spatialDim hc0 hc
    simp only [basisValue, treePoly, productEnt_cell hc0 hc]
    exact basisValue_poly P p c0 hl hc0 α x i z (hs ▸ hα) (hs ▸ hx)
  | .enriched es, c, hl, hc, α, x, i, z, hα, hx => by
    obtain ⟨cs, hcs, hall⟩ := cell_enriched hc
    simp only [basisValue, treePoly]
    exact sumValue_poly P es cs c hl hcs hall α x _ z hα hx
  | .mixedSub e _ _, c, hl, hc, α, x, i, z, hα, hx => by
    simp only [basisValue, treePoly]
    split
    · exact basisValue_poly P e c hl hc α x _ _ hα hx
    · simp [partialD_zero]
  | .discontinuous e, c, hl, hc, α, x, i, z, hα, hx => by
    simp only [basisValue, treePoly]
    exact basisValue_poly P e c hl hc α x _ _ hα hx
  | .tensorFE e _ _, c, hl, hc, α, x, i, z, hα, hx => by
    simp only [basisValue, treePoly]
    split <;> split
    · exact basisValue_poly P e c hl hc α x _ _ hα hx
    · simp [partialD_zero]
    · exact basisValue_poly P e c hl hc α x _ _ hα hx
    · simp [partialD_zero]
  | .hdiv w, c, hl, hc, α, x, i, z, hα, hx => by
    simp only [basisValue, treePoly]
    exact evalAt_wrap (fun z => basisValue_poly P w c hl hc α x i z hα hx) _
  | .hcurl w, c, hl, hc, α, x, i, z, hα, hx => by
    simp only [basisValue, treePoly]
    exact evalAt_wrap (fun z => basisValue_poly P w c hl hc α x i z hα hx) _
  | .quadrature _ _ _, c, hl, hc, α, x, i, z, _, _ => by
    simp only [AllLeaves] at hl
theorem prodValue_poly (P : Leaf → Nat → List Nat → MvPolynomial ℕ K) :
    ∀ fs cs, AllLeavesL (LeafIsPoly φ P) fs → Elem.cellL fs = .ok cs → ∀ α x i z,
      α.length = Cell.spatialDimL cs → x.length = Cell.spatialDimL cs →
      prodValue φ fs α (cs.map fun c => (c.dimension, 0)) x i z =
        evalAt x (partialD 0 α (prodPoly P fs i z))
  | [], cs, _, hc, α, x, i, z, hα, _ => by
    simp only [Elem.cellL, Except.ok.injEq] at hc
    subst hc
    simp only [Cell.spatialDimL, List.length_eq_zero_iff] at hα
    subst hα
    simp [prodValue, prodPoly, partialD]
  | f :: fs, cs, hl, hc, α, x, i, z, hα, hx => by
    obtain ⟨c, cs', h1, h2, rfl⟩ := cellL_cons hc
    simp only [AllLeavesL] at hl
    simp only [Cell.spatialDimL] at hα hx
    have e1 := basisValue_poly P f c hl.1 h1 (α.take c.spatialDim) (x.take c.spatialDim)
      (i.take f.indexShape.length) (z.take (vshape f).length) (by simp; omega) (by simp; omega)
    have e2 := prodValue_poly P fs cs' hl.2 h2 (α.drop c.spatialDim) (x.drop c.spatialDim)
      (i.drop f.indexShape.length) (z.drop (vshape f).length) (by simp; omega) (by simp; omega)
    have m1 := treePoly_mem P f c (AllLeaves.imp (fun l h => h.1) f hl.1) h1
      (i.take f.indexShape.length) (z.take (vshape f).length)
    have m2 := prodPoly_mem P fs cs' (AllLeavesL.imp (fun l h => h.1) fs hl.2) h2
      (i.drop f.indexShape.length) (z.drop (vshape f).length)
    simp only [prodValue, List.map_cons, sdim_eq h1, Cell.total_dimension, prodPoly]
    rw [e1, e2, partialD_prod m1 m2 α (by omega), map_mul, evalAt_drop,
      evalAt_take (partialD_supported _ m1 0 _)]
theorem sumValue_poly (P : Leaf → Nat → List Nat → MvPolynomial ℕ K) :
    ∀ es cs c, AllLeavesL (LeafIsPoly φ P) es → Elem.cellL es = .ok cs → (∀ c' ∈ cs, c' = c) →
      ∀ α x k z, α.length = c.spatialDim → x.length = c.spatialDim →
      sumValue φ es α (c.dimension, 0) x k z = evalAt x (partialD 0 α (sumPoly P es k z))
  | [], cs, c, _, _, _, α, x, k, z, _, _ => by
    simp [sumValue, sumPoly, partialD_zero]
  | e :: es, cs, c, hl, hc, hall, α, x, k, z, hα, hx => by
    obtain ⟨c1, cs', h1, h2, rfl⟩ := cellL_cons hc
    simp only [AllLeavesL] at hl
    have h3 := hall c1 List.mem_cons_self
    simp only [sumValue, sumPoly]
    split
    · exact basisValue_poly P e c hl.1 (h3 ▸ h1) α x _ _ hα hx
    · exact sumValue_poly P es cs' c hl.2 h2 (fun c' h => hall c' (List.mem_cons_of_mem _ h)) α x _ _ hα hx
end

end FInAT
