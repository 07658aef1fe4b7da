import Verif.Spec.Quadrature
import Verif.Lemmas.Dual
import Mathlib.Tactic.FieldSimp
import Mathlib.Algebra.CharZero.Defs
import Mathlib.Data.Nat.Cast.Field

/-!
# Quadrature rules
-/

namespace FInAT

open Spec

variable {K : Type} [CommRing K]

/-! ### Weights -/

mutual
theorem weightExpr_spec : ∀ {q : QRule K} {n : Nat}, RuleOK q →
    Runs q.weightExpr n fun W n' => n' = n ∧ W.shape = [] ∧
      ∀ ρ, W.eval ρ [] = weightAt q (q.pointSet.indices.map fun i => ρ i.id)
  | .rule ps w, n, h => by
    rw [RuleOK] at h
    obtain ⟨cls, pts, i, rfl, h1, h2⟩ := h
    rw [QRule.weightExpr]
    apply Runs.mkIndexed
    · apply fitsShape_free
      simp [PSet.indices, Gem.shape, h1, h2]
    · intro r hr hv
      refine ⟨rfl, hr, fun ρ => ?_⟩
      rw [hv, map_val_free]
      simp [Gem.eval, QRule.pointSet, PSet.indices, weightAt]
  | .tensor fs, n, h => by
    rw [RuleOK] at h
    have H := weightExprL_spec (qs := fs) (n := n) h.2
    rw [QRule.weightExpr]
    apply Runs.bind
    refine H.mono ?_
    rintro es n' ⟨rfl, hl, hs, hv⟩
    apply Runs.reduceProduct (by rintro rfl; exact h.1 (List.length_eq_zero_iff.1 hl)) hs
    intro r hr hrv
    refine ⟨rfl, hr, fun ρ => ?_⟩
    rw [hrv, hv, QRule.pointSet, PSet.indices, weightAt]
theorem weightExprL_spec : ∀ {qs : List (QRule K)} {n : Nat}, RuleOKL qs →
    Runs (QRule.weightExprL qs) n fun es n' => n' = n ∧ qs.length = es.length ∧ (∀ e ∈ es, e.shape = []) ∧
      ∀ ρ, (es.map fun e => e.eval ρ []).prod =
        weightAtL qs ((PSet.indicesL (QRule.pointSetL qs)).map fun i => ρ i.id)
  | [], n, h => by
    rw [QRule.weightExprL]
    exact Runs.pure ⟨rfl, rfl, by simp, fun ρ => by simp [weightAtL]⟩
  | q :: qs, n, h => by
    rw [RuleOKL] at h
    have H1 := weightExpr_spec (q := q) (n := n) h.1
    have H2 := fun m => weightExprL_spec (qs := qs) (n := m) h.2
    rw [QRule.weightExprL]
    apply Runs.bind
    refine H1.mono ?_
    rintro e n1 ⟨rfl, he, hev⟩
    apply Runs.bind
    refine (H2 _).mono ?_
    rintro es n2 ⟨rfl, hl, hs, hv⟩
    refine Runs.pure ⟨rfl, by simp [hl], ?_, fun ρ => ?_⟩
    · intro x hx
      rcases List.mem_cons.1 hx with rfl | hx
      · exact he
      · exact hs x hx
    · rw [List.map_cons, List.prod_cons, hev, hv, QRule.pointSetL, PSet.indicesL, weightAtL, List.map_append,
        List.take_left' (by simp), List.drop_left' (by simp)]
end

/-! ### Sums -/

theorem lsum_zip_range {α β : Type} (a : List α) (b : List β) (h : a.length = b.length) (da : α) (db : β)
    (f : α × β → K) :
    lsum (a.zip b) f = lsum (List.range a.length) fun k => f ((a[k]?).getD da, (b[k]?).getD db) := by
  induction a generalizing b with
  | nil => simp
  | cons x a ih =>
    cases b with
    | nil => simp at h
    | cons y b =>
      rw [List.zip_cons_cons, lsum_cons, List.length_cons, List.range_succ_eq_map, lsum_cons, lsum_map,
        ih b (by simpa using h)]
      simp

mutual
theorem sum_eq_iterSum : ∀ {q : QRule K}, RuleOK q → (q.pointSet.indices.map Index.id).Nodup → ∀ f : List K → K,
    (lsum (ndindex (q.pointSet.indices.map Index.extent)) fun v => weightAt q v * f (q.pointSet.at_ v)) = iterSum q f
  | .rule ps w, h, _, f => by
    rw [RuleOK] at h
    obtain ⟨cls, pts, i, rfl, h1, h2⟩ := h
    simp only [QRule.pointSet, PSet.indices, List.map_cons, List.map_nil]
    rw [lsum_ndindex_one, iterSum]
    show _ = lsum _ _
    rw [lsum_zip_range _ _ (by simp [PSet.pts, h2]) [] 0]
    simp only [PSet.pts, h1]
    refine lsum_congr fun k hk => ?_
    simp [weightAt, PSet.at_, PSet.pointAt, PSet.indices, bindIx, ravel]
  | .tensor fs, h, hn, f => by
    rw [RuleOK] at h
    simp only [QRule.pointSet, PSet.indices] at hn
    have H := sumL_eq_iterSumL (qs := fs) h.2 hn f
    rw [iterSum, ← H]
    rfl
theorem sumL_eq_iterSumL : ∀ {qs : List (QRule K)}, RuleOKL qs →
    ((PSet.indicesL (QRule.pointSetL qs)).map Index.id).Nodup → ∀ f : List K → K,
    (lsum (ndindex ((PSet.indicesL (QRule.pointSetL qs)).map Index.extent)) fun v =>
      weightAtL qs v * f (PSet.atL (QRule.pointSetL qs) v)) = iterSumL qs f
  | [], _, _, f => by
    simp only [QRule.pointSetL, PSet.indicesL, List.map_nil]
    rw [lsum_ndindex_nil]
    simp [weightAtL, PSet.atL, PSet.pointAtL, iterSumL]
  | q :: qs, h, hn, f => by
    rw [RuleOKL] at h
    have hn' := hn
    simp only [QRule.pointSetL, PSet.indicesL, List.map_append] at hn'
    rw [List.nodup_append] at hn'
    have H1 := sum_eq_iterSum (q := q) h.1 hn'.1
    have H2 := sumL_eq_iterSumL (qs := qs) h.2 hn'.2.1
    rw [iterSumL, ← H1]
    simp only [QRule.pointSetL, PSet.indicesL, List.map_append]
    rw [lsum_ndindex_append]
    refine lsum_congr fun v hv => ?_
    beta_reduce
    rw [← H2, ← lsum_mul_left]
    refine lsum_congr fun w hw => ?_
    have hv' : InB v _ := mem_ndindex.1 hv
    have hw' : InB w _ := mem_ndindex.1 hw
    have e1 : v.length = q.pointSet.indices.length := by rw [hv'.length]; simp
    have e2 : w.length = (PSet.indicesL (QRule.pointSetL qs)).length := by rw [hw'.length]; simp
    rw [weightAtL, List.take_left' e1, List.drop_left' e1, PSet.atL_cons hn e1 e2, mul_assoc]
end

theorem quadSum_eq {q : QRule K} (h : RuleOK q) (hn : (q.pointSet.indices.map Index.id).Nodup) {W : Gem K}
    (hW : ∀ ρ, W.eval ρ [] = weightAt q (q.pointSet.indices.map fun i => ρ i.id)) (ρ : Nat → Nat)
    (f : List K → K) : quadSum W q.pointSet ρ f = iterSum q f := by
  rw [← sum_eq_iterSum h hn]
  refine lsum_congr fun v hv => ?_
  have hv' : InB v _ := mem_ndindex.1 hv
  have hb := map_bindIx ρ hn (v := v) (by rw [hv'.length]; simp)
  rw [hW, hb, PSet.at_eq hn hb]

mutual
theorem iterSum_add : ∀ (q : QRule K) (f g : List K → K), iterSum q (fun x => f x + g x) = iterSum q f + iterSum q g
  | .rule ps w, f, g => by
    simp only [iterSum]
    show lsum _ _ = lsum _ _ + lsum _ _
    rw [← lsum_add]
    exact lsum_congr fun p _ => mul_add _ _ _
  | .tensor fs, f, g => by simp only [iterSum]; exact iterSumL_add fs f g
theorem iterSumL_add : ∀ (qs : List (QRule K)) (f g : List K → K),
    iterSumL qs (fun x => f x + g x) = iterSumL qs f + iterSumL qs g
  | [], f, g => by simp [iterSumL]
  | q :: qs, f, g => by
    have H := fun f g => iterSumL_add qs f g
    simp only [iterSumL, H]
    exact iterSum_add q _ _
end

mutual
theorem iterSum_mul : ∀ (q : QRule K) (c : K) (f : List K → K), iterSum q (fun x => c * f x) = c * iterSum q f
  | .rule ps w, c, f => by
    simp only [iterSum]
    show lsum _ _ = _ * lsum _ _
    rw [← lsum_mul_left]
    exact lsum_congr fun p _ => by ring
  | .tensor fs, c, f => by simp only [iterSum]; exact iterSumL_mul fs c f
theorem iterSumL_mul : ∀ (qs : List (QRule K)) (c : K) (f : List K → K),
    iterSumL qs (fun x => c * f x) = c * iterSumL qs f
  | [], c, f => by simp [iterSumL]
  | q :: qs, c, f => by
    have H := fun f => iterSumL_mul qs c f
    simp only [iterSumL, H]
    exact iterSum_mul q _ _
end

theorem iterSum_sum (q : QRule K) {ι : Type} (l : List ι) (F : ι → List K → K) :
    iterSum q (fun x => lsum l fun t => F t x) = lsum l fun t => iterSum q (F t) := by
  induction l with
  | nil =>
    simp only [lsum_nil]
    simpa using iterSum_mul q 0 fun _ => 0
  | cons t l ih =>
    simp only [lsum_cons]
    rw [iterSum_add, ih]

/-! ### Dimension of the points of a rule -/

/-- The sum over the rule only looks at points with `d` coordinates. -/
def HasDim (q : QRule K) (d : Nat) : Prop :=
  ∀ f g : List K → K, (∀ x, x.length = d → f x = g x) → iterSum q f = iterSum q g

/-- ... for lists. -/
def HasDimL (qs : List (QRule K)) (d : Nat) : Prop :=
  ∀ f g : List K → K, (∀ x, x.length = d → f x = g x) → iterSumL qs f = iterSumL qs g

theorem hasDim_rule {cls : PSClass} {pts : List (List K)} {idx : List Index} {w : List K} {d : Nat}
    (h : ∀ x ∈ pts, x.length = d) : HasDim (.rule (.points cls pts idx) w) d := by
  intro f g hfg
  simp only [iterSum]
  show lsum _ _ = lsum _ _
  exact lsum_congr fun p hp => by rw [hfg _ (h _ (List.of_mem_zip hp).1)]

theorem hasDimL_nil : HasDimL ([] : List (QRule K)) 0 := fun f g h => by simpa [iterSumL] using h [] rfl

theorem hasDimL_cons {q : QRule K} {qs : List (QRule K)} {a b : Nat} (h1 : HasDim q a) (h2 : HasDimL qs b) :
    HasDimL (q :: qs) (a + b) := by
  intro f g h
  simp only [iterSumL]
  exact h1 _ _ fun x hx => h2 _ _ fun y hy => h _ (by simp [hx, hy])

mutual
theorem iterSum_pts : ∀ (q : QRule K) (f g : List K → K), (∀ x ∈ q.pointSet.pts, f x = g x) → iterSum q f = iterSum q g
  | .rule ps w, f, g, h => by
    simp only [iterSum]
    show lsum _ _ = lsum _ _
    exact lsum_congr fun p hp => by rw [h _ (List.of_mem_zip hp).1]
  | .tensor fs, f, g, h => by
    simp only [iterSum]
    refine iterSumL_pts fs f g fun x hx => h _ ?_
    rw [QRule.pointSet, PSet.pts]
    exact List.mem_map_of_mem hx
theorem iterSumL_pts : ∀ (qs : List (QRule K)) (f g : List K → K),
    (∀ x ∈ product (PSet.ptsL (QRule.pointSetL qs)), f x.flatten = g x.flatten) → iterSumL qs f = iterSumL qs g
  | [], f, g, h => by
    simp only [iterSumL]
    exact h [] (by simp [QRule.pointSetL, PSet.ptsL])
  | q :: qs, f, g, h => by
    have H := fun f g => iterSumL_pts qs f g
    simp only [iterSumL]
    refine iterSum_pts q _ _ fun x hx => H _ _ fun y hy => ?_
    refine h (x :: y) ?_
    rw [QRule.pointSetL, PSet.ptsL, product, List.mem_flatMap]
    exact ⟨x, hx, List.mem_map_of_mem hy⟩
end

/-- The points of a rule determine its dimension. -/
theorem hasDim_of_pts {q : QRule K} {d : Nat} (h : ∀ x ∈ q.pointSet.pts, x.length = d) : HasDim q d :=
  fun f g hfg => iterSum_pts q f g fun x hx => hfg x (h x hx)

theorem iterSumL_splitProd : ∀ (es : List (Factor K)), (∀ e ∈ es, e.Exact) → ∀ fs : List (List K → K),
    List.Forall₂ (fun e f => e.cls f) es fs →
    iterSumL (es.map Factor.rule) (splitProd (es.map Factor.dim) fs) =
      (List.zipWith (fun e f => Factor.integral e f) es fs).prod
  | [], _, [], _ => by simp [iterSumL, splitProd]
  | e :: es, h, f :: fs, hf => by
    rw [List.forall₂_cons] at hf
    have H := iterSumL_splitProd es (fun e he => h e (List.mem_cons_of_mem _ he)) fs hf.2
    have he := h e List.mem_cons_self
    simp only [List.map_cons, iterSumL, List.zipWith_cons_cons, List.prod_cons]
    rw [← H, ← he.exact f hf.1, mul_comm, ← iterSum_mul]
    refine hasDim_of_pts he.width _ _ fun x hx => ?_
    rw [mul_comm, ← iterSumL_mul]
    congr 1
    funext y
    rw [splitProd, List.take_left' hx, List.drop_left' hx]

/-! ### Polynomials -/

theorem monoVal_append : ∀ (x : List K) (α : List Nat) (y : List K) (β : List Nat), x.length = α.length →
    monoVal (x ++ y) (α ++ β) = monoVal x α * monoVal y β
  | [], [], y, β, _ => by simp [monoVal]
  | a :: x, k :: α, y, β, h => by
    have := monoVal_append x α y β (by simpa using h)
    simp only [List.cons_append, monoVal, this, mul_assoc]

theorem iterSumL_cons_mono {q : QRule K} {qs : List (QRule K)} {a : Nat} {α : List Nat} (h1 : HasDim q a)
    (ha : a ≤ α.length) : iterSumL (q :: qs) (fun x => monoVal x α) =
      iterSum q (fun x => monoVal x (α.take a)) * iterSumL qs (fun y => monoVal y (α.drop a)) := by
  rw [iterSumL, mul_comm, ← iterSum_mul]
  refine h1 _ _ fun x hx => ?_
  rw [mul_comm, ← iterSumL_mul]
  congr 1
  funext y
  rw [← monoVal_append x (α.take a) y (α.drop a) (by simp [hx, ha]), List.take_append_drop]

end FInAT

namespace FInAT

open Spec

variable {K : Type} [Field K]

/-! ### Rules made for a cell -/

/-- What `make_quadrature` gives. -/
structure Made (q : QRule K) (c : Cell) (deg : Degree) (n n' : Nat) : Prop where
  ok : RuleOK q
  fresh : Fresh n n' q.pointSet.indices
  wf : q.pointSet.WF n'
  dim : HasDim q c.spatialDim
  exact : ∀ α : List Nat, α.length = c.spatialDim → Within c deg α → iterSum q (fun x => monoVal x α) = moment c α
  width : ∀ x ∈ q.pointSet.pts, x.length = c.spatialDim
  ne : q.pointSet.pts ≠ []

/-- ... for lists. -/
structure MadeL (qs : List (QRule K)) (cs : List Cell) (ds : List Degree) (n n' : Nat) : Prop where
  length : qs.length = cs.length
  ok : RuleOKL qs
  fresh : Fresh n n' (PSet.indicesL (QRule.pointSetL qs))
  wf : PSet.WFL n' (QRule.pointSetL qs)
  dim : HasDimL qs (Cell.spatialDimL cs)
  exact : ∀ α : List Nat, α.length = Cell.spatialDimL cs → WithinL cs ds α →
    iterSumL qs (fun x => monoVal x α) = momentL cs α
  width : ∀ xs ∈ product (PSet.ptsL (QRule.pointSetL qs)), xs.flatten.length = Cell.spatialDimL cs
  ne : product (PSet.ptsL (QRule.pointSetL qs)) ≠ []

mutual
theorem moment_ne_zero [CharZero K] : ∀ c : Cell, (moment c (List.replicate c.spatialDim 0) : K) ≠ 0
  | .simplex d => by
    simp only [moment]
    exact div_ne_zero (Nat.cast_ne_zero.2 (by simp)) (Nat.cast_ne_zero.2 (Nat.factorial_ne_zero _))
  | .quad => by simp [moment, Cell.spatialDim]
  | .hex => by simp [moment, Cell.spatialDim]
  | .prod cs => by
    simp only [moment, Cell.spatialDim]
    exact momentL_ne_zero cs
theorem momentL_ne_zero [CharZero K] : ∀ cs : List Cell, (momentL cs (List.replicate (Cell.spatialDimL cs) 0) : K) ≠ 0
  | [] => by simp [momentL]
  | c :: cs => by
    simp only [momentL, Cell.spatialDimL, List.take_replicate, List.drop_replicate]
    rw [Nat.min_eq_left (Nat.le_add_right _ _), Nat.add_sub_cancel_left]
    exact mul_ne_zero (moment_ne_zero c) (momentL_ne_zero cs)
end

/-- An exact rule has points. -/
theorem exactList_ne [CharZero K] {c : Cell} {d : Nat} {pw : List (List K) × List K} (h : ExactList c d pw) : pw.1 ≠ [] := by
  intro h0
  have := h.exact (List.replicate c.spatialDim 0) (by simp) (by simp)
  rw [h0] at this
  exact moment_ne_zero c this.symm

theorem mkRule_spec [CharZero K] {cls : PSClass} {pw : List (List K) × List K} {c : Cell} {d n : Nat} (h : ExactList c d pw) :
    Runs (mkRule cls pw) n fun q n' => RuleOK q ∧ Fresh n n' q.pointSet.indices ∧ q.pointSet.WF n' ∧
      HasDim q c.spatialDim ∧ (∀ α : List Nat, α.length = c.spatialDim → α.sum ≤ d →
        iterSum q (fun x => monoVal x α) = moment c α) ∧
      (∀ x ∈ q.pointSet.pts, x.length = c.spatialDim) ∧ q.pointSet.pts ≠ [] := by
  unfold mkRule
  apply Runs.bind
  apply Runs.assertM (by simpa using h.length)
  apply Runs.bind
  apply Runs.freshIndices
  intro ixs n' hf he
  apply Runs.pure
  match ixs, hf, he with
  | _ :: _ :: _, _, he => simp at he
  | [i], hf, he =>
    have hi : i.extent = pw.1.length := by simpa using he
    refine ⟨?_, hf, ?_, hasDim_rule h.width, ?_, h.width, exactList_ne h⟩
    · rw [RuleOK]
      exact ⟨cls, pw.1, i, rfl, hi, h.length.symm⟩
    · simp only [QRule.pointSet, PSet.WF]
      exact ⟨fun j hj => (hf.2.1 j hj).2, by simp [hi], _, h.width⟩
    · intro α h1 h2
      rw [iterSum]
      exact h.exact α h1 h2

theorem makeSimple_spec [CharZero K] {F : FiatQuad K} {s : String} {D : Nat} (hF : FiatExact F s D) {c : Cell}
    {d : Nat} (hd : d ≤ D) (hav : Available F s c d) (n : Nat) :
    Runs (makeSimple F s c (.int d)) n fun q n' => RuleOK q ∧ Fresh n n' q.pointSet.indices ∧ q.pointSet.WF n' ∧
      HasDim q c.spatialDim ∧ (∀ α : List Nat, α.length = c.spatialDim → α.sum ≤ d →
        iterSum q (fun x => monoVal x α) = moment c α) ∧
      (∀ x ∈ q.pointSet.pts, x.length = c.spatialDim) ∧ q.pointSet.pts ≠ [] := by
  have hneg : ¬ ((d : Int) < 0) := by omega
  simp only [makeSimple, if_neg hneg, Int.toNat_natCast]
  by_cases hl : c = .simplex 1 ∧ F.isMacro c = false
  · rw [if_pos hl]
    obtain ⟨rfl, _⟩ := hl
    refine (mkRule_spec (hF.gauss ((d + 1 + 1) / 2) (by omega) (by omega))).mono ?_
    rintro q n' ⟨h1, h2, h3, h4, h5, h6⟩
    exact ⟨h1, h2, h3, h4, fun α ha hs => h5 α ha (by omega), h6⟩
  · rw [if_neg hl]
    obtain ⟨pw, h1⟩ := hav.resolve_left hl
    apply Runs.bind
    exact Runs.liftE h1 (mkRule_spec (hF.scheme c d pw hd h1))

theorem madeL_cons {q : QRule K} {qs : List (QRule K)} {c : Cell} {cs : List Cell} {d : Degree} {ds : List Degree}
    {n m k : Nat} (h1 : Made q c d n m) (h2 : MadeL qs cs ds m k) : MadeL (q :: qs) (c :: cs) (d :: ds) n k where
  length := by simp [h2.length]
  ok := by rw [RuleOKL]; exact ⟨h1.ok, h2.ok⟩
  fresh := h1.fresh.append h2.fresh
  wf := by rw [QRule.pointSetL, PSet.WFL]; exact ⟨h1.wf.mono h2.fresh.2.2, h2.wf⟩
  dim := hasDimL_cons h1.dim h2.dim
  exact := by
    intro α ha hw
    rw [Cell.spatialDimL] at ha
    rw [WithinL] at hw
    rw [iterSumL_cons_mono h1.dim (by omega), momentL, h1.exact _ (by simp; omega) hw.1,
      h2.exact _ (by simp; omega) hw.2]
  width := by
    intro xs hx
    simp only [QRule.pointSetL, PSet.ptsL, product, List.mem_flatMap, List.mem_map] at hx
    obtain ⟨x, hx, ys, hy, rfl⟩ := hx
    rw [List.flatten_cons, List.length_append, h1.width x hx, h2.width ys hy, Cell.spatialDimL]
  ne := by
    obtain ⟨x, l, hx⟩ := List.exists_cons_of_ne_nil h1.ne
    obtain ⟨y, l', hy⟩ := List.exists_cons_of_ne_nil h2.ne
    simp [QRule.pointSetL, PSet.ptsL, product, hx, hy]

theorem madeL_nil (n : Nat) : MadeL ([] : List (QRule K)) [] [] n n where
  length := rfl
  ok := by rw [RuleOKL]; trivial
  fresh := Fresh.nil n
  wf := by rw [QRule.pointSetL, PSet.WFL]; trivial
  dim := hasDimL_nil
  exact := by intro α _ _; simp only [iterSumL, momentL]; cases α <;> simp [monoVal]
  width := by simp [QRule.pointSetL, PSet.ptsL, product, Cell.spatialDimL]
  ne := by simp [QRule.pointSetL, PSet.ptsL, product]

theorem made_simple [CharZero K] {F : FiatQuad K} {s : String} {D : Nat} (hF : FiatExact F s D) {c : Cell}
    (hp : ∀ cs, c ≠ .prod cs) (hq : c ≠ .quad) {deg : Degree} (hd : GoodDegree F s D c deg) (n : Nat) :
    Runs (makeSimple F s c deg) n fun q n' => Made q c deg n n' := by
  have : ∃ d : Nat, deg = .int d ∧ d ≤ D ∧ Available F s c d := by
    cases c <;> cases deg <;> simp_all only [GoodDegree, not_true_eq_false, reduceCtorEq, ne_eq, not_false_eq_true,
      implies_true, Cell.prod.injEq, forall_eq']
    all_goals
      rename_i d
      exact ⟨d.toNat, by simp [hd.1], by omega, hd.2.2⟩
  obtain ⟨d, rfl, hdD, hav⟩ := this
  refine (makeSimple_spec hF hdD hav n).mono ?_
  rintro q n' ⟨h1, h2, h3, h4, h5, h6, h7⟩
  refine ⟨h1, h2, h3, h4, fun α ha hw => h5 α ha ?_, h6, h7⟩
  have : ((α.sum : ℕ) : ℤ) ≤ (d : ℤ) := by
    cases c with
    | prod cs => exact absurd rfl (hp cs)
    | quad => exact absurd rfl hq
    | simplex k => simpa only [Within] using hw
    | hex => simpa only [Within] using hw
  exact_mod_cast this

theorem moment_one [CharZero K] (a : Nat) :
    ((a.factorial : ℕ) : K) / (((a + 1).factorial : ℕ) : K) = 1 / ((a : K) + 1) := by
  have h1 : ((a.factorial : ℕ) : K) ≠ 0 := Nat.cast_ne_zero.2 (Nat.factorial_ne_zero a)
  have h2 : ((a : K) + 1) ≠ 0 := by exact_mod_cast Nat.succ_ne_zero a
  rw [Nat.factorial_succ]
  push_cast
  field_simp

mutual
theorem makeQuadrature_spec [CharZero K] {F : FiatQuad K} {s : String} {D : Nat} (hF : FiatExact F s D) :
    ∀ (c : Cell) (deg : Degree) (n : Nat), GoodDegree F s D c deg →
      Runs (makeQuadrature F s c deg) n fun q n' => Made q c deg n n'
  | .prod cs, deg, n, hd => by
    rw [GoodDegree] at hd
    have H := makeQuadratureL_spec hF cs (deg.expand cs.length) n hd.2
    rw [makeQuadrature]
    apply Runs.bind
    apply Runs.assertM (by simpa using H.1)
    apply Runs.bind
    refine H.2.mono fun qs n' h => Runs.pure ?_
    refine ⟨?_, h.fresh, ?_, ?_, ?_, ?_, ?_⟩
    · rw [RuleOK]
      refine ⟨?_, h.ok⟩
      rintro rfl
      exact hd.1 (List.length_eq_zero_iff.1 h.length.symm)
    · rw [QRule.pointSet, PSet.WF]; exact h.wf
    · intro f g hfg
      simp only [iterSum]
      exact h.dim f g (by simpa [Cell.spatialDim] using hfg)
    · intro α ha hw
      rw [iterSum, moment]
      rw [Within] at hw
      exact h.exact α (by simpa [Cell.spatialDim] using ha) hw
    · intro x hx
      simp only [QRule.pointSet, PSet.pts, List.mem_map] at hx
      obtain ⟨xs, hx, rfl⟩ := hx
      exact h.width xs hx
    · simpa [QRule.pointSet, PSet.pts] using h.ne
  | .quad, deg, n, hd => by
    rw [GoodDegree] at hd
    obtain ⟨d, e, hde, h1, h2, a1, a2⟩ := hd
    rw [makeQuadrature]
    apply Runs.bind
    apply Runs.assertM (by simp [hde])
    apply Runs.bind
    simp only [hde]
    show Runs (List.mapM _ [Degree.int d, Degree.int e]) n _
    rw [List.mapM_cons]
    apply Runs.bind
    have g1 : GoodDegree F s D (.simplex 1) (.int d) := by simp [GoodDegree, h1, a1]
    have g2 : GoodDegree F s D (.simplex 1) (.int e) := by simp [GoodDegree, h2, a2]
    refine (made_simple hF (by simp) (by simp) g1 n).mono fun q n1 m1 => ?_
    apply Runs.bind
    rw [List.mapM_cons]
    apply Runs.bind
    refine (made_simple hF (by simp) (by simp) g2 n1).mono fun r n2 m2 => ?_
    refine Runs.bind ⟨[], n2, rfl, ?_⟩
    apply Runs.pure
    apply Runs.pure
    apply Runs.pure
    have h := madeL_cons m1 (madeL_cons m2 (madeL_nil n2))
    refine ⟨?_, h.fresh, ?_, ?_, ?_, ?_, ?_⟩
    · rw [RuleOK]; exact ⟨by simp, h.ok⟩
    · rw [QRule.pointSet, PSet.WF]; exact h.wf
    · intro f g hfg
      simp only [iterSum]
      exact h.dim f g (by simpa [Cell.spatialDim, Cell.spatialDimL] using hfg)
    · intro α ha hw
      rw [iterSum, moment]
      simp only [Within, hde] at hw
      match α, ha with
      | [a, b], _ =>
        rw [h.exact [a, b] (by simp [Cell.spatialDimL, Cell.spatialDim])
          (by simpa [WithinL, Within, Cell.spatialDim] using hw)]
        simp only [momentL, moment, Cell.spatialDim, List.take_succ_cons, List.take_zero, List.drop_succ_cons,
          List.drop_zero, List.map_cons, List.map_nil, List.prod_cons, List.prod_nil, List.sum_cons, List.sum_nil,
          mul_one, Nat.add_zero, moment_one]
    · intro x hx
      simp only [QRule.pointSet, PSet.pts, List.mem_map] at hx
      obtain ⟨xs, hx, rfl⟩ := hx
      exact h.width xs hx
    · simpa [QRule.pointSet, PSet.pts] using h.ne
  | .simplex d, deg, n, hd => by
    rw [makeQuadrature]
    · exact made_simple hF (by simp) (by simp) hd n
    all_goals simp
  | .hex, deg, n, hd => by
    rw [makeQuadrature]
    · exact made_simple hF (by simp) (by simp) hd n
    all_goals simp
theorem makeQuadratureL_spec [CharZero K] {F : FiatQuad K} {s : String} {D : Nat} (hF : FiatExact F s D) :
    ∀ (cs : List Cell) (ds : List Degree) (n : Nat), GoodDegreeL F s D cs ds → cs.length = ds.length ∧
      Runs (makeQuadratureL F s cs ds) n fun qs n' => MadeL qs cs ds n n'
  | [], [], n, _ => ⟨rfl, by rw [makeQuadratureL]; exact Runs.pure (madeL_nil n); all_goals simp⟩
  | c :: cs, d :: ds, n, h => by
    rw [GoodDegreeL] at h
    have H1 := makeQuadrature_spec hF c d n h.1
    have H2 := fun m => makeQuadratureL_spec hF cs ds m h.2
    refine ⟨by simp [(H2 0).1], ?_⟩
    rw [makeQuadratureL]
    apply Runs.bind
    refine H1.mono fun q n1 h1 => ?_
    apply Runs.bind
    refine (H2 n1).2.mono fun qs n2 h2 => Runs.pure (madeL_cons h1 h2)
  | [], _ :: _, n, h => by simp [GoodDegreeL] at h
  | _ :: _, [], n, h => by simp [GoodDegreeL] at h
end

end FInAT
