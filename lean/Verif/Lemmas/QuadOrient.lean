import Verif.Spec.QuadOrient
import Verif.Lemmas.Quadrature
import Mathlib.Data.List.GetD
import Mathlib.Data.List.Perm.Subperm

/-!
# Orientation maps of quadrature rules: proofs
-/

namespace FInAT

open Spec

variable {K : Type}

theorem ORule.bind_run {α β : Type} {x : M α} {f : α → M β} {n m : Nat} {b : β} (h : (x >>= f) n = .ok (b, m)) :
    ∃ a k, x n = .ok (a, k) ∧ f a k = .ok (b, m) := by
  simp only [bind, StateT.bind, Except.bind] at h
  split at h
  · cases h
  · rename_i v hv
    exact ⟨v.1, v.2, hv, h⟩

theorem ORule.assert_run {b : Bool} {n m : Nat} {u : Unit} (h : assertM b n = .ok (u, m)) : b = true ∧ m = n := by
  cases b with
  | false => cases h
  | true => cases h; exact ⟨rfl, rfl⟩

/-- One axis of a rule. -/
structure Axis (K : Type) where
  cell : Cell
  pts : List (List K)
  w : List K
  map : Option OMap

structure Axis.OK (sym : Cell → Nat → List K → List K) (a : Axis K) : Prop where
  dim : ∀ x ∈ a.pts, x.length = a.cell.spatialDim
  len : a.w.length = a.pts.length
  map : ∀ m, a.map = some m → MapOK (sym a.cell) (a.pts, a.w) m

/-- The point at a multi-index. -/
def axesPoint (as : List (Axis K)) (v : List Nat) : List K :=
  (List.zipWith (fun (a : Axis K) j => a.pts.getD j []) as v).flatten

variable [CommRing K]

/-- The weight at a multi-index. -/
def axesWeight (as : List (Axis K)) (v : List Nat) : K :=
  (List.zipWith (fun (a : Axis K) j => (a.w[j]?).getD 0) as v).prod

structure Laid (sym : Cell → Nat → List K → List K) (c : Cell) (q : ORule K) (n n' : Nat) (as : List (Axis K)) : Prop where
  fresh : Fresh n n' q.forget.pointSet.indices
  ext : q.forget.pointSet.indices.map Index.extent = as.map fun a => a.pts.length
  maps : q.maps = as.map Axis.map
  point : ∀ v, v.length = as.length → q.forget.pointSet.at_ v = axesPoint as v
  weight : ∀ v, v.length = as.length → weightAt q.forget v = axesWeight as v
  cells : as.map Axis.cell = axesOf c
  good : ∀ a ∈ as, a.OK sym
  ok : NoEmpty c → RuleOK q.forget

structure LaidL (sym : Cell → Nat → List K → List K) (cs : List Cell) (qs : List (ORule K)) (n n' : Nat)
    (as : List (Axis K)) : Prop where
  fresh : Fresh n n' (PSet.indicesL (QRule.pointSetL (ORule.forgetL qs)))
  ext : (PSet.indicesL (QRule.pointSetL (ORule.forgetL qs))).map Index.extent = as.map fun a => a.pts.length
  maps : qs.flatMap ORule.maps = as.map Axis.map
  point : ∀ v, v.length = as.length → PSet.atL (QRule.pointSetL (ORule.forgetL qs)) v = axesPoint as v
  weight : ∀ v, v.length = as.length → weightAtL (ORule.forgetL qs) v = axesWeight as v
  cells : as.map Axis.cell = axesOfL cs
  good : ∀ a ∈ as, a.OK sym
  ok : NoEmptyL cs → RuleOKL (ORule.forgetL qs)
  len : qs.length = cs.length

omit [CommRing K] in
theorem axesPoint_append (as bs : List (Axis K)) (v w : List Nat) (h : v.length = as.length) :
    axesPoint (as ++ bs) (v ++ w) = axesPoint as v ++ axesPoint bs w := by
  unfold axesPoint
  rw [List.zipWith_append (by simpa using h.symm), List.flatten_append]

theorem axesWeight_append (as bs : List (Axis K)) (v w : List Nat) (h : v.length = as.length) :
    axesWeight (as ++ bs) (v ++ w) = axesWeight as v * axesWeight bs w := by
  unfold axesWeight
  rw [List.zipWith_append (by simpa using h.symm), List.prod_append]

theorem laidL_nil (sym : Cell → Nat → List K → List K) (n : Nat) : LaidL sym [] [] n n [] where
  fresh := by simpa [ORule.forgetL, QRule.pointSetL, PSet.indicesL] using Fresh.nil n
  ext := by simp [ORule.forgetL, QRule.pointSetL, PSet.indicesL]
  maps := rfl
  point v _ := by simp [ORule.forgetL, QRule.pointSetL, PSet.atL, PSet.pointAtL, axesPoint]
  weight v _ := by simp [ORule.forgetL, weightAtL, axesWeight]
  cells := rfl
  good := by simp
  ok _ := by simp [ORule.forgetL, RuleOKL]
  len := rfl

theorem laidL_cons {sym : Cell → Nat → List K → List K} {c : Cell} {cs : List Cell} {q : ORule K} {qs : List (ORule K)}
    {n m k : Nat} {as bs : List (Axis K)} (h1 : Laid sym c q n m as) (h2 : LaidL sym cs qs m k bs) :
    LaidL sym (c :: cs) (q :: qs) n k (as ++ bs) := by
  have hl1 : q.forget.pointSet.indices.length = as.length := by simpa using congrArg List.length h1.ext
  have hl2 : (PSet.indicesL (QRule.pointSetL (ORule.forgetL qs))).length = bs.length := by
    simpa using congrArg List.length h2.ext
  have hf := h1.fresh.append h2.fresh
  have split : ∀ v : List Nat, v.length = (as ++ bs).length → ∃ a b, v = a ++ b ∧ a.length = as.length ∧ b.length = bs.length := by
    intro v hv
    refine ⟨v.take as.length, v.drop as.length, (List.take_append_drop _ _).symm, ?_, ?_⟩ <;>
      simp at hv ⊢ <;> omega
  constructor
  · exact hf
  · simp [ORule.forgetL, QRule.pointSetL, PSet.indicesL, h1.ext, h2.ext]
  · simp [h1.maps, h2.maps]
  · intro v hv
    obtain ⟨a, b, rfl, ha, hb⟩ := split v hv
    rw [ORule.forgetL, QRule.pointSetL, PSet.atL_cons hf.1 (by omega) (by omega), h1.point a ha, h2.point b hb,
      axesPoint_append _ _ _ _ ha]
  · intro v hv
    obtain ⟨a, b, rfl, ha, hb⟩ := split v hv
    rw [ORule.forgetL, weightAtL, List.take_left' (by omega), List.drop_left' (by omega), h1.weight a ha, h2.weight b hb,
      axesWeight_append _ _ _ _ ha]
  · simp [axesOfL, h1.cells, h2.cells]
  · intro a ha
    rcases List.mem_append.1 ha with h | h
    · exact h1.good a h
    · exact h2.good a h
  · intro h
    rw [NoEmptyL] at h
    rw [ORule.forgetL, RuleOKL]
    exact ⟨h1.ok h.1, h2.ok h.2⟩
  · simp [h2.len]

theorem laid_tensor {sym : Cell → Nat → List K → List K} {cs : List Cell} {qs : List (ORule K)} {r : Option Cell}
    {n m : Nat} {as : List (Axis K)} (h : LaidL sym cs qs n m as) :
    Laid sym (.prod cs) (ORule.newTensor (.sequence qs) r) n m as where
  fresh := h.fresh
  ext := h.ext
  maps := h.maps
  point := h.point
  weight := h.weight
  cells := h.cells
  good := h.good
  ok hc := by
    rw [NoEmpty] at hc
    simp only [ORule.newTensor, Iterable.read, ORule.forget, RuleOK]
    refine ⟨?_, h.ok hc.2⟩
    intro he
    have hne : qs ≠ [] := fun e => hc.1 (by have := h.len; rw [e] at this; simpa using this.symm)
    cases qs with
    | nil => exact hne rfl
    | cons q qs => simp [ORule.forgetL] at he

theorem laid_rule {sym : Cell → Nat → List K → List K} {cls : PSClass} {c : Cell} {pw : List (List K) × List K}
    {maps : List (Option OMap)} (hax : axesOf c = [c]) (hd : ∀ x ∈ pw.1, x.length = c.spatialDim)
    (hm : ∃ m, maps = [m] ∧ ∀ m', m = some m' → MapOK (sym c) pw m') {n n' : Nat} {q : ORule K}
    (h : mkORule cls c pw maps n = .ok (q, n')) : ∃ a, Laid sym c q n n' [a] ∧ (a.pts, a.w) = pw := by
  obtain ⟨m, rfl, hm⟩ := hm
  rw [mkORule] at h
  obtain ⟨u, k, h1, h0⟩ := ORule.bind_run h
  clear h
  obtain ⟨hb, rfl⟩ := ORule.assert_run h1
  obtain ⟨x, k', h2, h⟩ := ORule.bind_run h0
  have hb : pw.1.length = pw.2.length := of_decide_eq_true hb
  cases h2
  cases h
  refine ⟨⟨c, pw.1, pw.2, m⟩, ?_, rfl⟩
  constructor
  · exact (freshIndices_mk _ _).1
  · simp [ORule.forget, QRule.pointSet, PSet.indices, freshIndices.mk]
  · rfl
  · intro v hv
    match v, hv with
    | [j], _ => simp [ORule.forget, QRule.pointSet, PSet.at_, PSet.pointAt, PSet.indices, axesPoint, bindIx, ravel,
        freshIndices.mk, List.getD_eq_getElem?_getD]
  · intro v hv
    match v, hv with
    | [j], _ => simp [ORule.forget, weightAt, axesWeight]
  · simp [hax]
  · intro a ha
    rw [List.mem_singleton] at ha
    subst ha
    exact ⟨hd, hb.symm, hm⟩
  · intro _
    simp [ORule.forget, RuleOK, freshIndices.mk, hb]

/-- The points and weights of the rule of a simple cell. -/
def simplePW (F : FiatOrient K) (s : String) (c : Cell) : Degree → Option (List (List K) × List K)
  | .tup _ => none
  | .int d => if c = .simplex 1 ∧ F.isMacro c = false then some (F.gauss ((d.toNat + 1 + 1) / 2))
      else (F.scheme c d.toNat s).toOption

theorem laid_simple {F : FiatOrient K} {sym : Cell → Nat → List K → List K} (hF : OrientOK F sym) {s : String} {c : Cell}
    (hax : axesOf c = [c]) {deg : Degree} {n n' : Nat} {q : ORule K} (h : makeSimpleO F s c deg n = .ok (q, n')) :
    ∃ a, Laid sym c q n n' [a] ∧ simplePW F s c deg = some (a.pts, a.w) := by
  match deg with
  | .tup _ => simp only [makeSimpleO] at h; cases h
  | .int d =>
    simp only [makeSimpleO] at h
    split at h
    · cases h
    split at h
    · rename_i hc
      have hp : simplePW F s c (.int d) = some (F.gauss ((d.toNat + 1 + 1) / 2)) := by simp only [simplePW, if_pos hc]
      rw [hp]
      rw [hc.1] at h ⊢
      obtain ⟨a, ha, he⟩ := laid_rule rfl (hF.gaussDim _) (hF.gaussMap _) h
      exact ⟨a, ha, by rw [he]⟩
    · rename_i hc
      obtain ⟨pw, k, h1, h0⟩ := ORule.bind_run h
      clear h
      have : F.scheme c d.toNat s = .ok pw ∧ k = n := by
        revert h1
        generalize F.scheme c d.toNat s = y
        intro h1
        cases y with
        | error e => cases h1
        | ok b => cases h1; exact ⟨rfl, rfl⟩
      obtain ⟨h2, rfl⟩ := this
      obtain ⟨a, ha, he⟩ := laid_rule hax (hF.schemeDim _ _ _ _ h2) (hF.schemeMap _ _ _ _ h2) h0
      exact ⟨a, ha, by simp only [simplePW, if_neg hc, h2, he]; rfl⟩

theorem laidL_mapM {F : FiatOrient K} {sym : Cell → Nat → List K → List K} (hF : OrientOK F sym) {s : String} {c : Cell}
    (hax : axesOf c = [c]) : ∀ {ds : List Degree} {n n' : Nat} {qs : List (ORule K)},
    ds.mapM (makeSimpleO F s c) n = .ok (qs, n') → ∃ as, LaidL sym (List.replicate ds.length c) qs n n' as
  | [], n, n', qs, h => by cases h; exact ⟨[], laidL_nil sym _⟩
  | d :: ds, n, n', qs, h => by
    rw [List.mapM_cons] at h
    obtain ⟨q, k, h1, h⟩ := ORule.bind_run h
    obtain ⟨qs', k', h2, h⟩ := ORule.bind_run h
    cases h
    obtain ⟨a, ha, -⟩ := laid_simple hF hax h1
    obtain ⟨bs, hb⟩ := laidL_mapM hF hax h2
    exact ⟨_, laidL_cons ha hb⟩

mutual
theorem laid {F : FiatOrient K} {sym : Cell → Nat → List K → List K} (hF : OrientOK F sym) {s : String} :
    ∀ (c : Cell) {deg : Degree} {n n' : Nat} {q : ORule K}, makeOriented F s c deg n = .ok (q, n') →
      ∃ as, Laid sym c q n n' as
  | .prod cs, deg, n, n', q, h => by
    rw [makeOriented] at h
    obtain ⟨u, k, h1, h0⟩ := ORule.bind_run h
    clear h
    obtain ⟨hb, rfl⟩ := ORule.assert_run h1
    obtain ⟨qs, k', h2, h⟩ := ORule.bind_run h0
    cases h
    obtain ⟨as, ha⟩ := laidL hF cs (of_decide_eq_true hb) h2
    exact ⟨as, laid_tensor ha⟩
  | .quad, deg, n, n', q, h => by
    rw [makeOriented] at h
    obtain ⟨u, k, h1, h0⟩ := ORule.bind_run h
    clear h
    obtain ⟨hb, rfl⟩ := ORule.assert_run h1
    obtain ⟨qs, k', h2, h⟩ := ORule.bind_run h0
    cases h
    have hb : 2 = (deg.expand 2).length := of_decide_eq_true hb
    obtain ⟨as, ha⟩ := laidL_mapM hF rfl h2
    have e : ((deg.expand 2).take 2).length = 2 := by rw [List.length_take, ← hb]; rfl
    rw [e] at ha
    have L := laid_tensor (r := some (.prod [.simplex 1, .simplex 1])) ha
    exact ⟨as, ⟨L.fresh, L.ext, L.maps, L.point, L.weight, L.cells, L.good,
      fun _ => L.ok (by simp [NoEmpty, NoEmptyL, List.replicate])⟩⟩
  | .simplex d, deg, n, n', q, h => by
    rw [makeOriented] at h
    · obtain ⟨a, ha, -⟩ := laid_simple hF rfl h
      exact ⟨[a], ha⟩
    · simp
    · simp
  | .hex, deg, n, n', q, h => by
    rw [makeOriented] at h
    · obtain ⟨a, ha, -⟩ := laid_simple hF rfl h
      exact ⟨[a], ha⟩
    · simp
    · simp
theorem laidL {F : FiatOrient K} {sym : Cell → Nat → List K → List K} (hF : OrientOK F sym) {s : String} :
    ∀ (cs : List Cell) {ds : List Degree} {n n' : Nat} {qs : List (ORule K)}, cs.length = ds.length →
      makeOrientedL F s cs ds n = .ok (qs, n') → ∃ as, LaidL sym cs qs n n' as
  | [], ds, n, n', qs, hl, h => by
    cases ds with
    | cons => simp at hl
    | nil =>
      rw [makeOrientedL] at h
      · cases h; exact ⟨[], laidL_nil sym _⟩
      · simp
  | c :: cs, ds, n, n', qs, hl, h => by
    cases ds with
    | nil => simp at hl
    | cons d ds =>
      rw [makeOrientedL] at h
      obtain ⟨q, k, h1, h⟩ := ORule.bind_run h
      obtain ⟨qs', k', h2, h⟩ := ORule.bind_run h
      cases h
      obtain ⟨as, ha⟩ := laid hF c h1
      obtain ⟨bs, hb⟩ := laidL hF cs (by simpa using hl) h2
      exact ⟨_, laidL_cons ha hb⟩
end

end FInAT

namespace FInAT

open Spec

variable {K : Type}

/-! ### Moving the axes of a multi-index -/

theorem selected_cons {m : OMap} {ms : List OMap} {os : List Nat} {ps : List (List Nat)} (h : Selected (m :: ms) os ps) :
    ∃ o os' p ps', os = o :: os' ∧ ps = p :: ps' ∧ m.get? o = some p ∧ Selected ms os' ps' := by
  obtain ⟨h1, h2⟩ := h
  cases os with
  | nil => simp at h2
  | cons o os =>
    rw [List.zip_cons_cons] at h1
    cases h1 with
    | cons h3 h4 => exact ⟨o, os, _, _, rfl, rfl, h3, h4, by simpa using h2⟩

theorem getD_lt_of_perm {p : List Nat} {n j : Nat} (h : p.Perm (List.range n)) (hj : j < n) : p.getD j 0 < n := by
  have hl : p.length = n := by simpa using h.length_eq
  rw [List.getD_eq_getElem _ _ (by omega)]
  have := h.subset (List.getElem_mem (l := p) (n := j) (by omega))
  simpa using this

theorem axes_move {sym : Cell → Nat → List K → List K} : ∀ {as : List (Axis K)} {ms : List OMap} {os : List Nat}
    {ps : List (List Nat)} {v : List Nat}, (∀ a ∈ as, a.OK sym) → as.map Axis.map = ms.map some → Selected ms os ps →
    InB v (as.map fun a => a.pts.length) →
    InB (permute ps v) (as.map fun a => a.pts.length) ∧
      axesPoint as (permute ps v) = moveAxes sym (as.map Axis.cell) os (axesPoint as v)
  | [], ms, os, ps, v, _, hm, hs, hv => by
    cases ms with
    | cons => simp at hm
    | nil =>
      obtain ⟨h1, h2⟩ := hs
      cases os with
      | cons => simp at h2
      | nil =>
        cases h1
        simp only [List.map_nil] at hv ⊢
        cases hv
        exact ⟨.nil, by simp [axesPoint, moveAxes, permute]⟩
  | a :: as, ms, os, ps, v, ha, hm, hs, hv => by
    cases ms with
    | nil => simp at hm
    | cons m ms =>
      simp only [List.map_cons, List.cons.injEq] at hm
      obtain ⟨o, os', p, ps', rfl, rfl, hp, hs'⟩ := selected_cons hs
      rw [List.map_cons] at hv
      cases hv with
      | @cons j n v' _ hj hv' =>
        have hA := ha a (by simp)
        have hM := hA.map m hm.1
        obtain ⟨i1, i2⟩ := axes_move (fun b hb => ha b (by simp [hb])) hm.2 hs' hv'
        refine ⟨?_, ?_⟩
        · simp only [permute, List.zipWith_cons_cons, List.map_cons]
          exact .cons (getD_lt_of_perm (hM.perm o p hp) hj) i1
        · have hx : (a.pts.getD j []).length = a.cell.spatialDim := by
            rw [List.getD_eq_getElem _ _ hj]
            exact hA.dim _ (List.getElem_mem _)
          have e := hM.point o p hp j hj
          simp only [axesPoint, permute, List.zipWith_cons_cons, List.flatten_cons, List.map_cons, moveAxes] at i2 ⊢
          rw [List.take_left' hx, List.drop_left' hx, ← e, i2]

theorem axes_weight [CommRing K] {sym : Cell → Nat → List K → List K} : ∀ {as : List (Axis K)} {ms : List OMap}
    {os : List Nat} {ps : List (List Nat)} {v : List Nat}, (∀ a ∈ as, a.OK sym) → as.map Axis.map = ms.map some →
    Selected ms os ps → InB v (as.map fun a => a.pts.length) → axesWeight as (permute ps v) = axesWeight as v
  | [], ms, os, ps, v, _, hm, hs, hv => by simp [axesWeight]
  | a :: as, ms, os, ps, v, ha, hm, hs, hv => by
    cases ms with
    | nil => simp at hm
    | cons m ms =>
      simp only [List.map_cons, List.cons.injEq] at hm
      obtain ⟨o, os', p, ps', rfl, rfl, hp, hs'⟩ := selected_cons hs
      rw [List.map_cons] at hv
      cases hv with
      | @cons j n v' _ hj hv' =>
        have hM := (ha a (by simp)).map m hm.1
        have i2 := axes_weight (fun b hb => ha b (by simp [hb])) hm.2 hs' hv'
        have e := hM.weight o p hp j hj
        simp only [axesWeight, permute, List.zipWith_cons_cons, List.prod_cons] at i2 ⊢
        dsimp only at e
        rw [e, i2]

theorem permute_inj {sym : Cell → Nat → List K → List K} : ∀ {as : List (Axis K)} {ms : List OMap} {os : List Nat}
    {ps : List (List Nat)} {v w : List Nat}, (∀ a ∈ as, a.OK sym) → as.map Axis.map = ms.map some → Selected ms os ps →
    InB v (as.map fun a => a.pts.length) → InB w (as.map fun a => a.pts.length) → permute ps v = permute ps w → v = w
  | [], ms, os, ps, v, w, _, hm, hs, hv, hw, _ => by
    simp only [List.map_nil] at hv hw; cases hv; cases hw; rfl
  | a :: as, ms, os, ps, v, w, ha, hm, hs, hv, hw, he => by
    cases ms with
    | nil => simp at hm
    | cons m ms =>
      simp only [List.map_cons, List.cons.injEq] at hm
      obtain ⟨o, os', p, ps', rfl, rfl, hp, hs'⟩ := selected_cons hs
      rw [List.map_cons] at hv hw
      cases hv with
      | @cons j n v' _ hj hv' =>
        cases hw with
        | @cons i n w' _ hi hw' =>
          have hM := (ha a (by simp)).map m hm.1
          simp only [permute, List.zipWith_cons_cons, List.cons.injEq] at he
          rw [permute_inj (fun b hb => ha b (by simp [hb])) hm.2 hs' hv' hw' he.2]
          have hpm := hM.perm o p hp
          have hl : p.length = a.pts.length := by simpa using hpm.length_eq
          have e := he.1
          rw [List.getD_eq_getElem _ _ (by omega), List.getD_eq_getElem _ _ (by omega)] at e
          have hnd : p.Nodup := hpm.nodup_iff.2 List.nodup_range
          rw [(List.Nodup.getElem_inj_iff hnd).1 e]

/-- A map of a list without repetitions to itself that is injective permutes the list. -/
theorem perm_of_inj {α : Type} {l : List α} (hn : l.Nodup) {f : α → α} (hf : ∀ a ∈ l, f a ∈ l)
    (hi : ∀ a ∈ l, ∀ b ∈ l, f a = f b → a = b) : (l.map f).Perm l := by
  have h1 : (l.map f).Nodup := hn.map_on fun a ha b hb h => hi a ha b hb h
  refine (List.subperm_of_subset h1 ?_).perm_of_length_le (by simp)
  intro x hx
  obtain ⟨a, ha, rfl⟩ := List.mem_map.1 hx
  exact hf a ha

theorem maps_some {q : ORule K} {ms : List OMap} (h : q.intrinsicMaps = .ok ms) : q.maps = ms.map some := by
  unfold ORule.intrinsicMaps at h
  split at h
  · cases h
  · rename_i hn
    cases h
    revert hn
    generalize q.maps = l
    intro hn
    induction l with
    | nil => rfl
    | cons m l ih =>
      cases m with
      | none => simp at hn
      | some m =>
        simp only [List.any_cons, Option.isNone_some, Bool.false_or] at hn
        have e : List.filterMap id (some m :: l) = m :: List.filterMap id l := rfl
        rw [e, List.map_cons, ← ih hn]

/-! ### The rule without orientation data -/

theorem bind_map_run {α β γ δ : Type} {x : M α} {y : M γ} {g : γ → α} {f : α → M β} {f' : γ → M δ} {g' : δ → β} {n : Nat}
    (h1 : x n = (y n).map fun p => (g p.1, p.2)) (h2 : ∀ c k, f (g c) k = (f' c k).map fun p => (g' p.1, p.2)) :
    (x >>= f) n = ((y >>= f') n).map fun p => (g' p.1, p.2) := by
  simp only [bind, StateT.bind, Except.bind, h1]
  cases y n with
  | error e => rfl
  | ok p => exact h2 p.1 p.2

theorem assert_bind_map {β δ : Type} {b : Bool} {f : M β} {f' : M δ} {g' : δ → β} {n : Nat}
    (h2 : ∀ k, f k = (f' k).map fun p => (g' p.1, p.2)) :
    (assertM b >>= fun _ => f) n = ((assertM b >>= fun _ => f') n).map fun p => (g' p.1, p.2) := by
  apply bind_map_run (g := id)
  · cases h : assertM b n <;> rfl
  · intro _ k; exact h2 k

theorem mkORule_forget [Zero K] (cls : PSClass) (c : Cell) (pw : List (List K) × List K) (maps : List (Option OMap)) (n : Nat) :
    mkRule cls pw n = (mkORule cls c pw maps n).map fun p => (p.1.forget, p.2) := by
  unfold mkRule mkORule
  apply assert_bind_map
  intro k
  rfl

theorem makeSimpleO_forget [Zero K] (F : FiatOrient K) (s : String) (c : Cell) (deg : Degree) (n : Nat) :
    makeSimple F.toFiatQuad s c deg n = (makeSimpleO F s c deg n).map fun p => (p.1.forget, p.2) := by
  match deg with
  | .tup _ => rfl
  | .int d =>
    simp only [makeSimple, makeSimpleO]
    split
    · rfl
    split
    · exact mkORule_forget _ _ _ _ _
    · apply bind_map_run (g := id)
      · cases h : (liftE (F.scheme c d.toNat s) : M _) n <;> rfl
      · intro pw k
        exact mkORule_forget _ _ _ _ _

theorem mapM_forget [Zero K] (F : FiatOrient K) (s : String) (c : Cell) : ∀ (ds : List Degree) (n : Nat),
    ds.mapM (makeSimple F.toFiatQuad s c) n =
      (ds.mapM (makeSimpleO F s c) n).map fun p => (ORule.forgetL p.1, p.2)
  | [], n => rfl
  | d :: ds, n => by
    rw [List.mapM_cons, List.mapM_cons]
    apply bind_map_run (makeSimpleO_forget F s c d n)
    intro q k
    apply bind_map_run (mapM_forget F s c ds k)
    intro qs k
    rfl

mutual
theorem makeOriented_forget [Zero K] (F : FiatOrient K) (s : String) : ∀ (c : Cell) (deg : Degree) (n : Nat),
    makeQuadrature F.toFiatQuad s c deg n = (makeOriented F s c deg n).map fun p => (p.1.forget, p.2)
  | .prod cs, deg, n => by
    rw [makeQuadrature, makeOriented]
    apply assert_bind_map
    intro k
    apply bind_map_run (makeOrientedL_forget F s cs _ k)
    intro qs k
    rfl
  | .quad, deg, n => by
    rw [makeQuadrature, makeOriented]
    apply assert_bind_map
    intro k
    apply bind_map_run (mapM_forget F s _ _ k)
    intro qs k
    rfl
  | .simplex d, deg, n => by
    rw [makeQuadrature, makeOriented] <;> simp [makeSimpleO_forget]
  | .hex, deg, n => by
    rw [makeQuadrature, makeOriented] <;> simp [makeSimpleO_forget]
theorem makeOrientedL_forget [Zero K] (F : FiatOrient K) (s : String) : ∀ (cs : List Cell) (ds : List Degree) (n : Nat),
    makeQuadratureL F.toFiatQuad s cs ds n = (makeOrientedL F s cs ds n).map fun p => (ORule.forgetL p.1, p.2)
  | [], ds, n => by rw [makeQuadratureL, makeOrientedL] <;> first | rfl | simp
  | c :: cs, [], n => by rw [makeQuadratureL, makeOrientedL] <;> first | rfl | simp
  | c :: cs, d :: ds, n => by
    rw [makeQuadratureL, makeOrientedL]
    apply bind_map_run (makeOriented_forget F s c d n)
    intro q k
    apply bind_map_run (makeOrientedL_forget F s cs ds k)
    intro qs k
    rfl
end

/-! ### Products of copies of one cell -/

mutual
theorem axesOf_simple : ∀ (x y : Cell), y ∈ axesOf x → ∀ cs, y ≠ .prod cs
  | .prod cs, y, h => by rw [axesOf] at h; exact axesOfL_simple cs y h
  | .quad, y, h => by simp [axesOf] at h; simp [h]
  | .simplex d, y, h => by simp [axesOf] at h; simp [h]
  | .hex, y, h => by simp [axesOf] at h; simp [h]
theorem axesOfL_simple : ∀ (xs : List Cell) (y : Cell), y ∈ axesOfL xs → ∀ cs, y ≠ .prod cs
  | [], y, h => by simp [axesOfL] at h
  | x :: xs, y, h => by
    rw [axesOfL] at h
    rcases List.mem_append.1 h with h | h
    · exact axesOf_simple x y h
    · exact axesOfL_simple xs y h
end

theorem laidL_copies [CommRing K] {F : FiatOrient K} {sym : Cell → Nat → List K → List K} (hF : OrientOK F sym) {s : String}
    {c : Cell} (hax : axesOf c = [c]) {deg : Degree} : ∀ (r : Nat) {n n' : Nat} {qs : List (ORule K)},
    makeOrientedL F s (List.replicate r c) (List.replicate r deg) n = .ok (qs, n') →
      ∃ as, LaidL sym (List.replicate r c) qs n n' as ∧ ∀ a ∈ as, simplePW F s c deg = some (a.pts, a.w)
  | 0, n, n', qs, h => by
    rw [List.replicate_zero, List.replicate_zero, makeOrientedL] at h
    · cases h; exact ⟨[], laidL_nil sym _, by simp⟩
    · simp
  | r + 1, n, n', qs, h => by
    rw [List.replicate_succ, List.replicate_succ, makeOrientedL] at h
    obtain ⟨q, k, h1, h2⟩ := ORule.bind_run h
    obtain ⟨qs', k', h3, h4⟩ := ORule.bind_run h2
    cases h4
    have hs : makeOriented F s c deg = makeSimpleO F s c deg := by
      cases c with
      | simplex d => rw [makeOriented] <;> simp
      | quad => simp [axesOf] at hax
      | hex => rw [makeOriented] <;> simp
      | prod cs =>
        rw [axesOf] at hax
        exact absurd hax (by
          intro hax
          have key : ∀ (x y : Cell), y ∈ axesOf x → ∀ cs, y ≠ .prod cs := by
            intro x
            exact axesOf_simple x
          exact key (.prod cs) (.prod cs) (by rw [axesOf, hax]; simp) cs rfl)
    rw [hs] at h1
    obtain ⟨a, ha, hpa⟩ := laid_simple hF hax h1
    obtain ⟨bs, hb, hpb⟩ := laidL_copies hF hax r h3
    refine ⟨_, laidL_cons ha hb, ?_⟩
    intro x hx
    rw [List.singleton_append] at hx
    rcases List.mem_cons.1 hx with rfl | hx
    · exact hpa
    · exact hpb x hx

theorem axesPoint_copies {P : List (List K)} : ∀ {as : List (Axis K)} {v : List Nat}, (∀ a ∈ as, a.pts = P) →
    v.length = as.length → axesPoint as v = (v.map fun j => P.getD j []).flatten
  | [], [], _, _ => rfl
  | a :: as, j :: v, ha, hv => by
    have := axesPoint_copies (as := as) (v := v) (fun b hb => ha b (by simp [hb])) (by simpa using hv)
    unfold axesPoint at this ⊢
    rw [List.zipWith_cons_cons, List.flatten_cons, this, ha a (by simp)]
    rfl

theorem axesWeight_copies [CommRing K] {w : List K} : ∀ {as : List (Axis K)} {v : List Nat}, (∀ a ∈ as, a.w = w) →
    v.length = as.length → axesWeight as v = (v.map fun j => (w[j]?).getD 0).prod
  | [], [], _, _ => rfl
  | a :: as, j :: v, ha, hv => by
    have := axesWeight_copies (as := as) (v := v) (fun b hb => ha b (by simp [hb])) (by simpa using hv)
    unfold axesWeight at this ⊢
    rw [List.zipWith_cons_cons, List.prod_cons, this, ha a (by simp)]
    rfl

/-- Piece `k` of a concatenation of pieces of equal length. -/
theorem piece_flatten {α : Type} {d : Nat} : ∀ {l : List (List α)} {k : Nat}, (∀ x ∈ l, x.length = d) → k < l.length →
    (l.flatten.drop (k * d)).take d = l.getD k []
  | x :: l, 0, h, _ => by
    simp only [List.flatten_cons, Nat.zero_mul, List.drop_zero, List.getD_cons_zero]
    exact List.take_left' (h x (by simp))
  | x :: l, k + 1, h, hk => by
    have := piece_flatten (l := l) (k := k) (fun y hy => h y (by simp [hy])) (by simpa using hk)
    rw [List.getD_cons_succ, ← this, List.flatten_cons, Nat.succ_mul, Nat.add_comm, ← List.drop_drop,
      List.drop_left' (h x (by simp))]

theorem map_getD_perm {σ v : List Nat} (h : σ.Perm (List.range v.length)) : (σ.map fun k => v.getD k 0).Perm v := by
  refine (h.map _).trans ?_
  refine List.Perm.of_eq ?_
  apply List.ext_getElem (by simp)
  intro i h1 h2
  rw [List.getElem_map, List.getElem_range, List.getD_eq_getElem _ _ h2]

end FInAT
