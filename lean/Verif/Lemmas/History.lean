import Verif.Lemmas.Rename
import Verif.Lemmas.FreeIndices
import Verif.Lemmas.Dual

/-!
# Every construction takes the same course whatever has been created before
-/

namespace FInAT

variable {K : Type} {α β γ : Type} {t d : Nat}

local notation "𝑓" => shift t d

theorem fits_ren : ∀ (ixs : List Ix) (s : List Nat) (f : Nat → Nat), fitsShape (ixs.map (Ix.ren f)) s = fitsShape ixs s
  | [], [], _ => rfl
  | [], _ :: _, _ => rfl
  | _ :: _, [], _ => rfl
  | i :: is, n :: ns, f => by
    simp only [List.map_cons, fitsShape, fits_ren is ns f]
    congr 1
    cases i <;> rfl

theorem eqv_indexed {e e' : Gem K} {ixs ixs' : List Ix} (he : e' = e.ren 𝑓) (hi : ixs' = ixs.map (Ix.ren 𝑓)) :
    Eqv t d (Gem.ren 𝑓) (mkIndexed e ixs) (mkIndexed e' ixs') := by
  subst he hi
  refine Eqv.bind (Eqv.assert (by rw [fits_ren, Gem.shape_ren])) fun _ => Eqv.pure ?_
  by_cases h : ixs = []
  · simp [h]
  · simp [h, Gem.ren]

theorem eqv_component {e e' : Gem K} {ixs ixs' : List Index} (he : e' = e.ren 𝑓) (hi : ixs' = ixs.map (Index.ren 𝑓)) :
    Eqv t d (Gem.ren 𝑓) (mkComponentTensor e ixs) (mkComponentTensor e' ixs') := by
  subst he hi
  refine Eqv.bind (Eqv.assert (by rw [Gem.shape_ren])) fun _ => Eqv.pure ?_
  by_cases h : ixs = []
  · simp [h]
  · simp [h, Gem.ren]

theorem eqv_sum {e e' : Gem K} {ixs ixs' : List Index} (he : e' = e.ren 𝑓) (hi : ixs' = ixs.map (Index.ren 𝑓)) :
    Eqv t d (Gem.ren 𝑓) (mkIndexSum e ixs) (mkIndexSum e' ixs') := by
  subst he hi
  refine Eqv.bind (Eqv.assert (by rw [Gem.shape_ren])) fun _ => Eqv.pure ?_
  by_cases h : ixs = []
  · simp [h]
  · simp [h, Gem.ren]

theorem eqv_product {a b a' b' : Gem K} (ha : a' = a.ren 𝑓) (hb : b' = b.ren 𝑓) :
    Eqv t d (Gem.ren 𝑓) (mkProduct a b) (mkProduct a' b') := by
  subst ha hb
  exact Eqv.bind (Eqv.assert (by rw [Gem.shape_ren, Gem.shape_ren])) fun _ => Eqv.pure rfl

theorem eqv_reduce {l l' : List (Gem K)} (hl : l' = l.map (Gem.ren 𝑓)) :
    Eqv t d (Gem.ren 𝑓) (reduceProduct l) (reduceProduct l') := by
  subst hl
  cases l with
  | nil => exact Eqv.raise
  | cons e es => exact Eqv.foldlM fun b a _ => eqv_product rfl rfl

theorem eqv_list {s : List Nat} {l l' : List (Gem K)} (hl : l' = l.map (Gem.ren 𝑓)) :
    Eqv t d (Gem.ren 𝑓) (mkListTensor s l) (mkListTensor s l') := by
  subst hl
  refine Eqv.bind (Eqv.assert ?_) fun _ => Eqv.pure (by rw [Gem.ren, Gem.renL_eq])
  simp [List.all_map, Function.comp_def]

theorem eqv_partial {e e' : Gem K} {ixs ixs' : List Ix} (he : e' = e.ren 𝑓) (hi : ixs' = ixs.map (Ix.ren 𝑓)) :
    Eqv t d (Gem.ren 𝑓) (partialIndexed e ixs) (partialIndexed e' ixs') := by
  subst he hi
  unfold partialIndexed
  rw [Gem.shape_ren, List.length_map]
  split
  · exact Eqv.raise
  split
  · exact eqv_indexed rfl rfl
  · exact Eqv.bind (Eqv.fresh _) fun rest => Eqv.bind (eqv_indexed rfl (by simp)) fun x =>
      eqv_component rfl rfl

/-! ### Composed elements -/

section compose
variable [CommRing K]

theorem eqv_comp {v v' : Gem K} (hv : v' = v.ren 𝑓) (c : Comp) :
    Eqv t d (Gem.ren 𝑓) (compExpr v c) (compExpr v' c) := by
  subst hv
  cases c with
  | zero => exact Eqv.pure rfl
  | entry neg ix =>
    refine Eqv.bind (eqv_indexed rfl (map_fixed_ren _).symm) fun x => ?_
    cases neg
    · exact Eqv.pure rfl
    · exact eqv_product rfl rfl

theorem eqv_wrapped {comps : List Comp} {beta zeta beta' zeta' : List Index} {e e' : Gem K}
    (hb : beta' = beta.map (Index.ren 𝑓)) (hz : zeta' = zeta.map (Index.ren 𝑓)) (he : e' = e.ren 𝑓) :
    Eqv t d (Gem.ren 𝑓) (promoteWrapped comps beta zeta e) (promoteWrapped comps beta' zeta' e') := by
  subst hb hz he
  exact Eqv.bind (eqv_partial rfl (by simp)) fun v => Eqv.bind (Eqv.mapM' fun c _ => eqv_comp rfl c) fun es =>
    Eqv.bind (eqv_list rfl) fun u => Eqv.bind (eqv_indexed rfl (by simp)) fun x => eqv_component rfl (by simp)

theorem foldl_set_ren (f : Nat → Nat) (offset : Nat) : ∀ (l : List (Nat × Gem K)) (u : List (Gem K)),
    (l.map fun p => (p.1, p.2.ren f)).foldl (fun u p => u.set (offset + p.1) p.2) (u.map (Gem.ren f)) =
      (l.foldl (fun u p => u.set (offset + p.1) p.2) u).map (Gem.ren f)
  | [], _ => rfl
  | p :: l, u => by
    simp only [List.map_cons, List.foldl_cons]
    rw [← List.map_set, foldl_set_ren f offset l]

theorem enumFrom_ren (f : Nat → Nat) : ∀ (l : List (Gem K)) (n : Nat),
    enumFrom n (l.map (Gem.ren f)) = (enumFrom n l).map fun p => (p.1, p.2.ren f)
  | [], _ => rfl
  | e :: l, n => by simp only [List.map_cons, enumFrom, enumFrom_ren f l]

theorem eqv_mixedTransform {vs : List Nat} {size offset : Nat} {v v' : Gem K} (hv : v' = v.ren 𝑓) :
    Eqv t d (List.map (Gem.ren 𝑓)) (mixedTransform vs size offset v) (mixedTransform vs size offset v') := by
  subst hv
  refine Eqv.bind (Eqv.mapM' fun z _ => eqv_indexed rfl (map_fixed_ren _).symm) fun es => Eqv.pure ?_
  rw [enumFrom_ren, ← foldl_set_ren, List.map_replicate]
  rfl

theorem eqv_mixed {vs : List Nat} {size offset : Nat} {beta zeta beta' zeta' : List Index} {e e' : Gem K}
    (hb : beta' = beta.map (Index.ren 𝑓)) (hz : zeta' = zeta.map (Index.ren 𝑓)) (he : e' = e.ren 𝑓) :
    Eqv t d (Gem.ren 𝑓) (promoteMixed vs size offset beta zeta e) (promoteMixed vs size offset beta' zeta' e') := by
  subst hb hz he
  exact Eqv.bind (eqv_partial rfl (by simp)) fun v => Eqv.bind (eqv_mixedTransform rfl) fun es =>
    Eqv.bind (eqv_list rfl) fun u => Eqv.bind (eqv_indexed rfl (by simp)) fun x => eqv_component rfl (by simp)

theorem eqv_mapTab {g g' : Gem K → M (Gem K)} {T T' : Tab K} (hT : T' = Tab.ren 𝑓 T)
    (hg : ∀ e, Eqv t d (Gem.ren 𝑓) (g e) (g' (e.ren 𝑓))) : Eqv t d (Tab.ren 𝑓) (mapTab g T) (mapTab g' T') := by
  subst hT
  exact Eqv.mapM (g := fun p : List Nat × Gem K => (p.1, p.2.ren 𝑓)) (h := fun p : List Nat × Gem K => (p.1, p.2.ren 𝑓))
    fun p _ => Eqv.bind (hg p.2) fun e => Eqv.pure rfl

theorem deltas_ren (f : Nat → Nat) (a b : List Index) :
    (((a.map (Index.ren f)).zip (b.map (Index.ren f))).map fun p => (Gem.delta p.1 p.2 : Gem K)) =
      ((a.zip b).map fun p => (Gem.delta p.1 p.2 : Gem K)).map (Gem.ren f) := by
  rw [List.zip_map, List.map_map, List.map_map]
  rfl

theorem eqv_tensorise {bi bv s : List Nat} {tr : Bool} {T T' : Tab K} (hT : T' = Tab.ren 𝑓 T) :
    Eqv t d (Tab.ren 𝑓) (tensorise bi bv s tr T) (tensorise bi bv s tr T') := by
  refine Eqv.bind (Eqv.fresh _) fun a => Eqv.bind (Eqv.fresh _) fun b => Eqv.bind (Eqv.fresh _) fun c =>
    Eqv.bind (Eqv.fresh _) fun e => Eqv.bind (eqv_reduce (deltas_ren _ _ _)) fun ds => eqv_mapTab hT fun x => ?_
  refine Eqv.bind (eqv_indexed rfl (by simp)) fun y => Eqv.bind (eqv_product rfl rfl) fun z =>
    eqv_component rfl ?_
  cases tr <;> simp

theorem eqv_mergeEnriched {is : List (List Nat)} {vs : List Nat} {total : Nat} {l l' : List (Gem K)}
    (hl : l' = l.map (Gem.ren 𝑓)) : Eqv t d (Gem.ren 𝑓) (mergeEnriched is vs total l) (mergeEnriched is vs total l') := by
  subst hl
  refine Eqv.bind (Eqv.fresh _) fun zeta => ?_
  rw [show is.zip (l.map (Gem.ren 𝑓)) = (is.zip l).map fun p => (p.1, p.2.ren 𝑓) by
    rw [List.zip_map_right]; rfl]
  refine Eqv.bind (Eqv.mapM fun p _ => Eqv.bind (Eqv.fresh _) fun b =>
    Eqv.bind (eqv_indexed rfl (by simp)) fun x => eqv_component rfl rfl) fun ts =>
    Eqv.bind (Eqv.fresh _) fun b => Eqv.bind (eqv_indexed (by rw [Gem.ren, Gem.renL_eq]) (by simp)) fun x =>
      eqv_component rfl (by simp)

theorem get?_ren (f : Nat → Nat) (k : List Nat) : ∀ T : Tab K, (Tab.ren f T).get? k = (T.get? k).map (Gem.ren f)
  | [] => rfl
  | p :: T => by
    have ih := get?_ren f k T
    by_cases h : p.1 = k
    · simp [Tab.ren, Dict.get?, h]
    · simpa [Tab.ren, Dict.get?, h] using ih

theorem get_ren (f : Nat → Nat) (k : List Nat) (T : Tab K) : (Tab.ren f T).get k = (T.get k).map (Gem.ren f) := by
  unfold Dict.get
  rw [get?_ren]
  cases T.get? k <;> rfl

theorem set_ren (f : Nat → Nat) (k : List Nat) (e : Gem K) : ∀ T : Tab K,
    (Tab.ren f T).set k (e.ren f) = Tab.ren f (T.set k e)
  | [] => rfl
  | p :: T => by
    have ih := set_ren f k e T
    by_cases h : p.1 = k
    · simp [Tab.ren, Dict.set, h]
    · simpa [Tab.ren, Dict.set, h] using ih

@[simp] theorem keys_ren (f : Nat → Nat) (T : Tab K) : (Tab.ren f T).keys = T.keys := by
  simp [Tab.ren, Dict.keys, Function.comp_def]

theorem except_mapM_ren (f : Nat → Nat) (k : List Nat) : ∀ Ts : List (Tab K),
    (Ts.map (Tab.ren f)).mapM (fun t' : Tab K => t'.get k) = (Ts.mapM fun t' : Tab K => t'.get k).map (List.map (Gem.ren f))
  | [] => rfl
  | T :: Ts => by
    rw [List.map_cons, List.mapM_cons, List.mapM_cons, except_mapM_ren f k Ts, get_ren]
    cases T.get k with
    | error e => rfl
    | ok a => cases Ts.mapM fun t' : Tab K => t'.get k <;> rfl

theorem eqv_compose {is : List (List Nat)} {vs : List Nat} {total : Nat} {Ts Ts' : List (Tab K)}
    (hT : Ts' = Ts.map (Tab.ren 𝑓)) : Eqv t d (Tab.ren 𝑓) (composeEnriched is vs total Ts) (composeEnriched is vs total Ts') := by
  subst hT
  cases Ts with
  | nil => exact Eqv.raise
  | cons T Ts =>
    simp only [composeEnriched, List.map_cons, List.all_map, Function.comp_def, keys_ren]
    split
    · refine Eqv.mapM' (g := fun p : List Nat × Gem K => (p.1, p.2.ren 𝑓)) fun k _ => ?_
      exact Eqv.bind (Eqv.lift (except_mapM_ren 𝑓 k (T :: Ts))) fun ts => Eqv.bind (eqv_mergeEnriched rfl) fun e =>
        Eqv.pure rfl
    · exact Eqv.raise

theorem zip3_ren (f : Nat → Nat) (frs : List (Tab K)) (ds : List (List Nat)) (as zs : List (List Index)) :
    (frs.map (Tab.ren f)).zip (ds.zip ((as.map (List.map (Index.ren f))).zip (zs.map (List.map (Index.ren f))))) =
      (frs.zip (ds.zip (as.zip zs))).map fun p => (Tab.ren f p.1, p.2.1, p.2.2.1.map (Index.ren f), p.2.2.2.map (Index.ren f)) := by
  rw [List.zip_map, List.zip_map_right, List.zip_map]
  rfl

theorem eqv_mergeProduct {dims : List Nat} {as zs as' zs' : List (List Index)} {frs frs' : List (Tab K)} {Delta : List Nat}
    (ha : as' = as.map (List.map (Index.ren 𝑓))) (hz : zs' = zs.map (List.map (Index.ren 𝑓)))
    (hf : frs' = frs.map (Tab.ren 𝑓)) :
    Eqv t d (Gem.ren 𝑓) (mergeProduct dims as zs frs Delta) (mergeProduct dims as' zs' frs' Delta) := by
  subst ha hz hf
  unfold mergeProduct
  dsimp only
  rw [zip3_ren]
  refine Eqv.bind (Eqv.mapM fun p _ => Eqv.bind (Eqv.lift (get_ren 𝑓 _ _)) fun x => eqv_indexed rfl (by simp)) fun l =>
    Eqv.bind (eqv_reduce rfl) fun e => eqv_component rfl (by simp [List.map_flatten])

theorem eqv_merge {dims : List Nat} {is vs : List (List Nat)} {frs frs' : List (Tab K)}
    (hf : frs' = frs.map (Tab.ren 𝑓)) :
    Eqv t d (Tab.ren 𝑓) (mergeEvaluations dims is vs frs) (mergeEvaluations dims is vs frs') := by
  subst hf
  refine Eqv.bind (Eqv.lift (g := id) ?_) fun order => Eqv.bind (Eqv.mapM' fun s _ => Eqv.fresh s) fun as =>
    Eqv.bind (Eqv.mapM' fun s _ => Eqv.fresh s) fun zs => ?_
  · have : (frs.map (Tab.ren 𝑓)).flatMap (fun T => T.keys.map List.sum) = frs.flatMap fun T => T.keys.map List.sum := by
      simp [List.flatMap_map]
    rw [this]
    cases maxE (frs.flatMap fun T => T.keys.map List.sum) <;> rfl
  · have := Eqv.foldlM (t := t) (d := d) (g := Tab.ren 𝑓) (h := id)
      (x := fun (acc : Tab K) Delta => do
        let e ← mergeProduct dims as zs frs Delta
        Pure.pure (acc.set Delta e))
      (y := fun (acc : Tab K) Delta => do
        let e ← mergeProduct dims (as.map (List.map (Index.ren 𝑓))) (zs.map (List.map (Index.ren 𝑓)))
          (frs.map (Tab.ren 𝑓)) Delta
        Pure.pure (acc.set Delta e))
      (l := (List.range (order + 1)).flatMap (mis dims.sum)) (b := [])
      (fun b Delta _ => Eqv.bind (eqv_mergeProduct rfl rfl rfl) fun e => Eqv.pure (set_ren 𝑓 Delta e b))
    rw [List.map_id] at this
    exact this

/-! ### The element tree -/

/-- How points are renamed, and leaves that take the same course with renamed points. -/
structure EqvSem {P : Type} (t d : Nat) (I : Interp K P) (r : P → P) : Prop where
  factor : ∀ cs ds p, Eqv t d (List.map r) (I.factor cs ds p) (I.factor cs ds (r p))
  forget : ∀ p, I.forget (r p) = r (I.forget p)
  leaf : ∀ l o p ent, Eqv t d (Tab.ren (shift t d)) (I.leafTab l o p ent) (I.leafTab l o (r p) ent)
  quad : ∀ c k ext o p ent, Eqv t d (Tab.ren (shift t d)) (I.quadTab c k ext o p ent) (I.quadTab c k ext o (r p) ent)

mutual
theorem eqv_evaluate {P : Type} {I : Interp K P} {r : P → P} (H : EqvSem t d I r) : ∀ (e : Elem) (o : Nat) (p : P)
    (ent : Option (Dim × Nat)), Eqv t d (Tab.ren 𝑓) (evaluate I e o p ent) (evaluate I e o (r p) ent)
  | .leaf l, o, p, ent => by rw [evaluate, evaluate]; exact H.leaf l o p ent
  | .tensorProduct fs, o, p, ent => by
    rw [evaluate, evaluate]
    exact Eqv.bind Eqv.lift_id fun cs => Eqv.bind Eqv.lift_id fun ents =>
      Eqv.bind (H.factor _ _ _) fun pss =>
      Eqv.bind (eqv_evaluateZip H fs o pss ents) fun frs => Eqv.bind Eqv.lift_id fun vs => eqv_merge rfl
  | .flattened e, o, p, ent => by
    rw [evaluate, evaluate, H.forget]
    exact Eqv.bind Eqv.lift_id fun en => eqv_evaluate H e o (I.forget p) (some en)
  | .enriched es, o, p, ent => by
    rw [evaluate, evaluate]
    exact Eqv.bind (eqv_evaluateL H es o p ent) fun Ts => Eqv.bind Eqv.lift_id fun vs => eqv_compose rfl
  | .mixedSub e size offset, o, p, ent => by
    rw [evaluate, evaluate]
    exact Eqv.bind (eqv_evaluate H e o p ent) fun core => Eqv.bind (Eqv.fresh _) fun b =>
      Eqv.bind (Eqv.fresh _) fun z => Eqv.bind Eqv.lift_id fun vs => eqv_mapTab rfl fun e => eqv_mixed rfl rfl rfl
  | .discontinuous e, o, p, ent => by rw [evaluate, evaluate]; exact eqv_evaluate H e o p ent
  | .tensorFE e s tr, o, p, ent => by
    rw [evaluate, evaluate]
    exact Eqv.bind (eqv_evaluate H e o p ent) fun T => Eqv.bind Eqv.lift_id fun vs => eqv_tensorise rfl
  | .hdiv w, o, p, ent => by
    rw [evaluate, evaluate, H.forget]
    exact Eqv.bind (eqv_evaluate H w o _ ent) fun core => Eqv.bind Eqv.lift_id fun cs =>
      Eqv.bind Eqv.lift_id fun c => Eqv.bind (Eqv.fresh _) fun b => Eqv.bind (Eqv.fresh _) fun z =>
      eqv_mapTab rfl fun e => eqv_wrapped rfl rfl rfl
  | .hcurl w, o, p, ent => by
    rw [evaluate, evaluate, H.forget]
    exact Eqv.bind (eqv_evaluate H w o _ ent) fun core => Eqv.bind Eqv.lift_id fun cs =>
      Eqv.bind Eqv.lift_id fun c => Eqv.bind (Eqv.fresh _) fun b => Eqv.bind (Eqv.fresh _) fun z =>
      eqv_mapTab rfl fun e => eqv_wrapped rfl rfl rfl
  | .quadrature r c ext, o, p, ent => by rw [evaluate, evaluate]; exact H.quad r c ext o p ent
theorem eqv_evaluateZip {P : Type} {I : Interp K P} {r : P → P} (H : EqvSem t d I r) : ∀ (fs : List Elem) (o : Nat)
    (ps : List P) (ents : List (Dim × Nat)),
    Eqv t d (List.map (Tab.ren 𝑓)) (evaluateZip I fs o ps ents) (evaluateZip I fs o (ps.map r) ents)
  | f :: fs, o, p :: ps, e :: es => by
    rw [List.map_cons, evaluateZip, evaluateZip]
    exact Eqv.bind (eqv_evaluate H f o p (some e)) fun T =>
      Eqv.bind (eqv_evaluateZip H fs o ps es) fun Ts => Eqv.pure rfl
  | [], o, ps, es => by simp only [List.map_nil, List.map_cons, evaluateZip]; exact Eqv.pure rfl
  | _ :: _, o, [], es => by simp only [List.map_nil, List.map_cons, evaluateZip]; exact Eqv.pure rfl
  | _ :: _, o, _ :: _, [] => by simp only [List.map_nil, List.map_cons, evaluateZip]; exact Eqv.pure rfl
theorem eqv_evaluateL {P : Type} {I : Interp K P} {r : P → P} (H : EqvSem t d I r) : ∀ (es : List Elem) (o : Nat)
    (p : P) (ent : Option (Dim × Nat)),
    Eqv t d (List.map (Tab.ren 𝑓)) (evaluateL I es o p ent) (evaluateL I es o (r p) ent)
  | [], o, p, ent => by rw [evaluateL, evaluateL]; exact Eqv.pure rfl
  | e :: es, o, p, ent => by
    rw [evaluateL, evaluateL]
    exact Eqv.bind (eqv_evaluate H e o p ent) fun T => Eqv.bind (eqv_evaluateL H es o p ent) fun Ts => Eqv.pure rfl
end

/-! ### Leaves -/

theorem cls_ren (f : Nat → Nat) (ps : PSet K) : (ps.ren f).cls? = ps.cls? := by cases ps <;> rfl

mutual
theorem almostEqual_ren (f : Nat → Nat) (close : List K → List K → Bool) : ∀ p q : PSet K,
    p.almostEqual close (q.ren f) = p.almostEqual close q
  | .points _ _ _, q => by cases q <;> simp [PSet.ren, PSet.almostEqual]
  | .singleton _, q => by cases q <;> simp [PSet.ren, PSet.almostEqual]
  | .unknown _ _ _, q => by cases q <;> simp [PSet.ren, PSet.almostEqual]
  | .tensor fs, .tensor gs => by
    rw [PSet.ren, PSet.almostEqual, PSet.almostEqual, almostEqualL_ren f close fs gs, PSet.renL_eq, List.length_map]
  | .tensor _, .points _ _ _ => by simp [PSet.ren, PSet.almostEqual]
  | .tensor _, .singleton _ => by simp [PSet.ren, PSet.almostEqual]
  | .tensor _, .unknown _ _ _ => by simp [PSet.ren, PSet.almostEqual]
theorem almostEqualL_ren (f : Nat → Nat) (close : List K → List K → Bool) : ∀ ps qs : List (PSet K),
    PSet.almostEqualL close ps (PSet.renL f qs) = PSet.almostEqualL close ps qs
  | [], qs => by simp only [PSet.almostEqualL]
  | _ :: _, [] => by simp only [PSet.renL]
  | p :: ps, q :: qs => by
    simp only [PSet.renL, PSet.almostEqualL, almostEqual_ren f close p q, almostEqualL_ren f close ps qs]
end

theorem eqv_fiatExpr {F : Fiat K} {l : Leaf} {a : List Nat} {flat : Nat → K} {ps : PSet K} (c : Nat) :
    Eqv t d (Gem.ren 𝑓) (fiatExpr F l a flat ps c) (fiatExpr F l a flat (ps.ren 𝑓) c) := by
  unfold fiatExpr
  simp only [PSet.pts_ren, PSet.indices_ren, map_extent_ren]
  split
  · split
    · exact Eqv.raise
    · exact Eqv.pure rfl
  split
  · exact Eqv.bind (Eqv.assert rfl) fun _ => Eqv.pure rfl
  split
  · exact Eqv.raise
  · refine eqv_partial rfl ?_
    rw [map_free_ren]

theorem eqv_fiatTable {F : Fiat K} {l : Leaf} {ps : PSet K} (a : List Nat) (flat : Nat → K) :
    Eqv t d (Gem.ren 𝑓) (fiatTable F l ps a flat) (fiatTable F l (ps.ren 𝑓) a flat) := by
  unfold fiatTable
  refine Eqv.bind (Eqv.mapM' fun c _ => eqv_fiatExpr c) fun es => ?_
  split
  · match es with
    | [] => exact Eqv.raise
    | [e] => exact Eqv.pure rfl
    | _ :: _ :: _ => exact Eqv.raise
  · exact Eqv.bind (Eqv.fresh _) fun b => Eqv.bind (Eqv.fresh _) fun z =>
      Eqv.bind (Eqv.mapM fun e _ => eqv_indexed rfl (by simp)) fun es => Eqv.bind (eqv_list rfl) fun u =>
      Eqv.bind (eqv_indexed rfl (by simp)) fun x => eqv_component rfl (by simp)

theorem eqv_fiat {F : Fiat K} {l : Leaf} {o : Nat} {ps : PSet K} (ent : Option (Dim × Nat)) :
    Eqv t d (Tab.ren 𝑓) (fiatBasisEvaluation F l o ps ent) (fiatBasisEvaluation F l o (ps.ren 𝑓) ent) := by
  have key : Eqv t d (Tab.ren 𝑓) ((fiatTabulate F l o ps.pts ent).mapM fun p => do
      let x ← fiatTable F l ps p.1 p.2
      Pure.pure (p.1, x)) ((fiatTabulate F l o (ps.ren 𝑓).pts ent).mapM fun p => do
      let x ← fiatTable F l (ps.ren 𝑓) p.1 p.2
      Pure.pure (p.1, x)) := by
    rw [PSet.pts_ren]
    exact Eqv.mapM' (g := fun p : List Nat × Gem K => (p.1, p.2.ren 𝑓)) fun p _ =>
      Eqv.bind (eqv_fiatTable _ _) fun e => Eqv.pure rfl
  cases ps with
  | unknown _ _ _ => exact Eqv.raise
  | singleton _ => exact key
  | points _ _ _ => exact key
  | tensor _ => exact key

theorem eqv_spectral {F : Fiat K} {cls : PSClass} {l : Leaf} {o : Nat} {ps : PSet K}
    (ent : Option (Dim × Nat)) :
    Eqv t d (Tab.ren 𝑓) (spectralBasisEvaluation F cls l o ps ent) (spectralBasisEvaluation F cls l o (ps.ren 𝑓) ent) := by
  unfold spectralBasisEvaluation
  rw [cls_ren, PSet.pts_ren, PSet.indices_ren]
  refine Eqv.bind (eqv_fiat ent) fun T => ?_
  split
  · match ps.indices with
    | [] => exact Eqv.raise
    | _ :: _ :: _ => exact Eqv.raise
    | [q] =>
      refine Eqv.bind (Eqv.fresh _) fun r => ?_
      match r with
      | [] => exact Eqv.raise
      | [r] =>
        refine Eqv.bind (eqv_component rfl rfl) fun x => Eqv.pure (set_ren _ _ _ _)
      | _ :: _ :: _ => exact Eqv.raise
  · exact Eqv.pure rfl

theorem eqv_matvec {l : Leaf} {m : Mapped K} {e e' : Gem K} (he : e' = e.ren 𝑓) :
    Eqv t d (Gem.ren 𝑓) (matvec l m e) (matvec l m e') := by
  subst he
  exact Eqv.bind (Eqv.fresh _) fun ij => Eqv.bind (Eqv.fresh _) fun z =>
    Eqv.bind (eqv_indexed rfl (by simp)) fun x => Eqv.bind (eqv_indexed rfl (by simp)) fun y =>
    Eqv.bind (eqv_product rfl rfl) fun p => Eqv.bind (eqv_sum rfl (by simp)) fun s => eqv_component rfl (by simp)

theorem eqv_leaf {F : Fiat K} {b : Bool} {l : Leaf} {o : Nat} {ps : PSet K}
    (ent : Option (Dim × Nat)) :
    Eqv t d (Tab.ren 𝑓) (leafBasisWith F b l o ps ent) (leafBasisWith F b l o (ps.ren 𝑓) ent) := by
  unfold leafBasisWith
  split
  · exact Eqv.raise
  unfold leafBasisEvaluation
  split
  · exact Eqv.bind (eqv_fiat ent) fun T => eqv_mapTab rfl fun e => eqv_matvec rfl
  split
  · exact eqv_spectral ent
  · exact eqv_fiat ent

theorem eqv_quad {R : Rules K} {r : Nat} {c : Cell} {ext : List Nat} {o : Nat} {ps : PSet K}
    (ent : Option (Dim × Nat)) :
    Eqv t d (Tab.ren 𝑓) (quadBasisEvaluation R r c ext o ps ent) (quadBasisEvaluation R r c ext o (ps.ren 𝑓) ent) := by
  unfold quadBasisEvaluation
  split
  · exact Eqv.raise
  split
  · exact Eqv.raise
  rw [almostEqual_ren, PSet.indices_ren]
  refine Eqv.bind Eqv.lift_id fun b => ?_
  simp only [id]
  split
  · exact Eqv.raise
  · refine Eqv.bind (Eqv.fresh _) fun ix => Eqv.bind (eqv_reduce ?_) fun p => Eqv.bind (eqv_component rfl rfl) fun e =>
      Eqv.pure rfl
    rw [← deltas_ren]

theorem factor_ren (f : Nat → Nat) (cs : List Cell) (ds : List Dim) (ps : PSet K) :
    factorPointSet cs ds (ps.ren f) = (factorPointSet cs ds ps).map (List.map (PSet.ren f)) := by
  have hd : ∀ fs : List (PSet K), (fs.map (PSet.ren f)).mapM PSet.dimension = fs.mapM PSet.dimension := by
    intro fs
    induction fs with
    | nil => rfl
    | cons p fs ih => rw [List.map_cons, List.mapM_cons, List.mapM_cons, ih, PSet.dimension_ren]
  unfold factorPointSet
  split
  · rfl
  cases ps with
  | singleton p =>
    simp only [PSet.ren]
    cases (PSet.singleton p).dimension with
    | error e => rfl
    | ok k =>
      change (if _ then _ else _) = Except.map _ (if _ then _ else _)
      split
      · rfl
      · simp [Except.map, Function.comp_def, PSet.ren]
  | unknown pts k i =>
    simp only [PSet.ren]
    change (if _ then _ else _) = Except.map _ (if _ then _ else _)
    split <;> rfl
  | points c pts ix =>
    have hx := PSet.dimension_ren (f := f) (PSet.points c pts ix)
    simp only [PSet.ren] at hx ⊢
    rw [hx]
    cases (PSet.points c pts ix).dimension with
    | error e => rfl
    | ok k =>
      change (if _ then _ else _) = Except.map _ (if _ then _ else _)
      split
      · rfl
      · simp [Except.map, Function.comp_def, PSet.ren, PSet.pts, PSet.indices]
  | tensor fs =>
    have hx := PSet.dimension_ren (f := f) (PSet.tensor fs)
    have hp := PSet.pts_ren (f := f) (PSet.tensor fs)
    have hi := PSet.indices_ren (f := f) (PSet.tensor fs)
    simp only [PSet.ren] at hx hp hi ⊢
    have split_case : (((PSet.tensor (PSet.renL f fs)).dimension >>= fun k => if k ≠ (ds.map Dim.total).sum then
          (.error .assertionError : Except Err (List (PSet K)))
        else .ok ((splitLens (ds.map Dim.total) (List.range k)).map fun cols =>
          .points .plain ((PSet.tensor (PSet.renL f fs)).pts.map fun pt => cols.filterMap fun c => pt[c]?)
            (PSet.tensor (PSet.renL f fs)).indices))) =
      Except.map (List.map (PSet.ren f)) ((PSet.tensor fs).dimension >>= fun k => if k ≠ (ds.map Dim.total).sum then
          (.error .assertionError : Except Err (List (PSet K)))
        else .ok ((splitLens (ds.map Dim.total) (List.range k)).map fun cols =>
          .points .plain ((PSet.tensor fs).pts.map fun pt => cols.filterMap fun c => pt[c]?)
            (PSet.tensor fs).indices)) := by
      rw [hx, hp, hi]
      cases (PSet.tensor fs).dimension with
      | error e => rfl
      | ok k =>
        change (if _ then _ else _) = Except.map _ (if _ then _ else _)
        split
        · rfl
        · simp [Except.map, Function.comp_def, PSet.ren]
    rw [show (PSet.renL f fs).length = fs.length by rw [PSet.renL_eq, List.length_map]]
    split
    · rw [PSet.renL_eq, hd]
      cases fs.mapM PSet.dimension with
      | error e => rfl
      | ok l =>
        change (if _ then _ else _) = Except.map _ (if _ then _ else _)
        split <;> rfl
    · exact split_case

theorem basisInterp_eqv (F : Fiat K) (R : Rules K) : EqvSem t d (basisInterp F R) (PSet.ren 𝑓) where
  factor cs ds p := Eqv.lift (factor_ren _ cs ds p)
  forget _ := rfl
  leaf l o p ent := eqv_leaf ent
  quad r c ext o p ent := eqv_quad ent

theorem mappedInterp_eqv (F : Fiat K) (R : Rules K) :
    EqvSem t d (mappedInterp F R) (fun p => (PSet.ren 𝑓 p.1, p.2)) where
  factor cs ds p := Eqv.bind (Eqv.lift (factor_ren _ cs ds p.1)) fun _ => Eqv.pure (by simp [Function.comp_def])
  forget _ := rfl
  leaf l o p ent := eqv_leaf ent
  quad r c ext o p ent := eqv_quad ent

/-! ### Point evaluation -/

theorem eqv_factorPoint {cs : List Cell} {ds : List Dim} {p : Gem K} :
    Eqv t d (List.map (Gem.ren 𝑓)) (factorPoint cs ds p) (factorPoint cs ds (p.ren 𝑓)) :=
  Eqv.bind (Eqv.assert rfl) fun _ => Eqv.bind (Eqv.assert (by rw [Gem.shape_ren])) fun _ => Eqv.mapM' fun s _ =>
    Eqv.bind (Eqv.mapM' fun i _ => eqv_indexed rfl rfl) fun es => eqv_list rfl

theorem eqv_pointTable {S : SymTab K} (hS : ∀ l a ent p i z, S l a ent (p.ren 𝑓) i z = (S l a ent p i z).ren 𝑓)
    {l : Leaf} {a : List Nat} {ent : Dim × Nat} {p : Gem K} :
    Eqv t d (Gem.ren 𝑓) (fiatPointTable S l a ent p) (fiatPointTable S l a ent (p.ren 𝑓)) := by
  unfold fiatPointTable
  refine Eqv.bind (Eqv.mapM' fun c _ => eqv_list ?_) fun es => ?_
  · rw [List.map_map]
    exact List.map_congr_left fun i _ => hS _ _ _ _ _ _
  split
  · match es with
    | [] => exact Eqv.raise
    | [e] => exact Eqv.pure rfl
    | _ :: _ :: _ => exact Eqv.raise
  · exact Eqv.bind (Eqv.fresh _) fun b => Eqv.bind (Eqv.fresh _) fun z =>
      Eqv.bind (Eqv.mapM fun e _ => eqv_indexed rfl (by simp)) fun es => Eqv.bind (eqv_list rfl) fun u =>
      Eqv.bind (eqv_indexed rfl (by simp)) fun x => eqv_component rfl (by simp)

theorem pointInterp_eqv (F : Fiat K) {S : SymTab K}
    (hS : ∀ l a ent p i z, S l a ent (p.ren 𝑓) i z = (S l a ent p i z).ren 𝑓) :
    EqvSem t d (pointInterp F S) (Gem.ren 𝑓) where
  factor cs ds p := eqv_factorPoint
  forget _ := rfl
  leaf l o p ent := by
    simp only [pointInterp]
    unfold fiatPointEvaluation
    dsimp only
    split
    · exact Eqv.raise
    · rw [Gem.shape_ren]
      exact Eqv.bind (Eqv.assert rfl) fun _ => Eqv.mapM' (g := fun p : List Nat × Gem K => (p.1, p.2.ren 𝑓))
        fun a _ => Eqv.bind (eqv_pointTable hS) fun e => Eqv.pure rfl
  quad _ _ _ _ _ _ := Eqv.raise

/-! ### Dual bases -/

section dual
variable [DecidableEq K]

theorem eqv_weightTensor {isOne : K → Bool} {Q : Dict (List Nat) K} :
    Eqv t d (Gem.ren 𝑓) (weightTensor isOne Q) (weightTensor isOne Q) := by
  unfold weightTensor
  split
  · refine Eqv.bind (Eqv.fresh _) fun js => ?_
    match js with
    | [] => exact Eqv.raise
    | [_] => exact Eqv.raise
    | [a, b] => exact eqv_component rfl rfl
    | _ :: _ :: _ :: _ => exact Eqv.raise
  · dsimp only
    split
    · exact Eqv.pure rfl
    · exact Eqv.raise

/-- A dual basis with renamed indices. -/
def renDual (f : Nat → Nat) (qp : Gem K × PSet K) : Gem K × PSet K := (qp.1.ren f, qp.2.ren f)

theorem eqv_leafDual {D : FiatDual K} {l : Leaf} : Eqv t d (renDual 𝑓) (leafDualBasis D l) (leafDualBasis D l) := by
  unfold leafDualBasis
  refine Eqv.bind Eqv.lift_id fun st => Eqv.bind Eqv.lift_id fun q => Eqv.bind eqv_weightTensor fun Q =>
    Eqv.bind (Eqv.fresh _) fun x => ?_
  simp only [id, Gem.shape_ren]
  match Q.shape with
  | [] => exact Eqv.raise
  | [_] => exact Eqv.raise
  | a :: k :: ds =>
    exact Eqv.bind (Eqv.assert rfl) fun _ => Eqv.bind (Eqv.fresh _) fun ij =>
      Eqv.bind (eqv_indexed rfl (by simp)) fun e => Eqv.bind (eqv_component rfl rfl) fun r => Eqv.pure rfl

/-- The point indices of all quadrature rules have been created before `t`. -/
def Rules.Before (t : Nat) (R : Rules K) : Prop := ∀ r, (R.pointSet r).Before t

theorem eqv_quadDual {R : Rules K} (hR : R.Before t) {r : Nat} {ext : List Nat} :
    Eqv t d (renDual 𝑓) (quadDualBasis R r ext) (quadDualBasis R r ext) := by
  unfold quadDualBasis
  refine Eqv.bind (Eqv.fresh _) fun ix => Eqv.bind (eqv_reduce ?_) fun p => Eqv.bind (eqv_component rfl rfl) fun e =>
    Eqv.pure (by rw [renDual, PSet.ren_before _ (hR r)])
  rw [← deltas_ren, map_ren_before (hR r)]

theorem eqv_productDual {is vs : List (List Nat)} {qs qs' : List (Gem K)} (hq : qs' = qs.map (Gem.ren 𝑓)) :
    Eqv t d (Gem.ren 𝑓) (productDual is vs qs) (productDual is vs qs') := by
  subst hq
  unfold productDual
  refine Eqv.bind (Eqv.mapM' fun s _ => Eqv.fresh s) fun as => Eqv.bind (Eqv.mapM' fun s _ => Eqv.fresh s) fun zs => ?_
  rw [List.zip_map, List.zip_map]
  exact Eqv.bind (Eqv.mapM fun p _ => eqv_indexed rfl (by simp)) fun l => Eqv.bind (eqv_reduce rfl) fun e =>
    eqv_component rfl (by simp [List.map_flatten])

theorem eqv_tensorDual {bi bv s : List Nat} {tr : Bool} {Q Q' : Gem K} (hQ : Q' = Q.ren 𝑓) :
    Eqv t d (Gem.ren 𝑓) (tensorDual bi bv s tr Q) (tensorDual bi bv s tr Q') := by
  subst hQ
  refine Eqv.bind (Eqv.fresh _) fun a => Eqv.bind (Eqv.fresh _) fun b => Eqv.bind (Eqv.fresh _) fun c =>
    Eqv.bind (Eqv.fresh _) fun e => Eqv.bind (eqv_reduce (deltas_ren _ _ _)) fun ds =>
    Eqv.bind (eqv_indexed rfl (by simp)) fun y => Eqv.bind (eqv_product rfl rfl) fun z => eqv_component rfl ?_
  cases tr <;> simp

mutual
theorem eqv_dual {D : FiatDual K} {R : Rules K} (hR : R.Before t) : ∀ e : Elem,
    Eqv t d (renDual 𝑓) (dualBasis D R e) (dualBasis D R e)
  | .leaf l => by rw [dualBasis]; exact eqv_leafDual
  | .tensorProduct fs => by
    rw [dualBasis]
    refine Eqv.bind (eqv_dualL hR fs) fun qps => ?_
    rw [List.isEmpty_map]
    split
    · exact Eqv.raise
    · refine Eqv.bind Eqv.lift_id fun vs => Eqv.bind (eqv_productDual ?_) fun Q => Eqv.pure ?_
      · simp [Function.comp_def, renDual]
      · simp [Function.comp_def, renDual, PSet.ren, PSet.renL_eq]
  | .flattened p => by rw [dualBasis]; exact eqv_dual hR p
  | .enriched es => by rw [dualBasis]; exact Eqv.raise
  | .mixedSub e a b => by rw [dualBasis]; exact Eqv.raise
  | .discontinuous e => by rw [dualBasis]; exact eqv_dual hR e
  | .tensorFE e s tr => by
    rw [dualBasis]
    exact Eqv.bind (eqv_dual hR e) fun qp => Eqv.bind Eqv.lift_id fun vs => Eqv.bind (eqv_tensorDual rfl) fun Q =>
      Eqv.pure rfl
  | .hdiv w => by
    rw [dualBasis]
    exact Eqv.bind (eqv_dual hR w) fun qp => Eqv.bind Eqv.lift_id fun cs => Eqv.bind Eqv.lift_id fun c =>
      Eqv.bind (Eqv.fresh _) fun b => Eqv.bind (Eqv.fresh _) fun z => Eqv.bind (eqv_wrapped rfl rfl rfl) fun Q =>
      Eqv.pure rfl
  | .hcurl w => by
    rw [dualBasis]
    exact Eqv.bind (eqv_dual hR w) fun qp => Eqv.bind Eqv.lift_id fun cs => Eqv.bind Eqv.lift_id fun c =>
      Eqv.bind (Eqv.fresh _) fun b => Eqv.bind (Eqv.fresh _) fun z => Eqv.bind (eqv_wrapped rfl rfl rfl) fun Q =>
      Eqv.pure rfl
  | .quadrature r c ext => by rw [dualBasis]; exact eqv_quadDual hR
theorem eqv_dualL {D : FiatDual K} {R : Rules K} (hR : R.Before t) : ∀ es : List Elem,
    Eqv t d (List.map (renDual 𝑓)) (dualBasisL D R es) (dualBasisL D R es)
  | [] => by rw [dualBasisL]; exact Eqv.pure rfl
  | e :: es => by
    rw [dualBasisL]
    exact Eqv.bind (eqv_dual hR e) fun q => Eqv.bind (eqv_dualL hR es) fun qs => Eqv.pure rfl
end

theorem eqv_dualEvaluation {D : FiatDual K} {R : Rules K} (hR : R.Before t) {e : Elem} {fn : PSet K → M (Gem K)}
    (hfn : ∀ ps, Eqv t d (Gem.ren 𝑓) (fn ps) (fn (ps.ren 𝑓))) :
    Eqv t d (fun r => (r.1.ren 𝑓, r.2.map (Index.ren 𝑓))) (dualEvaluation D R e fn) (dualEvaluation D R e fn) := by
  have base : Eqv t d (fun r => (r.1.ren 𝑓, r.2.map (Index.ren 𝑓)))
      (do
        let qp ← dualBasis D R e
        let expr ← fn qp.2
        let k := qp.1.shape.length - expr.shape.length
        assertM (decide (expr.shape = qp.1.shape.drop k))
        let shapeIx ← freshIndices expr.shape
        let basisIx ← freshIndices (qp.1.shape.take k)
        let Qi ← mkIndexed qp.1 ((basisIx ++ shapeIx).map .free)
        let expri ← mkIndexed expr (shapeIx.map .free)
        let prod ← mkProduct Qi expri
        let ev ← mkIndexSum prod (qp.2.indices ++ shapeIx)
        Pure.pure (ev, basisIx) : M (Gem K × List Index))
      (do
        let qp ← dualBasis D R e
        let expr ← fn qp.2
        let k := qp.1.shape.length - expr.shape.length
        assertM (decide (expr.shape = qp.1.shape.drop k))
        let shapeIx ← freshIndices expr.shape
        let basisIx ← freshIndices (qp.1.shape.take k)
        let Qi ← mkIndexed qp.1 ((basisIx ++ shapeIx).map .free)
        let expri ← mkIndexed expr (shapeIx.map .free)
        let prod ← mkProduct Qi expri
        let ev ← mkIndexSum prod (qp.2.indices ++ shapeIx)
        Pure.pure (ev, basisIx)) := by
    refine Eqv.bind (eqv_dual hR e) fun qp => Eqv.bind (hfn _) fun x => ?_
    simp only [renDual, Gem.shape_ren]
    exact Eqv.bind (Eqv.assert rfl) fun _ => Eqv.bind (Eqv.fresh _) fun si => Eqv.bind (Eqv.fresh _) fun bi =>
      Eqv.bind (eqv_indexed rfl (by simp)) fun a => Eqv.bind (eqv_indexed rfl (by simp)) fun b =>
      Eqv.bind (eqv_product rfl rfl) fun p => Eqv.bind (eqv_sum rfl (by simp)) fun ev => Eqv.pure rfl
  cases e with
  | tensorFE b s tr =>
    unfold dualEvaluation
    refine Eqv.bind (eqv_dual hR _) fun qp => Eqv.bind (hfn _) fun x => ?_
    simp only [renDual, Gem.shape_ren]
    refine Eqv.bind Eqv.lift_id fun vs => Eqv.bind (Eqv.assert rfl) fun _ => Eqv.bind Eqv.lift_id fun bvs =>
      Eqv.bind (Eqv.fresh _) fun a => Eqv.bind (Eqv.fresh _) fun b => Eqv.bind (Eqv.fresh _) fun c =>
      Eqv.bind (Eqv.fresh _) fun e => Eqv.bind (eqv_indexed rfl ?_) fun a => Eqv.bind (eqv_indexed rfl (by simp)) fun b =>
      Eqv.bind (eqv_product rfl rfl) fun p => Eqv.bind (eqv_sum rfl (by simp)) fun ev => Eqv.pure (by simp)
    cases tr <;> simp
  | leaf _ => exact base
  | tensorProduct _ => exact base
  | flattened _ => exact base
  | enriched _ => exact base
  | mixedSub _ _ _ => exact base
  | discontinuous _ => exact base
  | hdiv _ => exact base
  | hcurl _ => exact base
  | quadrature _ _ _ => exact base

end dual

end compose

/-! ### Quadrature and support -/

section support
variable [Field K]

mutual
/-- A rule with renamed indices. -/
def QRule.ren (f : Nat → Nat) : QRule K → QRule K
  | .rule ps w => .rule (ps.ren f) w
  | .tensor fs => .tensor (QRule.renL f fs)
/-- Rules with renamed indices. -/
def QRule.renL (f : Nat → Nat) : List (QRule K) → List (QRule K)
  | [] => []
  | q :: qs => q.ren f :: QRule.renL f qs
end

theorem QRule.renL_eq (f : Nat → Nat) : ∀ qs : List (QRule K), QRule.renL f qs = qs.map (QRule.ren f)
  | [] => rfl
  | q :: qs => by rw [QRule.renL, QRule.renL_eq f qs]; rfl

mutual
theorem QRule.pointSet_ren (f : Nat → Nat) : ∀ q : QRule K, (q.ren f).pointSet = q.pointSet.ren f
  | .rule _ _ => rfl
  | .tensor fs => by simp only [QRule.ren, QRule.pointSet, PSet.ren, QRule.pointSetL_ren f fs]
theorem QRule.pointSetL_ren (f : Nat → Nat) : ∀ qs : List (QRule K),
    QRule.pointSetL (QRule.renL f qs) = PSet.renL f (QRule.pointSetL qs)
  | [] => rfl
  | q :: qs => by simp only [QRule.renL, QRule.pointSetL, PSet.renL, QRule.pointSet_ren f q, QRule.pointSetL_ren f qs]
end

mutual
theorem eqv_weight : ∀ q : QRule K, Eqv t d (Gem.ren 𝑓) q.weightExpr (q.ren 𝑓).weightExpr
  | .rule ps w => by
    rw [QRule.ren, QRule.weightExpr, QRule.weightExpr]
    exact eqv_indexed rfl (by rw [PSet.indices_ren, map_free_ren])
  | .tensor fs => by
    rw [QRule.ren, QRule.weightExpr, QRule.weightExpr]
    exact Eqv.bind (eqv_weightL fs) fun es => eqv_reduce rfl
theorem eqv_weightL : ∀ qs : List (QRule K),
    Eqv t d (List.map (Gem.ren 𝑓)) (QRule.weightExprL qs) (QRule.weightExprL (QRule.renL 𝑓 qs))
  | [] => by rw [QRule.renL, QRule.weightExprL]; exact Eqv.pure rfl
  | q :: qs => by
    rw [QRule.renL, QRule.weightExprL, QRule.weightExprL]
    exact Eqv.bind (eqv_weight q) fun e => Eqv.bind (eqv_weightL qs) fun es => Eqv.pure rfl
end

theorem eqv_mkRule {cls : PSClass} {pw : List (List K) × List K} :
    Eqv t d (QRule.ren 𝑓) (mkRule cls pw) (mkRule cls pw) :=
  Eqv.bind (Eqv.assert rfl) fun _ => Eqv.bind (Eqv.fresh _) fun x => Eqv.pure rfl

theorem eqv_makeSimple {F : FiatQuad K} {scheme : String} {c : Cell} {deg : Degree} :
    Eqv t d (QRule.ren 𝑓) (makeSimple F scheme c deg) (makeSimple F scheme c deg) := by
  cases deg with
  | tup _ => exact Eqv.raise
  | int k =>
    by_cases h : k < 0
    · simp only [makeSimple, h, if_true]
      exact Eqv.raise
    · by_cases h' : c = .simplex 1 ∧ F.isMacro c = false
      · simp only [makeSimple, h, if_false, if_pos h']
        exact eqv_mkRule
      · simp only [makeSimple, h, if_false, if_neg h']
        exact Eqv.bind (Eqv.lift_id (x := F.scheme c k.toNat scheme)) fun pw => eqv_mkRule

mutual
theorem eqv_makeQuadrature {F : FiatQuad K} {scheme : String} : ∀ (c : Cell) (deg : Degree),
    Eqv t d (QRule.ren 𝑓) (makeQuadrature F scheme c deg) (makeQuadrature F scheme c deg)
  | .prod cs, deg => by
    rw [makeQuadrature]
    exact Eqv.bind (Eqv.assert rfl) fun _ => Eqv.bind (eqv_makeQuadratureL cs _) fun rs =>
      Eqv.pure (by rw [QRule.ren, QRule.renL_eq])
  | .quad, deg => by
    rw [makeQuadrature]
    exact Eqv.bind (Eqv.assert rfl) fun _ => Eqv.bind (Eqv.mapM' fun k _ => eqv_makeSimple) fun rs =>
      Eqv.pure (by rw [QRule.ren, QRule.renL_eq])
  | .simplex k, deg => by
    rw [makeQuadrature]
    · exact eqv_makeSimple
    all_goals simp
  | .hex, deg => by
    rw [makeQuadrature]
    · exact eqv_makeSimple
    all_goals simp
theorem eqv_makeQuadratureL {F : FiatQuad K} {scheme : String} : ∀ (cs : List Cell) (ds : List Degree),
    Eqv t d (List.map (QRule.ren 𝑓)) (makeQuadratureL F scheme cs ds) (makeQuadratureL F scheme cs ds)
  | c :: cs, k :: ks => by
    rw [makeQuadratureL]
    exact Eqv.bind (eqv_makeQuadrature c k) fun r => Eqv.bind (eqv_makeQuadratureL cs ks) fun rs => Eqv.pure rfl
  | [], ks => by simp only [makeQuadratureL]; exact Eqv.pure rfl
  | _ :: _, [] => by simp only [makeQuadratureL]; exact Eqv.pure rfl
end

theorem eqv_support {I : Interp K (PSet K)} (H : EqvSem t d I (PSet.ren 𝑓)) {e : Elem} {beta zeta : List Index}
    {q : QRule K} {ent : Dim × Nat} :
    Eqv t d (Gem.ren 𝑓) (supportExpr I e beta zeta q ent)
      (supportExpr I e (beta.map (Index.ren 𝑓)) (zeta.map (Index.ren 𝑓)) (q.ren 𝑓) ent) := by
  unfold supportExpr
  rw [QRule.pointSet_ren, PSet.indices_ren]
  refine Eqv.bind (eqv_evaluate H e 0 _ _) fun T => ?_
  have key : ∀ vals : Gem K, Eqv t d (Gem.ren 𝑓)
      (do
        let x ← mkIndexed vals ((beta ++ zeta).map .free)
        let y ← mkIndexed vals ((beta ++ zeta).map .free)
        let xy ← mkProduct x y
        let s ← mkIndexSum xy zeta
        let w ← q.weightExpr
        let sw ← mkProduct s w
        let i ← mkIndexSum sw q.pointSet.indices
        mkComponentTensor i beta)
      (do
        let x ← mkIndexed (vals.ren 𝑓) ((beta.map (Index.ren 𝑓) ++ zeta.map (Index.ren 𝑓)).map .free)
        let y ← mkIndexed (vals.ren 𝑓) ((beta.map (Index.ren 𝑓) ++ zeta.map (Index.ren 𝑓)).map .free)
        let xy ← mkProduct x y
        let s ← mkIndexSum xy (zeta.map (Index.ren 𝑓))
        let w ← (q.ren 𝑓).weightExpr
        let sw ← mkProduct s w
        let i ← mkIndexSum sw (q.pointSet.indices.map (Index.ren 𝑓))
        mkComponentTensor i (beta.map (Index.ren 𝑓))) := fun vals =>
    Eqv.bind (eqv_indexed rfl (by simp)) fun x => Eqv.bind (eqv_indexed rfl (by simp)) fun y =>
      Eqv.bind (eqv_product rfl rfl) fun xy => Eqv.bind (eqv_sum rfl rfl) fun s => Eqv.bind (eqv_weight q) fun w =>
      Eqv.bind (eqv_product rfl rfl) fun sw => Eqv.bind (eqv_sum rfl rfl) fun i => eqv_component rfl rfl
  match T with
  | [] => exact Eqv.bind (g := Gem.ren 𝑓) Eqv.raise key
  | [p] => exact Eqv.bind (g := Gem.ren 𝑓) (Eqv.pure rfl) key
  | _ :: _ :: _ => exact Eqv.bind (g := Gem.ren 𝑓) Eqv.raise key

variable [LinearOrder K]

theorem eqv_supportOn {I : Interp K (PSet K)} (H : EqvSem t d I (PSet.ren 𝑓)) {e : Elem}
    {beta zeta : List Index} {q : QRule K} {ent : Dim × Nat} :
    Eqv t d id (supportOn I e beta zeta q ent)
      (supportOn I e (beta.map (Index.ren 𝑓)) (zeta.map (Index.ren 𝑓)) (q.ren 𝑓) ent) := by
  unfold supportOn
  refine Eqv.bind (eqv_support H) fun x => Eqv.pure ?_
  rw [map_extent_ren]
  simp only [Gem.eval_ren (shift_injective t d), id]
  rfl

theorem eqv_baseSupport {F : FiatQuad K} {I : Interp K (PSet K)} (H : EqvSem t d I (PSet.ren 𝑓)) {e : Elem} :
    Eqv t d id (baseSupport F I e) (baseSupport F I e) := by
  unfold baseSupport
  refine Eqv.bind Eqv.lift_id fun c => ?_
  refine (Eqv.mapM' (g := id) fun p _ => ?_).of_eq rfl (by simp)
  refine Eqv.bind (Eqv.fresh _) fun b => Eqv.bind Eqv.lift_id fun vs => Eqv.bind (Eqv.fresh _) fun z =>
    Eqv.bind Eqv.lift_id fun sub => Eqv.bind Eqv.lift_id fun deg => Eqv.bind Eqv.lift_id fun deg2 =>
    Eqv.bind (eqv_makeQuadrature _ _) fun q => Eqv.bind Eqv.lift_id fun dd => Eqv.bind Eqv.lift_id fun ents =>
    Eqv.bind (g := id) ?_ fun r => Eqv.pure rfl
  refine (Eqv.mapM' (g := id) fun k _ => ?_).of_eq rfl (by simp)
  exact Eqv.bind (eqv_supportOn H) fun l => Eqv.pure rfl

mutual
theorem eqv_supportDofs {F : FiatQuad K} {I : Interp K (PSet K)} (H : EqvSem t d I (PSet.ren 𝑓)) : ∀ e : Elem,
    Eqv t d id (supportDofs F I e) (supportDofs F I e)
  | .leaf l => by rw [supportDofs]; exact eqv_baseSupport H
  | .tensorProduct fs => by
    rw [supportDofs]
    exact Eqv.bind Eqv.lift_id fun cs => Eqv.bind (eqv_supportDofsL H fs) fun ds => Eqv.lift_id
  | .flattened p => by
    rw [supportDofs]
    exact Eqv.bind (eqv_supportDofs H p) fun dd => Eqv.pure rfl
  | .enriched es => by
    rw [supportDofs]
    exact Eqv.bind Eqv.lift_id fun cs => Eqv.bind (eqv_supportDofsL H es) fun ds => Eqv.lift_id
  | .mixedSub e _ _ => by rw [supportDofs]; exact eqv_supportDofs H e
  | .discontinuous e => by rw [supportDofs]; exact eqv_baseSupport H
  | .tensorFE e s tr => by rw [supportDofs]; exact eqv_baseSupport H
  | .hdiv w => by rw [supportDofs]; exact eqv_supportDofs H w
  | .hcurl w => by rw [supportDofs]; exact eqv_supportDofs H w
  | .quadrature r c ext => by rw [supportDofs]; exact eqv_baseSupport H
theorem eqv_supportDofsL {F : FiatQuad K} {I : Interp K (PSet K)} (H : EqvSem t d I (PSet.ren 𝑓)) : ∀ es : List Elem,
    Eqv t d id (supportDofsL F I es) (supportDofsL F I es)
  | [] => by rw [supportDofsL]; exact Eqv.pure rfl
  | e :: es => by
    rw [supportDofsL]
    exact Eqv.bind (eqv_supportDofs H e) fun q => Eqv.bind (eqv_supportDofsL H es) fun qs => Eqv.pure rfl
end

end support

/-! ### Two moments -/

/-- Reading off the results at any two moments from `b` on. -/
theorem outcome_of_eqv {g : Nat → Nat → α → α} {x : M α} {R : α → α → Prop} {b n n' : Nat} (hn : b ≤ n) (hn' : b ≤ n')
    (hx : ∀ t d, b ≤ t → Eqv t d (g t d) x x)
    (h1 : ∀ t d a m, b ≤ t → x t = .ok (a, m) → R a (g t d a) ∧ R (g t d a) a) : SameOutcome R (x n) (x n') := by
  rcases Nat.le_total n n' with h | h
  · obtain ⟨d, rfl⟩ := Nat.exists_eq_add_of_le h
    rw [(hx n d hn n (Nat.le_refl n)).1]
    cases hr : x n with
    | error e => exact .inr ⟨e, rfl, rfl⟩
    | ok r => exact .inl ⟨r.1, r.2, _, _, rfl, rfl, (h1 n d r.1 r.2 hn hr).1⟩
  · obtain ⟨d, rfl⟩ := Nat.exists_eq_add_of_le h
    rw [(hx n' d hn' n' (Nat.le_refl n')).1]
    cases hr : x n' with
    | error e => exact .inr ⟨e, rfl, rfl⟩
    | ok r => exact .inl ⟨_, _, r.1, r.2, rfl, rfl, (h1 n' d r.1 r.2 hn' hr).2⟩

theorem sameOn_symm {a b : List Index} {ρ ρ' : Nat → Nat} (h : SameOn a b ρ ρ') : SameOn b a ρ' ρ := h.symm

theorem SamePoints.symm {p q : PSet K} (h : SamePoints p q) : SamePoints q p :=
  ⟨h.1.symm, h.2.1.symm, fun ρ ρ' hρ => (h.2.2 ρ' ρ (sameOn_symm hρ)).symm⟩

mutual
theorem Gem.ren_before {t d : Nat} : ∀ e : Gem K, (∀ k, e.Uses k → k < t) → e.ren (shift t d) = e
  | .literal _ _, _ => rfl
  | .zero _, _ => rfl
  | .indexed e ixs, h => by
    rw [Gem.ren, Gem.ren_before e fun k hk => h k (by rw [Gem.Uses]; exact .inl hk)]
    congr 1
    conv_rhs => rw [← List.map_id ixs]
    apply List.map_congr_left
    intro i hi
    cases i with
    | fixed k => rfl
    | free j => simp [Ix.ren, Index.ren, shift_of_lt (h j.id (by rw [Gem.Uses]; exact .inr ⟨j, hi, rfl⟩))]
  | .componentTensor e ixs, h => by
    rw [Gem.ren, Gem.ren_before e fun k hk => h k (by rw [Gem.Uses]; exact .inl hk),
      map_ren_before fun i hi => h i.id (by rw [Gem.Uses]; exact .inr (List.mem_map.2 ⟨i, hi, rfl⟩))]
  | .product a b, h => by
    rw [Gem.ren, Gem.ren_before a fun k hk => h k (by rw [Gem.Uses]; exact .inl hk),
      Gem.ren_before b fun k hk => h k (by rw [Gem.Uses]; exact .inr hk)]
  | .delta i j, h => by
    rw [Gem.ren, Index.ren, Index.ren, shift_of_lt (h i.id (by rw [Gem.Uses]; exact .inl rfl)),
      shift_of_lt (h j.id (by rw [Gem.Uses]; exact .inr rfl))]
  | .indexSum e ixs, h => by
    rw [Gem.ren, Gem.ren_before e fun k hk => h k (by rw [Gem.Uses]; exact .inl hk),
      map_ren_before fun i hi => h i.id (by rw [Gem.Uses]; exact .inr (List.mem_map.2 ⟨i, hi, rfl⟩))]
  | .listTensor s es, h => by rw [Gem.ren, Gem.renL_before es fun k hk => h k (by rw [Gem.Uses]; exact hk)]
  | .concatenate es, h => by rw [Gem.ren, Gem.renL_before es fun k hk => h k (by rw [Gem.Uses]; exact hk)]
theorem Gem.renL_before {t d : Nat} : ∀ es : List (Gem K), (∀ k, Gem.UsesL k es → k < t) → Gem.renL (shift t d) es = es
  | [], _ => rfl
  | e :: es, h => by
    rw [Gem.renL, Gem.ren_before e fun k hk => h k (by rw [Gem.UsesL]; exact .inl hk),
      Gem.renL_before es fun k hk => h k (by rw [Gem.UsesL]; exact .inr hk)]
end

mutual
theorem Gem.uses_of_free {n : Nat} : ∀ e : Gem K, e.Free n → e.Uses n
  | .literal _ _, h => by rw [Gem.Free] at h; exact h.elim
  | .zero _, h => by rw [Gem.Free] at h; exact h.elim
  | .indexed e ixs, h => by rw [Gem.Free] at h; rw [Gem.Uses]; exact h.imp (Gem.uses_of_free e) id
  | .componentTensor e ixs, h => by rw [Gem.Free] at h; rw [Gem.Uses]; exact .inl (Gem.uses_of_free e h.1)
  | .product a b, h => by rw [Gem.Free] at h; rw [Gem.Uses]; exact h.imp (Gem.uses_of_free a) (Gem.uses_of_free b)
  | .delta i j, h => by rw [Gem.Free] at h; rw [Gem.Uses]; exact h
  | .indexSum e ixs, h => by rw [Gem.Free] at h; rw [Gem.Uses]; exact .inl (Gem.uses_of_free e h.1)
  | .listTensor s es, h => by rw [Gem.Free] at h; rw [Gem.Uses]; exact Gem.usesL_of_free es h
  | .concatenate es, h => by rw [Gem.Free] at h; rw [Gem.Uses]; exact Gem.usesL_of_free es h
theorem Gem.usesL_of_free {n : Nat} : ∀ es : List (Gem K), Gem.FreeL n es → Gem.UsesL n es
  | [], h => by rw [Gem.FreeL] at h; exact h.elim
  | e :: es, h => by
    rw [Gem.FreeL] at h; rw [Gem.UsesL]; exact h.imp (Gem.uses_of_free e) (Gem.usesL_of_free es)
end

theorem samePoints_ren (f : Nat → Nat) (ps : PSet K) : SamePoints ps (ps.ren f) := by
  refine ⟨(PSet.pts_ren ps).symm, by rw [PSet.indices_ren, map_extent_ren], fun ρ ρ' h => ?_⟩
  rw [PSet.pointAt_ren]
  refine PSet.pointAt_congr ps ?_
  rw [SameOn, PSet.indices_ren, List.map_map] at h
  exact h

section
variable [CommRing K]

theorem SameValuesOn.symm {a b : List Index} {e e' : Gem K} (h : SameValuesOn a b e e') : SameValuesOn b a e' e :=
  ⟨h.1.symm, fun ρ ρ' hρ v hv => (h.2 ρ' ρ (sameOn_symm hρ) v (by rw [h.1]; exact hv)).symm⟩

/-- A renamed expression has the same values when the renamed indices have. -/
theorem sameValues_ren {f : Nat → Nat} (hf : Function.Injective f) {l l' : List Index} {e : Gem K} (hw : e.WellShaped)
    (hl : ∀ k, e.Free k → ∀ ρ ρ' : Nat → Nat, SameOn l l' ρ ρ' → ρ k = ρ' (f k)) : SameValuesOn l l' e (e.ren f) := by
  refine ⟨(Gem.shape_ren e).symm, fun ρ ρ' h v hv => ?_⟩
  rw [Gem.eval_ren hf]
  exact eval_congr_free e _ _ v hw hv fun k hk => hl k hk ρ ρ' h

theorem sameOn_ren {f : Nat → Nat} {l : List Index} {ρ ρ' : Nat → Nat} (h : SameOn l (l.map (Index.ren f)) ρ ρ')
    {i : Index} (hi : i ∈ l) : ρ i.id = ρ' (f i.id) := by
  unfold SameOn at h
  rw [List.map_map] at h
  exact List.map_inj_left.1 h i hi

theorem sameTable_ren {t d : Nat} {l : List Index} (hl : ∀ i ∈ l, i.id < t) {T : Tab K} (h : TabFreeIn (AmongIx l) T) :
    SameTable l T (Tab.ren (shift t d) T) := by
  unfold SameTable Tab.ren
  rw [List.forall₂_map_right_iff, List.forall₂_same]
  intro p hp
  refine ⟨rfl, sameValues_ren (shift_injective t d) (h p hp).1 fun k hk ρ ρ' hρ => ?_⟩
  obtain ⟨i, hi, rfl⟩ := List.mem_map.1 ((h p hp).2 k hk)
  rw [shift_of_lt (hl i hi)]
  exact List.map_inj_left.1 hρ i hi

theorem SameTable.symm {l : List Index} {T T' : Tab K} (h : SameTable l T T') : SameTable l T' T :=
  h.flip.imp fun _ _ h => ⟨h.1.symm, h.2.symm⟩

end

end FInAT
