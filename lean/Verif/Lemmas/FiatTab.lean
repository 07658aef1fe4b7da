import Verif.Model.FiatTab
import Verif.Lemmas.Points
import Verif.Lemmas.TabNode2

/-!
# Leaves tabulate the FIAT basis functions
-/

namespace FInAT

variable {K : Type} [CommRing K]

theorem Runs.mkIndexSum {e : Gem K} {ixs : List Index} {n : Nat} {P : Gem K → Nat → Prop}
    (hs : e.shape = [])
    (h : ∀ r : Gem K, r.shape = [] → (∀ ρ, r.eval ρ [] =
      ((ndindex (ixs.map Index.extent)).map fun v => e.eval (bindIx ρ ixs v) []).sum) → P r n) :
    Runs (mkIndexSum e ixs) n P := by
  unfold FInAT.mkIndexSum
  apply Runs.bind
  apply Runs.assertM (by simp [hs])
  apply Runs.pure
  by_cases hi : ixs = []
  · subst hi
    simp only [if_true]
    exact h _ hs fun ρ => by simp [ndindex, bindIx]
  · simp only [hi, if_false]
    exact h _ rfl fun ρ => by simp [Gem.eval]

/-- What FIAT guarantees about its basis functions on an entity: polynomials of the stated degree
(derivatives of that order are constant, unless the cell is a macro cell; higher ones vanish). -/
structure FiatPoly (F : Fiat K) (l : Leaf) (ent : Dim × Nat) : Prop where
  small : F.small 0 = true
  const : ∀ α x x' i z, α.sum = l.degree → F.isMacro l = false →
    F.fn l α ent x i z = F.fn l α ent x' i z
  vanish : ∀ α x i z, l.degree < α.sum → F.fn l α ent x i z = 0

section

variable {F : Fiat K} {l : Leaf} {ps : PSet K} {ent : Dim × Nat}

/-- The flat array of FIAT for one derivative. -/
def fiatFlat (F : Fiat K) (l : Leaf) (pts : List (List K)) (ent : Dim × Nat) (α : List Nat) (k : Nat) : K :=
  let v := unravel (F.dim l :: (l.valueShape ++ [pts.length])) k
  F.fn l α ent ((pts[v.getLastD 0]?).getD []) (v.headD 0) (v.drop 1).dropLast

omit [CommRing K] in
theorem tableRoll_eq (F : Fiat K) (l : Leaf) (pts : List (List K)) (ent : Dim × Nat) (α : List Nat)
    {c q i : Nat} (hc : c < l.valueShape.prod) (hq : q < pts.length) (hi : i < F.dim l) :
    tableRoll (F.dim l) l.valueShape.prod pts.length (fiatFlat F l pts ent α) c q i =
      F.fn l α ent ((pts[q]?).getD []) i (unravel l.valueShape c) := by
  have hb : InB (i :: (unravel l.valueShape c ++ [q])) (F.dim l :: (l.valueShape ++ [pts.length])) :=
    .cons hi (InB.append (unravel_bounds hc) (.cons hq .nil))
  have hr : ravel [F.dim l, l.valueShape.prod, pts.length] [i, c, q] =
      ravel (F.dim l :: (l.valueShape ++ [pts.length])) (i :: (unravel l.valueShape c ++ [q])) := by
    simp only [ravel_cons]
    rw [ravel_append (unravel_bounds hc).length_eq, ravel_unravel hc]
    simp
  have hlast : (i :: (unravel l.valueShape c ++ [q])).getLastD 0 = q := by
    rw [← List.cons_append, List.getLastD_concat]
  simp only [tableRoll, fiatFlat, hr, unravel_ravel hb, hlast, List.headD_cons, List.drop_succ_cons,
    List.drop_zero, List.dropLast_concat]

theorem fiatExpr_spec {n m : Nat} (hw : PSet.WF n ps) (hm : n ≤ m) (hpts : ps.pts ≠ [])
    (hP : FiatPoly F l ent) {α : List Nat} (hdim : F.dim l = l.fns.length ∨ α.sum ≤ l.degree)
    {c : Nat} (hc : c < l.valueShape.prod) :
    Runs (fiatExpr F l α (fiatFlat F l ps.pts ent α) ps c) m fun e m' => m ≤ m' ∧
      Den ps.Valid e [F.dim l] fun ρ v =>
        F.fn l α ent (ps.pointAt ρ) (v.headD 0) (unravel l.valueShape c) := by
  have hN : 0 < ps.pts.length := List.length_pos_iff.2 hpts
  unfold fiatExpr
  simp only
  split
  · next h =>
    rw [if_neg (by omega)]
    refine Runs.pure ⟨Nat.le_refl _, rfl, fun ρ v _ hv => ?_⟩
    simp only [Gem.eval]
    cases hv with
    | cons hi ht =>
      cases ht
      simp only [List.headD_cons]
      rw [tableRoll_eq F l ps.pts ent α hc hN hi]
      exact hP.const _ _ _ _ _ h.1 h.2
  · split
    · next h1 h2 =>
      apply Runs.bind
      apply Runs.assertM
      · simp only [List.all_eq_true, List.mem_range]
        intro q hq i hi
        rw [tableRoll_eq F l ps.pts ent α hc hq hi, hP.vanish _ _ _ _ h2]
        exact hP.small
      · refine Runs.pure ⟨Nat.le_refl _, ?_, fun ρ v _ hv => ?_⟩
        · rcases hdim with hd | hd
          · rw [hd]; rfl
          · omega
        · simp only [Gem.eval]
          rw [hP.vanish _ _ _ _ h2]
    · next h1 h2 =>
      rw [if_neg (by rw [(PSet.pts_at hw).1]; simp)]
      refine Runs.partialIndexed (s := ps.indices.map Index.extent) (t := [F.dim l]) rfl
        (fitsShape_free rfl) ?_ ?_
      · intro i hi j hij
        subst hij
        simp only [List.mem_map, Ix.free.injEq, exists_eq_right] at hi
        exact Nat.lt_of_lt_of_le (PSet.indices_lt hw j hi) hm
      · intro r m' hm' hr hev
        refine ⟨hm', hr, fun ρ v hV hv => ?_⟩
        obtain ⟨ρ', -, h3, h4⟩ := hev ρ v hv.length
        rw [h3, h4, map_val_free]
        cases hv with
        | @cons i _ _ _ hi ht =>
          cases ht
          simp only [Gem.eval, List.headD_cons]
          have hq := (PSet.pts_at hw).2 hV
          have hk : ravel (ps.indices.map Index.extent ++ [F.dim l]) ((ps.indices.map fun j => ρ j.id) ++ [i]) =
              ravel (ps.indices.map Index.extent) (ps.indices.map fun j => ρ j.id) * F.dim l + i := by
            rw [ravel_append (by simp)]; simp
          rw [hk, Nat.mul_comm, Nat.mul_add_div (by omega), Nat.div_eq_of_lt hi, Nat.mul_add_mod,
            Nat.mod_eq_of_lt hi, Nat.add_zero]
          rw [tableRoll_eq F l ps.pts ent α hc (List.getElem?_eq_some_iff.1 hq).1 hi, hq]
          rfl

end

/-- Assembling the components of a vector- or tensor-valued table. -/
theorem assemble_spec {V : Env → Prop} {n0 m : Nat} (hn : n0 ≤ m) (hV : LocalV n0 V) {nf : Nat} {vs : List Nat} (hvs : vs.prod ≠ 0)
    {exprs : List (Gem K)} {G : Nat → Env → List Nat → K} (hlen : exprs.length = vs.prod)
    (hG : ∀ c, LocalF n0 (G c))
    (hd : ∀ c (h : c < exprs.length), Den V exprs[c] [nf] (G c)) :
    Runs (do
      let beta ← freshIndices [nf]
      let zeta ← freshIndices vs
      let es ← exprs.mapM fun e => mkIndexed e (beta.map .free)
      let u ← mkListTensor vs es
      let x ← mkIndexed u (zeta.map .free)
      mkComponentTensor x (beta ++ zeta)) m fun t m' => m ≤ m' ∧
        Den V t (nf :: vs) fun ρ v => G (ravel vs (v.drop 1)) ρ [v.headD 0] := by
  apply Runs.bind
  apply Runs.freshIndices
  intro beta m1 hb eb
  apply Runs.bind
  apply Runs.freshIndices
  intro zeta m2 hz ez
  have hf := hb.append hz
  apply Runs.bind
  have hmap : Runs (exprs.mapM fun e => mkIndexed e (beta.map .free)) m2 fun es m3 => m2 ≤ m3 ∧
      List.Forall₂ (fun e x => Gem.shape x = [] ∧ ∀ ρ, Gem.eval ρ x [] = Gem.eval ρ e (beta.map fun i => ρ i.id))
        exprs es := by
    apply Runs.mapM
    · intro e he n' _
      obtain ⟨c, hc, rfl⟩ := List.getElem_of_mem he
      apply Runs.mkIndexed
      · rw [(hd c hc).shape, ← eb]; exact fitsShape_free rfl
      · intro r h1 h2
        exact ⟨Nat.le_refl _, h1, fun ρ => by rw [h2, map_val_free]⟩
  refine hmap.mono ?_
  rintro es m3 ⟨h3, hes⟩
  have hesl : es.length = vs.prod := by rw [← hes.length_eq, hlen]
  apply Runs.bind
  apply Runs.mkListTensor
  · intro h; rw [h] at hesl; simp at hesl; exact hvs hesl.symm
  · exact hesl
  · intro x hx
    obtain ⟨c, hc, rfl⟩ := List.getElem_of_mem hx
    exact (hes.get (by rw [hes.length_eq]; exact hc) hc).1
  intro u hu1 hu2
  apply Runs.bind
  apply Runs.mkIndexed
  · rw [hu1, ← ez]; exact fitsShape_free rfl
  intro x hx1 hx2
  apply Runs.mkComponentTensor hx1
  intro t ht1 ht2
  refine ⟨by have := hf.2.2; omega, by rw [ht1, List.map_append, eb, ez]; rfl, fun ρ v hρ hv => ?_⟩
  have hvl : v.length = (beta ++ zeta).length := by
    rw [hv.length, ← List.length_map (f := Index.extent) (as := beta ++ zeta), List.map_append, eb, ez]
    rfl
  rw [ht2 ρ v hvl, hx2, map_val_free, hu2]
  have hbind := map_bindIx ρ hf.1 hvl
  rw [List.map_append] at hbind
  set ρ1 := bindIx ρ (beta ++ zeta) v with hρ1
  have hagree : Agree n0 ρ ρ1 := (bindIx_agree hf v ρ).symm.mono hn
  cases hv with
  | @cons i _ z _ hi hz' =>
    have hb1 : beta.length = 1 := by
      have := congrArg List.length eb
      simpa using this
    have e1 : beta.map (fun j => ρ1 j.id) = [i] := by
      have := congrArg (List.take 1) hbind
      rwa [List.take_left' (by simp [hb1]), List.take_succ_cons, List.take_zero] at this
    have e2 : zeta.map (fun j => ρ1 j.id) = z := by
      have := congrArg (List.drop 1) hbind
      rwa [List.drop_left' (by simp [hb1]), List.drop_succ_cons, List.drop_zero] at this
    rw [e2]
    have hk : ravel vs z < exprs.length := by rw [hlen]; exact ravel_lt hz'
    have hk' : ravel vs z < es.length := by rw [hesl]; exact ravel_lt hz'
    rw [List.getElem?_eq_getElem hk']
    simp only [Option.map_some, Option.getD_some, List.drop_succ_cons, List.drop_zero, List.headD_cons]
    have hg := (hes.get hk hk').2 ρ1
    simp only [List.get_eq_getElem] at hg
    rw [hg]
    simp only [e1]
    rw [(hd _ hk).val ρ1 [i] (hV ρ ρ1 hagree hρ) (.cons hi .nil)]
    exact (hG _ ρ ρ1 [i] hagree).symm

section

variable {F : Fiat K} {l : Leaf} {ps : PSet K} {ent : Dim × Nat}

theorem fiatTable_spec {n m : Nat} (hw : PSet.WF n ps) (hm : n ≤ m) (hpts : ps.pts ≠ [])
    (hP : FiatPoly F l ent) {α : List Nat} (hdim : F.dim l = l.fns.length ∨ α.sum ≤ l.degree)
    (hvs : l.valueShape.prod ≠ 0) :
    Runs (fiatTable F l ps α (fiatFlat F l ps.pts ent α)) m fun e m' => m ≤ m' ∧
      Den ps.Valid e (F.dim l :: l.valueShape) fun ρ v =>
        F.fn l α ent (ps.pointAt ρ) (v.headD 0) (v.drop 1) := by
  unfold fiatTable
  apply Runs.bind
  have H : Runs ((List.range l.valueShape.prod).mapM (fiatExpr F l α (fiatFlat F l ps.pts ent α) ps)) m
      fun es m' => m ≤ m' ∧ List.Forall₂ (fun c e => Den ps.Valid e [F.dim l] fun ρ v =>
        F.fn l α ent (ps.pointAt ρ) (v.headD 0) (unravel l.valueShape c)) (List.range l.valueShape.prod) es := by
    apply Runs.mapM
    intro c hc n' hn'
    exact fiatExpr_spec hw (Nat.le_trans hm hn') hpts hP hdim (List.mem_range.1 hc)
  refine H.mono ?_
  rintro exprs m1 ⟨h1, hes⟩
  have hlen : exprs.length = l.valueShape.prod := by rw [← hes.length_eq]; simp
  have hd : ∀ c (h : c < exprs.length), Den ps.Valid exprs[c] [F.dim l] fun ρ v =>
        F.fn l α ent (ps.pointAt ρ) (v.headD 0) (unravel l.valueShape c) := by
    intro c h
    have := hes.get (by simpa using hlen ▸ h) h
    simpa using this
  split
  · next hv =>
    rw [hv] at hlen
    match exprs, hlen, hd with
    | [e], _, hd =>
      refine Runs.pure ⟨h1, ?_⟩
      have h0 := hd 0 (by simp)
      rw [hv]
      refine ⟨h0.shape, fun ρ v hρ hvb => ?_⟩
      rw [show [e][0] = e from rfl] at h0
      rw [h0.val ρ v hρ hvb]
      cases hvb with
      | cons _ ht => cases ht; simp [unravel, hv]
  · refine (assemble_spec (Nat.le_trans hm h1) (PSet.valid_local hw) hvs hlen ?_ hd).mono ?_
    · intro c ρ ρ' v ha
      simp only [PSet.pointAt_local hw ha]
    · rintro t m2 ⟨h2, h3⟩
      refine ⟨Nat.le_trans h1 h2, h3.shape, fun ρ v hρ hv => ?_⟩
      rw [h3.val ρ v hρ hv]
      cases hv with
      | cons hi hz =>
        simp only [List.drop_succ_cons, List.drop_zero, List.headD_cons, unravel_ravel hz]

theorem nodup_mis (m n : Nat) : (mis m n).Nodup := by
  induction m using Nat.strongRecOn generalizing n with
  | _ m ih =>
  match m, n with
  | 0, 0 => simp [mis]
  | 0, n + 1 => simp [mis]
  | 1, n => simp [mis]
  | m + 2, n =>
    rw [mis]
    split
    · simp
    · rw [List.nodup_flatMap]
      refine ⟨fun i _ => ?_, ?_⟩
      · exact (ih (m + 1) (by omega) i).map fun a b h => by simpa using h
      · refine List.Pairwise.imp ?_ (List.nodup_range (n := n + 1))
        intro a b hab
        simp only [Function.onFun]
        intro x hx hy
        simp only [List.mem_map] at hx hy
        obtain ⟨s, hs, rfl⟩ := hx
        obtain ⟨t, ht, he⟩ := hy
        simp only [List.cons.injEq] at he
        have h1 := (mem_mis.1 hs).2
        have h2 := (mem_mis.1 ht).2
        rw [he.2] at h2
        omega

theorem nodup_mis_upto (m o : Nat) : ((List.range (o + 1)).flatMap (mis m)).Nodup := by
  rw [List.nodup_flatMap]
  refine ⟨fun i _ => nodup_mis m i, ?_⟩
  refine List.Pairwise.imp ?_ (List.nodup_range (n := o + 1))
  intro a b hab
  simp only [Function.onFun]
  intro x hx hy
  have h1 := (mem_mis.1 hx).2
  have h2 := (mem_mis.1 hy).2
  omega

theorem mapM_keys_spec {n : Nat} {V : Env → Prop} {s : List Nat} {sd order : Nat}
    {Fv : List Nat → Env → List Nat → K} {g : List Nat → M (Gem K)}
    (h : ∀ α, α.length = sd → α.sum ≤ order → ∀ n', n ≤ n' →
      Runs (g α) n' fun e n'' => n' ≤ n'' ∧ Den V e s (Fv α)) :
    Runs (((List.range (order + 1)).flatMap (mis sd)).mapM fun α => do
      let t ← g α
      pure (α, t)) n fun T n' => n ≤ n' ∧ TabDen V T sd order s Fv := by
  have H : Runs (((List.range (order + 1)).flatMap (mis sd)).mapM fun α => do
      let t ← g α
      pure (α, t)) n fun (T : Tab K) n' => n ≤ n' ∧ List.Forall₂ (fun α (p : List Nat × Gem K) =>
        p.1 = α ∧ Den V p.2 s (Fv α)) ((List.range (order + 1)).flatMap (mis sd)) T := by
    apply Runs.mapM
    intro α hα n' hn'
    have hk := mem_mis_upto.1 hα
    apply Runs.bind
    refine (h α hk.1 hk.2 n' hn').mono ?_
    rintro e n'' ⟨h1, h2⟩
    exact Runs.pure ⟨h1, rfl, h2⟩
  refine H.mono ?_
  rintro T n' ⟨h1, hT⟩
  refine ⟨h1, ?_⟩
  have hkeys : Dict.keys T = (List.range (order + 1)).flatMap (mis sd) := by
    clear H h1
    generalize (List.range (order + 1)).flatMap (mis sd) = L at hT
    induction hT with
    | nil => rfl
    | cons hp _ ih => simp only [Dict.keys, List.map_cons, List.cons.injEq] at ih ⊢; exact ⟨hp.1, ih⟩
  have hnd : (Dict.keys T).Nodup := by rw [hkeys]; exact nodup_mis_upto sd order
  refine ⟨hnd, fun α => by rw [hkeys]; exact mem_mis_upto, fun α t ht => ?_⟩
  have hmem := Dict.mem_of_get?_eq_some ht
  obtain ⟨k, hk, hke⟩ := List.getElem_of_mem hmem
  have := hT.get (by rw [hT.length_eq]; exact hk) hk
  simp only [List.get_eq_getElem, hke] at this
  rw [← this.1] at this
  exact this.2

/-- What `basis_evaluation` of a FIAT-backed leaf needs: known points, polynomials of the stated
degree, a non-empty value, no derivatives above the degree for reduced elements. -/
structure FiatOK (F : Fiat K) (l : Leaf) (order : Nat) (ps : PSet K) (ent : Dim × Nat) : Prop where
  known : ∀ pts d i, ps ≠ .unknown pts d i
  pts : ps.pts ≠ []
  poly : FiatPoly F l ent
  value : l.valueShape.prod ≠ 0
  dim : F.dim l = l.fns.length ∨ order ≤ l.degree

theorem fiatBasisEvaluation_spec {n m order : Nat} {entity : Option (Dim × Nat)} (hw : PSet.WF n ps)
    (hm : n ≤ m) (hok : FiatOK F l order ps (entity.getD (l.cell.dimension, 0))) :
    Runs (fiatBasisEvaluation F l order ps entity) m fun T m' => m ≤ m' ∧
      TabDen ps.Valid T l.cell.spatialDim order (F.dim l :: l.valueShape) fun α ρ v =>
        F.fn l α (entity.getD (l.cell.dimension, 0)) (ps.pointAt ρ) (v.headD 0) (v.drop 1) := by
  have heq : fiatBasisEvaluation F l order ps entity =
      ((List.range (order + 1)).flatMap (mis l.cell.spatialDim)).mapM (fun α => do
        let t ← fiatTable F l ps α (fiatFlat F l ps.pts (entity.getD (l.cell.dimension, 0)) α)
        pure (α, t)) := by
    have h : fiatBasisEvaluation F l order ps entity =
        (fiatTabulate F l order ps.pts entity).mapM (fun p => do
          let t ← fiatTable F l ps p.1 p.2
          pure (p.1, t)) := by
      cases ps with
      | unknown a b c => exact absurd rfl (hok.known a b c)
      | _ => rfl
    rw [h, fiatTabulate, List.mapM_map]
    rfl
  rw [heq]
  apply mapM_keys_spec
  intro α _ hα n' hn'
  exact fiatTable_spec hw (Nat.le_trans hm hn') hok.pts hok.poly
    (hok.dim.imp id fun h => Nat.le_trans hα h) hok.value

/-! ### Spectral elements -/

/-- The node property: when the points are of the class of the element and as many as there are basis
functions, they are the nodes. -/
def Nodal (F : Fiat K) (l : Leaf) (cls : PSClass) (ps : PSet K) : Prop :=
  ps.cls? = some cls → ps.pts.length = l.fns.length → (∃ q, ps.indices = [q]) ∧ l.valueShape = [] ∧
    ∀ q i, i < l.fns.length → ∀ x, ps.pts[q]? = some x →
      F.fn l (List.replicate l.cell.spatialDim 0) (l.cell.dimension, 0) x i [] = if q = i then 1 else 0

theorem TabDen.set {V : Env → Prop} {T : Tab K} {sd order : Nat} {s : List Nat}
    {Fv : List Nat → Env → List Nat → K} (h : TabDen V T sd order s Fv) {α : List Nat} {t : Gem K}
    (hα : α.length = sd) (hs : α.sum ≤ order) (ht : Den V t s (Fv α)) :
    TabDen V (Dict.set T α t) sd order s Fv := by
  have hmem : α ∈ Dict.keys T := (h.keys α).2 ⟨hα, hs⟩
  refine ⟨Dict.keys_set_nodup h.nodup, ?_, ?_⟩
  · intro β
    rw [Dict.mem_keys_set, h.keys β]
    constructor
    · rintro (rfl | h)
      · exact ⟨hα, hs⟩
      · exact h
    · exact Or.inr
  · intro β t' ht'
    rw [Dict.get?_set] at ht'
    split at ht'
    · next he =>
      cases ht'
      rw [← he]; exact ht
    · exact h.den β t' ht'

theorem spectralBasisEvaluation_spec {n m order : Nat} {entity : Option (Dim × Nat)} {cls : PSClass}
    (hw : PSet.WF n ps) (hm : n ≤ m) (hd : F.dim l = l.fns.length)
    (hok : FiatOK F l order ps (entity.getD (l.cell.dimension, 0))) (hnod : Nodal F l cls ps) :
    Runs (spectralBasisEvaluation F cls l order ps entity) m fun T m' => m ≤ m' ∧
      TabDen ps.Valid T l.cell.spatialDim order (F.dim l :: l.valueShape) fun α ρ v =>
        F.fn l α (entity.getD (l.cell.dimension, 0)) (ps.pointAt ρ) (v.headD 0) (v.drop 1) := by
  unfold spectralBasisEvaluation
  apply Runs.bind
  refine (fiatBasisEvaluation_spec hw hm hok).mono ?_
  rintro T m1 ⟨h1, hT⟩
  split
  · next hc =>
    obtain ⟨he, hcls, hlen⟩ := hc
    obtain ⟨⟨q, hq⟩, hvs, hn⟩ := hnod hcls hlen
    rw [hq]
    simp only
    apply Runs.bind
    refine ⟨[⟨m1, l.fns.length⟩], m1 + 1, rfl, ?_⟩
    simp only
    apply Runs.bind
    apply Runs.mkComponentTensor rfl
    intro t ht1 ht2
    refine Runs.pure ⟨by omega, hT.set (by simp) (by simp) ⟨?_, ?_⟩⟩
    · rw [ht1, hd, hvs]; rfl
    · intro ρ v hV hv
      rw [hd, hvs] at hv
      cases hv with
      | @cons i _ _ _ hi hz =>
        cases hz
        have hqid : q.id < n := PSet.indices_lt hw q (by rw [hq]; simp)
        have hent : entity.getD (l.cell.dimension, 0) = (l.cell.dimension, 0) := by
          rcases he with rfl | rfl <;> rfl
        have hat := (PSet.pts_at hw).2 hV
        rw [hq] at hat
        simp only [List.map_cons, List.map_nil, ravel_cons, ravel_nil, List.prod_nil, Nat.mul_one,
          Nat.add_zero] at hat
        rw [ht2 ρ [i] rfl]
        simp only [Gem.eval, bindIx, List.headD_cons, List.drop_succ_cons, List.drop_nil, hent]
        rw [hn (ρ q.id) i hi _ hat]
        have e1 : Function.update ρ m1 i q.id = ρ q.id := Function.update_of_ne (by omega) _ _
        simp only [e1, Function.update_self]
  · exact Runs.pure ⟨h1, hT⟩

/-! ### Physically mapped elements -/

/-- Value of a basis function of a leaf: the FIAT function, or for physically mapped elements the row
of the transformation applied to the FIAT functions. -/
def leafFn (F : Fiat K) (l : Leaf) (α : List Nat) (ent : Dim × Nat) (x : List K) (i : Nat) (z : List Nat) : K :=
  match F.mapped l with
  | none => F.fn l α ent x i z
  | some m => ((List.range m.cols).map fun j => m.entry i j * F.fn l α ent x j z).sum

theorem ndindex_single (n : Nat) : ndindex [n] = (List.range n).map fun i => [i] := by
  simp [ndindex, List.map_eq_flatMap]

theorem matvec_spec {n0 m : Nat} (hn : n0 ≤ m) {V : Env → Prop} (hV : LocalV n0 V) {mp : Mapped K}
    {t : Gem K} {G : Env → List Nat → K} (hd : Den V t (mp.cols :: l.valueShape) G) (hG : LocalF n0 G) :
    Runs (matvec l mp t) m fun r m' => m ≤ m' ∧ Den V r (l.fns.length :: l.valueShape) fun ρ v =>
      ((List.range mp.cols).map fun j => mp.entry (v.headD 0) j * G ρ (j :: v.drop 1)).sum := by
  unfold matvec
  apply Runs.bind
  refine ⟨[⟨m, l.fns.length⟩, ⟨m + 1, mp.cols⟩], m + 2, rfl, ?_⟩
  apply Runs.bind
  apply Runs.freshIndices
  intro zeta m2 hz ez
  have hlz : zeta.length = l.valueShape.length := by rw [← ez, List.length_map]
  apply Runs.bind
  apply Runs.mkIndexed
  · rw [hd.shape, ← ez]
    exact fitsShape_free rfl
  intro x hx1 hx2
  apply Runs.bind
  apply Runs.mkIndexed
  · exact fitsShape_free rfl
  intro e he1 he2
  apply Runs.bind
  apply Runs.mkProduct he1 hx1
  intro p hp1 hp2
  apply Runs.bind
  apply Runs.mkIndexSum hp1
  intro s hs1 hs2
  apply Runs.mkComponentTensor hs1
  intro r hr1 hr2
  refine ⟨by have := hz.2.2; omega, by rw [hr1]; simp [ez], fun ρ v hρ hv => ?_⟩
  cases hv with
  | @cons i _ z _ hi hzb =>
  have hlen : (i :: z).length = (List.take 1 [(⟨m, l.fns.length⟩ : Index), ⟨m + 1, mp.cols⟩] ++ zeta).length := by
    simp [hlz, InB.length hzb]
  rw [hr2 ρ _ hlen, hs2]
  simp only [List.drop_succ_cons, List.drop_zero, List.map_cons, List.map_nil, ndindex_single,
    List.map_map, List.headD_cons]
  congr 1
  apply List.map_congr_left
  intro j hj
  simp only [Function.comp_apply, List.take_succ_cons, List.take_zero, List.cons_append, List.nil_append]
  rw [hp2, he2, hx2]
  simp only [bindIx]
  set ρ1 := bindIx (Function.update ρ m i) zeta z with hρ1
  have hf1 : Fresh (m + 2) m2 zeta := hz
  have ha1 : Agree (m + 2) ρ1 (Function.update ρ m i) := bindIx_agree hf1 z _
  have hzmap : zeta.map (fun k => ρ1 k.id) = z :=
    map_bindIx _ hf1.1 (by rw [hlz]; exact InB.length hzb)
  have hzmap' : zeta.map (fun k => Function.update ρ1 (m + 1) j k.id) = z := by
    refine Eq.trans (List.map_congr_left fun k hk => ?_) hzmap
    have := (hf1.2.1 k hk).1
    rw [Function.update_of_ne (by omega)]
  have hm1 : Function.update ρ1 (m + 1) j m = i := by
    rw [Function.update_of_ne (by omega), ha1 m (by omega), Function.update_self]
  simp only [map_val_free, List.drop_succ_cons, List.drop_zero, List.cons_append, List.nil_append,
    List.map_cons, List.map_nil, Ix.val, hzmap', hm1, Function.update_self,
    Gem.eval, List.headD_cons, List.getLastD_cons, List.getLastD_nil]
  congr 1
  have hag : Agree n0 ρ (Function.update ρ1 (m + 1) j) := by
    intro k hk
    rw [Function.update_of_ne (by omega), ha1 k (by omega), Function.update_of_ne (by omega)]
  rw [hd.val _ (j :: z) (hV _ _ hag hρ) (.cons (List.mem_range.1 hj) hzb)]
  exact (hG _ _ _ hag).symm

/-- Conditions on a leaf, a point set and an entity. -/
structure LeafOK (F : Fiat K) (l : Leaf) (order : Nat) (ps : PSet K) (ent : Dim × Nat) : Prop
    extends FiatOK F l order ps ent where
  nodal : F.mapped l = none → ∀ cls, F.spectral l = some cls → Nodal F l cls ps

theorem leafBasisEvaluation_spec {n m order : Nat} {entity : Option (Dim × Nat)} (hw : PSet.WF n ps)
    (hm : n ≤ m) (hok : LeafOK F l order ps (entity.getD (l.cell.dimension, 0))) :
    Runs (leafBasisEvaluation F l order ps entity) m fun T m' => m ≤ m' ∧
      TabDen ps.Valid T l.cell.spatialDim order (l.fns.length :: l.valueShape) fun α ρ v =>
        leafFn F l α (entity.getD (l.cell.dimension, 0)) (ps.pointAt ρ) (v.headD 0) (v.drop 1) := by
  unfold leafBasisEvaluation leafFn
  cases hmap : F.mapped l with
  | some mp =>
    simp only
    apply Runs.bind
    refine (fiatBasisEvaluation_spec hw hm hok.toFiatOK).mono ?_
    rintro T m1 ⟨h1, hT⟩
    rw [show F.dim l = mp.cols by simp [Fiat.dim, hmap]] at hT
    refine (mapTab_spec (n0 := n) (s' := l.fns.length :: l.valueShape) (G := fun G ρ v => ((List.range mp.cols).map fun j =>
      mp.entry (v.headD 0) j * G ρ (j :: v.drop 1)).sum) hT ?_ ?_).mono ?_
    · intro α ρ ρ' v ha
      simp only [PSet.pointAt_local hw ha]
    · intro t F0 ht hF0 n' hn'
      exact matvec_spec (by omega) (PSet.valid_local hw) ht hF0
    · rintro T' m2 ⟨h2, h3⟩
      exact ⟨Nat.le_trans h1 h2, h3⟩
  | none =>
    simp only
    have hd : F.dim l = l.fns.length := by simp [Fiat.dim, hmap]
    cases hsp : F.spectral l with
    | none =>
      have := fiatBasisEvaluation_spec hw hm hok.toFiatOK
      rw [hd] at this
      exact this
    | some cls =>
      have := spectralBasisEvaluation_spec hw hm hd hok.toFiatOK (hok.nodal hmap cls hsp)
      rw [hd] at this
      exact this

end

end FInAT
