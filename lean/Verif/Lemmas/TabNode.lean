import Verif.Lemmas.Run

/-!
# What the table-merging steps compute

`Den V t s F`: expression `t` has shape `s` and its entry `v` has the value `F ρ v` for every
environment `ρ` satisfying `V`.
-/

namespace FInAT

variable {K : Type} [CommRing K]

/-- Environments: values of the free indices. -/
abbrev Env := Nat → Nat

/-- `v` is a multi-index of shape `s`. -/
abbrev InB (v s : List Nat) : Prop := List.Forall₂ (fun i n => i < n) v s

structure Den (V : Env → Prop) (t : Gem K) (s : List Nat) (F : Env → List Nat → K) : Prop where
  shape : t.shape = s
  val : ∀ ρ v, V ρ → InB v s → t.eval ρ v = F ρ v

/-- The predicate depends only on indices created before `n`. -/
def LocalV (n : Nat) (V : Env → Prop) : Prop := ∀ ρ ρ', Agree n ρ ρ' → V ρ → V ρ'

/-- The values depend only on indices created before `n`. -/
def LocalF (n : Nat) (F : Env → List Nat → K) : Prop := ∀ ρ ρ' v, Agree n ρ ρ' → F ρ v = F ρ' v

theorem LocalV.mono {n m : Nat} {V : Env → Prop} (h : LocalV n V) (hm : n ≤ m) : LocalV m V :=
  fun ρ ρ' ha hv => h ρ ρ' (ha.mono hm) hv

omit [CommRing K] in
theorem LocalF.mono {n m : Nat} {F : Env → List Nat → K} (h : LocalF n F) (hm : n ≤ m) : LocalF m F :=
  fun ρ ρ' v ha => h ρ ρ' v (ha.mono hm)

theorem InB.length {v s : List Nat} (h : InB v s) : v.length = s.length := List.Forall₂.length_eq h

theorem InB.append {v w s t : List Nat} (h : InB v s) (h' : InB w t) : InB (v ++ w) (s ++ t) :=
  List.rel_append h h'

theorem InB.take {v s : List Nat} (h : InB v s) (k : Nat) : InB (v.take k) (s.take k) :=
  List.forall₂_take k h

theorem InB.drop {v s : List Nat} (h : InB v s) (k : Nat) : InB (v.drop k) (s.drop k) :=
  List.forall₂_drop k h

theorem InB.split {v s t : List Nat} (h : InB v (s ++ t)) :
    InB (v.take s.length) s ∧ InB (v.drop s.length) t := by
  have h1 := h.take s.length
  have h2 := h.drop s.length
  rw [List.take_left] at h1
  rw [List.drop_left] at h2
  exact ⟨h1, h2⟩

theorem Agree.map {n : Nat} {ρ ρ' : Env} {ixs : List Index} (h : Agree n ρ ρ')
    (hi : ∀ i ∈ ixs, i.id < n) : ixs.map (fun i => ρ i.id) = ixs.map (fun i => ρ' i.id) :=
  List.map_congr_left fun i hm => h _ (hi i hm)

/-! ### Sums: enriched elements -/

/-- Value of a concatenation of blocks: `(shape, F)` per block. -/
def blockVal : List (List Nat × (Env → List Nat → K)) → Env → Nat → List Nat → K
  | [], _, _, _ => 0
  | (s, F) :: rest, ρ, k, z =>
    if k < s.prod then F ρ (unravel s k ++ z) else blockVal rest ρ (k - s.prod) z

theorem mergeEnriched_spec {n0 n : Nat} (hn : n0 ≤ n) {V : Env → Prop} (hV : LocalV n0 V)
    (L : List ((List Nat × Gem K) × (Env → List Nat → K))) (vs : List Nat)
    (hF : ∀ x ∈ L, LocalF n0 x.2 ∧ Den V x.1.2 (x.1.1 ++ vs) x.2) :
    Runs (mergeEnriched (L.map fun x => x.1.1) vs (L.map fun x => x.1.1.prod).sum (L.map fun x => x.1.2)) n
      fun r n' => n ≤ n' ∧ Den V r ((L.map fun x => x.1.1.prod).sum :: vs)
        fun ρ v => blockVal (L.map fun x => (x.1.1, x.2)) ρ (v.headD 0) (v.drop 1) := by
  unfold mergeEnriched
  apply Runs.bind
  apply Runs.freshIndices
  intro zeta n1 hz hze
  apply Runs.bind
  have hzip : (L.map fun x => x.1.1).zip (L.map fun x => x.1.2) = L.map fun x => x.1 := by
    rw [List.zip_map', List.map_congr_left fun x _ => rfl]
  rw [hzip]
  have hloop : Runs ((L.map fun x => x.1).mapM fun p => do
      let betai ← freshIndices p.1
      let x ← mkIndexed p.2 ((betai ++ zeta).map .free)
      mkComponentTensor x betai) n1 fun bs n' => n1 ≤ n' ∧
      List.Forall₂ (fun (p : List Nat × Gem K) (b : Gem K) => b.shape = p.1 ∧
        ∀ ρ v, InB v p.1 → ∃ ρ', Agree n1 ρ ρ' ∧
          b.eval ρ v = p.2.eval ρ' (v ++ zeta.map fun i => ρ i.id)) (L.map fun x => x.1) bs := by
    apply Runs.mapM
    intro p hp n2 hn2
    obtain ⟨x, hx, rfl⟩ := List.mem_map.1 hp
    apply Runs.bind
    apply Runs.freshIndices
    intro betai n3 hb hbe
    apply Runs.bind
    apply Runs.mkIndexed
    · rw [((hF x hx).2).shape]
      exact fitsShape_free (by simp [hbe, hze])
    intro y hy1 hy2
    apply Runs.mkComponentTensor hy1
    intro r hr1 hr2
    refine ⟨hb.2.2, by rw [hr1, hbe], fun ρ v hv => ?_⟩
    have hvl : v.length = betai.length := by rw [hv.length, ← hbe]; simp
    have hag := bindIx_agree hb v ρ
    refine ⟨bindIx ρ betai v, (hag.mono hn2).symm, ?_⟩
    rw [hr2 ρ v hvl, hy2, map_val_free, List.map_append, map_bindIx ρ hb.1 hvl]
    congr 2
    exact hag.map fun i hi => Nat.lt_of_lt_of_le (hz.2.1 i hi).2 hn2
  refine hloop.mono ?_
  rintro tensors n2 ⟨hn2, hts⟩
  have hshape : (Gem.concatenate tensors).shape = [(L.map fun x => x.1.1.prod).sum] := by
    rw [Gem.shape]
    congr 1
    clear hloop hzip hF
    induction L generalizing tensors with
    | nil => cases hts; rfl
    | cons x L ih =>
      cases hts with
      | cons h1 h2 =>
        simp only [Gem.sizeSum, List.map_cons, List.sum_cons]
        rw [h1.1, ih _ h2]
  apply Runs.bind
  apply Runs.freshIndices
  intro beta n3 hb hbe
  apply Runs.bind
  apply Runs.mkIndexed (by rw [hshape]; exact fitsShape_free hbe)
  intro y hy1 hy2
  apply Runs.mkComponentTensor hy1
  intro r hr1 hr2
  have hfr : Fresh n n3 (beta ++ zeta) :=
    ((hz.append (hb.weaken hn2)).perm List.perm_append_comm)
  refine ⟨hfr.2.2, by rw [hr1]; simp [hbe, hze], fun ρ v hVρ hv => ?_⟩
  have hlen : v.length = (beta ++ zeta).length := by
    rw [hv.length]; simp [← hze, ← List.length_map (f := Index.extent) (as := beta), hbe]; omega
  rw [hr2 ρ v hlen, hy2, map_val_free]
  have hbind := map_bindIx ρ hfr.1 hlen
  set ρ1 := bindIx ρ (beta ++ zeta) v with hρ1
  have hag : Agree n0 ρ ρ1 := ((bindIx_agree hfr v ρ).mono hn).symm
  have hVρ1 : V ρ1 := hV _ _ hag hVρ
  rw [List.map_append] at hbind
  cases hv with
  | @cons k _ z _ hk hz' =>
  obtain ⟨b0, hb0⟩ : ∃ b0, beta = [b0] := by
    cases beta with
    | nil => simp at hbe
    | cons b0 t => cases t with
      | nil => exact ⟨b0, rfl⟩
      | cons => simp at hbe
  subst hb0
  simp only [List.map_cons, List.map_nil, List.singleton_append, List.cons.injEq] at hbind
  obtain ⟨hbk, hbz⟩ := hbind
  simp only [List.map_cons, List.map_nil, hbk, Gem.eval, List.headD_cons, List.drop_one, List.tail_cons]
  -- the blocks
  clear hr2 hr1 hy2 hy1 hlen hshape hk hbk hρ1 hzip hloop hbe
  clear_value ρ1
  induction L generalizing tensors k with
  | nil => cases hts; simp [Gem.evalFlat, blockVal]
  | cons x L ih =>
    cases hts with
    | @cons _ b _ bs h1 h2 =>
      simp only [Gem.evalFlat, List.map_cons, blockVal]
      rw [h1.1]
      by_cases hk : k < x.1.1.prod
      · rw [if_pos hk, if_pos hk]
        obtain ⟨ρ', hag', hev⟩ := h1.2 ρ1 _ (unravel_bounds hk)
        obtain ⟨hl, hd⟩ := hF x List.mem_cons_self
        have hagn : Agree n0 ρ1 ρ' := hag'.mono (Nat.le_trans hn hz.2.2)
        rw [hev, hbz, hd.val ρ' _ (hV _ _ hagn hVρ1) (InB.append (unravel_bounds hk) hz')]
        exact hl _ _ _ (hagn.symm.trans hag.symm)
      · rw [if_neg hk, if_neg hk]
        exact ih (fun y hy => hF y (List.mem_cons_of_mem _ hy)) bs h2

/-! ### Products -/

/-- A factor: spatial dimension, index shape, value shape, table for the selected derivative and the
values of that table. -/
structure PFac (K : Type) where
  is : List Nat
  vs : List Nat
  t : Gem K
  F : Env → List Nat → K

/-- Value of a product of factors at a concatenated multi-index. -/
def prodVal : List (PFac K) → Env → List Nat → List Nat → K
  | [], _, _, _ => 1
  | f :: fs, ρ, i, z =>
    f.F ρ (i.take f.is.length ++ z.take f.vs.length) *
      prodVal fs ρ (i.drop f.is.length) (z.drop f.vs.length)

theorem mergeScalars_spec {n0 n : Nat} (hn : n0 ≤ n) {V : Env → Prop} (hV : LocalV n0 V)
    (L : List (PFac K)) (hne : L ≠ []) (hF : ∀ x ∈ L, LocalF n0 x.F ∧ Den V x.t (x.is ++ x.vs) x.F)
    (alphas zetas : List (List Index)) {m : Nat} (hm : n ≤ m)
    (hf : Fresh n m (alphas ++ zetas).flatten)
    (ha : alphas.map (List.map Index.extent) = L.map PFac.is)
    (hz : zetas.map (List.map Index.extent) = L.map PFac.vs) :
    Runs (do
      let scalars ← ((L.map PFac.t).zip (alphas.zip zetas)).mapM fun p =>
        mkIndexed p.1 ((p.2.1 ++ p.2.2).map .free)
      let e ← reduceProduct scalars
      mkComponentTensor e (alphas ++ zetas).flatten) m fun r n' => n' = m ∧
        Den V r ((L.map PFac.is).flatten ++ (L.map PFac.vs).flatten) fun ρ v =>
          prodVal L ρ (v.take (L.map PFac.is).flatten.length) (v.drop (L.map PFac.is).flatten.length) := by
  apply Runs.bind
  have hloop : ∀ (L : List (PFac K)) (alphas zetas : List (List Index)),
      (∀ x ∈ L, x.t.shape = x.is ++ x.vs) →
      alphas.map (List.map Index.extent) = L.map PFac.is →
      zetas.map (List.map Index.extent) = L.map PFac.vs →
      Runs (((L.map PFac.t).zip (alphas.zip zetas)).mapM fun p =>
        mkIndexed p.1 ((p.2.1 ++ p.2.2).map .free)) m fun bs n' => n' = m ∧ bs.length = L.length ∧
        (∀ b ∈ bs, b.shape = []) ∧
        List.Forall₂ (fun (b : Gem K) (q : PFac K × (List Index × List Index)) => ∀ ρ : Env, b.eval ρ [] =
          q.1.t.eval ρ (q.2.1.map (fun i => ρ i.id) ++ q.2.2.map (fun i => ρ i.id))) bs
          (L.zip (alphas.zip zetas)) := by
    intro L
    induction L with
    | nil => intro alphas zetas _ _ _; exact ⟨[], m, rfl, rfl, rfl, by simp, by simp⟩
    | cons x L ih =>
      intro alphas zetas hs ha hz
      cases alphas with
      | nil => simp at ha
      | cons a alphas =>
      cases zetas with
      | nil => simp at hz
      | cons z zetas =>
      simp only [List.map_cons, List.cons.injEq] at ha hz
      simp only [List.map_cons, List.zip_cons_cons, List.mapM_cons]
      apply Runs.bind
      apply Runs.mkIndexed
      · rw [hs x List.mem_cons_self]
        exact fitsShape_free (by simp [ha.1, hz.1])
      intro r hr1 hr2
      apply Runs.bind
      refine (ih alphas zetas (fun y hy => hs y (List.mem_cons_of_mem _ hy)) ha.2 hz.2).mono ?_
      rintro bs n' ⟨rfl, hl, hsh, hbs⟩
      refine Runs.pure ⟨rfl, by simp [hl], ?_, .cons ?_ hbs⟩
      · intro b hb
        rcases List.mem_cons.1 hb with rfl | hb
        · exact hr1
        · exact hsh b hb
      · intro ρ
        rw [hr2, map_val_free, List.map_append]
  refine (hloop L alphas zetas (fun x hx => (hF x hx).2.shape) ha hz).mono ?_
  rintro bs _ ⟨rfl, hbl, hbsh, hbs⟩
  apply Runs.bind
  apply Runs.reduceProduct
  · intro h
    subst h
    exact hne (by simpa using hbl.symm)
  · exact hbsh
  intro e he1 he2
  apply Runs.mkComponentTensor he1
  intro r hr1 hr2
  have hext : (alphas ++ zetas).flatten.map Index.extent =
      (L.map PFac.is).flatten ++ (L.map PFac.vs).flatten := by
    rw [List.map_flatten, List.map_append, ha, hz, List.flatten_append]
  refine ⟨rfl, by rw [hr1, hext], fun ρ v hVρ hv => ?_⟩
  have hlen : v.length = (alphas ++ zetas).flatten.length := by
    rw [hv.length, ← hext, List.length_map]
  rw [hr2 ρ v hlen, he2]
  have hbind := map_bindIx ρ hf.1 hlen
  set ρ1 := bindIx ρ (alphas ++ zetas).flatten v with hρ1
  have hag : Agree n0 ρ ρ1 := ((bindIx_agree hf v ρ).mono hn).symm
  have hVρ1 : V ρ1 := hV _ _ hag hVρ
  obtain ⟨hvi, hvz⟩ := hv.split
  have halen : alphas.flatten.length = (L.map PFac.is).flatten.length := by
    have := congrArg List.length (congrArg List.flatten ha)
    rw [← List.map_flatten, List.length_map] at this
    exact this
  have h1 : alphas.flatten.map (fun i => ρ1 i.id) = v.take (L.map PFac.is).flatten.length := by
    rw [← hbind, List.flatten_append, List.map_append, ← halen,
      List.take_left' (List.length_map _)]
  have h2 : zetas.flatten.map (fun i => ρ1 i.id) = v.drop (L.map PFac.is).flatten.length := by
    rw [← hbind, List.flatten_append, List.map_append, ← halen,
      List.drop_left' (List.length_map _)]
  generalize v.take (L.map PFac.is).flatten.length = vi at *
  generalize v.drop (L.map PFac.is).flatten.length = vz at *
  clear_value ρ1
  clear hbind hρ1 hlen hext hr1 hr2 he1 he2 hbsh hbl hloop hne hf halen hv
  induction L generalizing alphas zetas bs vi vz with
  | nil =>
    cases hbs
    rfl
  | cons x L ih =>
    cases alphas with
    | nil => simp at ha
    | cons a alphas =>
    cases zetas with
    | nil => simp at hz
    | cons z zetas =>
    simp only [List.map_cons, List.cons.injEq] at ha hz
    rw [List.zip_cons_cons, List.zip_cons_cons] at hbs
    cases hbs with
    | @cons b _ bs _ hb hbs =>
    simp only [List.map_cons, List.prod_cons, prodVal]
    simp only [List.flatten_cons, List.map_append] at h1 h2
    simp only [List.map_cons, List.flatten_cons] at hvi hvz
    have hal : a.length = x.is.length := by rw [← ha.1]; simp
    have hzl : z.length = x.vs.length := by rw [← hz.1]; simp
    have e1 : a.map (fun i => ρ1 i.id) = vi.take x.is.length := by
      rw [← h1, ← hal, List.take_left' (by simp)]
    have e2 : z.map (fun i => ρ1 i.id) = vz.take x.vs.length := by
      rw [← h2, ← hzl, List.take_left' (by simp)]
    have e3 : alphas.flatten.map (fun i => ρ1 i.id) = vi.drop x.is.length := by
      rw [← h1, ← hal, List.drop_left' (by simp)]
    have e4 : zetas.flatten.map (fun i => ρ1 i.id) = vz.drop x.vs.length := by
      rw [← h2, ← hzl, List.drop_left' (by simp)]
    obtain ⟨hl, hd⟩ := hF x List.mem_cons_self
    rw [hb ρ1, e1, e2, hd.val ρ1 _ hVρ1 (hvi.split.1.append hvz.split.1), hl ρ1 ρ _ hag.symm]
    congr 1
    exact ih (fun y hy => hF y (List.mem_cons_of_mem _ hy)) alphas zetas ha.2 hz.2 bs hbs _ hvi.split.2 e3 _ hvz.split.2 e4

end FInAT
