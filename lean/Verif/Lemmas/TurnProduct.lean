import Verif.Lemmas.Turn

/-!
# Entity permutations of products follow the turns of the entities
-/

namespace FInAT

open FInAT.Spec FInAT.Props

variable {K : Type} [CommRing K]

theorem lookups_getElem? {ps : List (List Nat)} {j : List Nat} {k : Nat} {p : List Nat} {i : Nat} (hp : ps[k]? = some p)
    (hj : j[k]? = some i) : (lookups ps j)[k]? = some (p.getD i 0) := by
  simp [lookups, List.getElem?_zipWith, hp, hj]

theorem follows_product (φ : LeafVals K) (T : Turn K) {F : FiatPerms} {fiat : Leaf → EntityDofs}
    {subs : Cell → EntityMap (List (Dim × Nat))} (hF : AxesOK F) {fs : List Elem} {cs : List Cell} (hg : GoodL fs)
    (hp : PermsGivenL F fiat subs fs) (hcs : Elem.cellL fs = .ok cs) {m : PermMap}
    (hm : entityPerms F fiat subs (.tensorProduct fs) = .ok m) (hT : TurnsProduct F T cs) (hX : ExchangesAlike F fs cs)
    (ih : ∀ f ∈ fs, ∀ m, entityPerms F fiat subs f = .ok m → FollowsTurns φ T f m) :
    FollowsTurns φ T (.tensorProduct fs) m := by
  have hc : (Elem.tensorProduct fs).cell = .ok (.prod cs) := by
    simp [Elem.cell, hcs, bind, Except.bind, pure, Except.pure]
  obtain ⟨ms, ds, d, hms, hds, hd, hdata⟩ := product_data hF hg hp hc hm
  have hcm := FInAT.cellL_mem hcs
  have hmf := entityPermsL_forall hms
  have hcl : cs.length = fs.length := hcm.length_eq.symm
  have hml : ms.length = fs.length := hmf.length_eq.symm
  have hdl : ds.length = fs.length := hds.length_eq.symm
  intro c' d' hc' hd' E hE o p hop
  rw [hc] at hc'; cases hc'
  rw [hd] at hd'; cases hd'
  -- the factor entities
  obtain ⟨n, hn, hlt⟩ := mem_entities.1 hE
  obtain ⟨D, N⟩ := E
  simp only [Cell.topology, Cell.prodTop, List.mem_map, Prod.mk.injEq] at hn
  obtain ⟨qs, hqs, rfl, rfl⟩ := hn
  simp only at hlt
  have hfe := factorEntity_eq hqs hlt
  have hei := unravel_bounds hlt
  have hNr : N = ravel (qs.map Prod.snd) (unravel (qs.map Prod.snd) N) := (ravel_unravel hlt).symm
  generalize unravel (qs.map Prod.snd) N = ei at hfe hei hNr
  subst hNr
  have hqs' := hqs
  rw [topologyL_eq] at hqs'
  obtain ⟨hk, hor, hall, hdof⟩ := hdata qs hqs' ei hei
  obtain ⟨Es', hfe', hEs, htot⟩ := split_entities hE
  rw [hfe] at hfe'; cases hfe'
  have hql : qs.length = fs.length := by rw [← hcl]; simpa using length_of_mem_product hqs'
  have hel : ei.length = fs.length := by rw [← hql]; simpa using hei.length_eq
  generalize hEsd : (qs.map Prod.fst).zip ei = Es at *
  have hEl : Es.length = fs.length := by rw [← hEsd]; simp [hql, hel]
  have hdims : qs.map Prod.fst = Es.map Prod.fst := by
    rw [← hEsd, List.map_fst_zip]; simp [hql, hel]
  have hkeys : ∀ d ∈ List.zipWith (fun m (x : Dim × Nat) => orients m x.1 x.2) ms Es, d.keys.Nodup := by
    intro d hd
    obtain ⟨i, hi, rfl⟩ := List.mem_iff_getElem.1 hd
    exact ((List.forall₂_iff_get.1 hall).2 i hi (hall.length_eq ▸ hi)).1
  have hfd : factorDofs ds (qs.map Prod.fst) ei = List.zipWith (fun d (x : Dim × Nat) => dofsOn d x.1 x.2) ds Es := by
    unfold factorDofs; rw [hEsd]
  rw [hfd] at hall hdof
  generalize hfdd : List.zipWith (fun d (x : Dim × Nat) => dofsOn d x.1 x.2) ds Es = fd at *
  have hfl : fd.length = fs.length := by rw [← hfdd]; simp [hdl, hEl]
  have hcount : dofCounts fs Es = fd.map List.length := by
    rw [← hfdd]
    clear * - hds
    unfold dofCounts
    induction hds generalizing Es with
    | nil => simp
    | cons h _ ih =>
      cases Es with
      | nil => simp
      | cons E Es => simp [h, ih]
  generalize hsh : fd.map List.length = shape at hall
  have hsl : shape.length = fs.length := by rw [← hsh]; simp [hfl]
  -- the orientation
  rw [permOn_eq, hor] at hop
  have hmem := Dict.mem_of_get?_eq_some hop
  unfold makeTensorPerms at hmem
  obtain ⟨ax, hax, hmem⟩ := List.mem_flatMap.1 hmem
  obtain ⟨sel, hsel, heq⟩ := List.mem_map.1 hmem
  obtain ⟨h1, h2, h3⟩ := shape_of_ops (hall.imp fun _ _ h => h.2) hsel
  rw [h1] at hax
  simp only [Prod.mk.injEq] at heq
  obtain ⟨rfl, rfl⟩ := heq
  have hsell : sel.length = fs.length := by
    have := congrArg List.length h2
    simp only [List.length_map] at this
    omega
  obtain ⟨a1, a2⟩ := (hF cs (qs.map Prod.fst) shape).2 ax hax
  have hal : ax.2.length = fs.length := by rw [← hsl]; simpa using a1.length_eq
  -- position `J`
  intro J g hg'
  simp only [entityFns, hdof, List.map_map, List.getElem?_map, Option.map_eq_some_iff, Function.comp_apply] at hg'
  obtain ⟨v, hv, rfl⟩ := hg'
  have hJ : J < shape.prod := by
    have := (List.getElem?_eq_some_iff.1 hv).1
    rwa [length_product, hsh] at this
  have hjb := unravel_bounds hJ
  have hJr : J = ravel shape (unravel shape J) := (ravel_unravel hJ).symm
  generalize unravel shape J = jv at hjb hJr
  subst hJr
  have hjl : jv.length = fs.length := by rw [← hsl]; exact hjb.length_eq
  have hpg := product_getElem (ls := fd) (j := jv) (by rw [hsh]; exact hjb)
  rw [hsh, hv] at hpg
  cases hpg
  have hb := lookups_bounds h3 (by rw [h2]; exact hjb)
  have hib := scatter_bounds (sigma := ax.2) (by rw [h2]; exact a1) (by rw [h2]; exact a2) hb
  have hget := tensorPerm_getElem (sigma := ax.2) (ps := sel.map Prod.snd) (j := jv) (by rw [h2]; exact hjb)
  rw [h2] at hib hget hb
  have hsc : ∀ k < fs.length, (scatter ax.2 (lookups (sel.map Prod.snd) jv)).getD (ax.2.getD k 0) 0 =
      (lookups (sel.map Prod.snd) jv).getD k 0 := by
    intro k hk
    exact scatter_getD (by rw [hal, ← hsl]; exact a1) _ (by rw [hal]; exact hk)
  generalize hiv : scatter ax.2 (lookups (sel.map Prod.snd) jv) = iv at hib hget hsc
  have hil : iv.length = fs.length := by rw [← hsl]; exact hib.length_eq
  have hpi := product_getElem (ls := fd) (j := iv) (by rw [hsh]; exact hib)
  rw [hsh] at hpi
  refine ⟨_, fnOf φ (.tensorProduct fs) (ravel (fs.map Elem.spaceDim) (lookups fd iv)), hget, ?_, fun x z hx => ?_⟩
  · simp only [entityFns, hdof, List.map_map, List.getElem?_map, hpi, Option.map_some, Function.comp_apply]
  -- dof numbers are in range
  have hrange : ∀ w ∈ product fd, List.Forall₂ (fun k n => k < n) w (fs.map Elem.spaceDim) := by
    intro w hw
    have hw := mem_product.1 hw
    rw [List.forall₂_iff_get]
    have hwl : w.length = fs.length := by rw [← hfl]; exact hw.length_eq
    refine ⟨by rw [List.length_map]; exact hwl, fun i h1 h2 => ?_⟩
    have hi : i < fs.length := by rw [← hwl]; exact h1
    obtain ⟨f, hfi⟩ := exists_getElem? hi
    obtain ⟨ci, hci⟩ := exists_getElem? (l := cs) (k := i) (by rw [hcl]; exact hi)
    obtain ⟨di, hdi⟩ := exists_getElem? (l := ds) (k := i) (by rw [hdl]; exact hi)
    obtain ⟨Ei, hEi⟩ := exists_getElem? (l := Es) (k := i) (by rw [hEl]; exact hi)
    have hfdi : fd[i]? = some (dofsOn di Ei.1 Ei.2) := by
      rw [← hfdd]; simp [List.getElem?_zipWith, hdi, hEi]
    have hwi : w[i]? = some (w.get ⟨i, h1⟩) := List.getElem?_eq_getElem h1
    have hm1 := forall2_getElem? hw hwi hfdi
    have hde := forall2_getElem? hds hfi hdi
    have hce := forall2_getElem? hcm hfi hci
    obtain ⟨d', hd', _, hpart⟩ := dofsOKL fs hg _ (List.mem_of_getElem? hfi) _ hce
    rw [hde] at hd'; cases hd'
    have e2 : (fs.map Elem.spaceDim).get ⟨i, h2⟩ = f.spaceDim := by
      have : (fs.map Elem.spaceDim)[i]? = some f.spaceDim := by simp [hfi]
      rw [List.getElem?_eq_getElem h2] at this
      exact Option.some.inj this
    rw [e2]
    exact dofsOn_lt hpart hm1
  have hsd : (Cell.prod cs).spatialDim = (fs.map sdim).sum := by
    clear * - hcm
    simp only [Cell.spatialDim]
    induction hcm with
    | nil => rfl
    | cons h _ ih => simp [Cell.spatialDimL, ih, sdim, h]
  rw [fnOf_product φ hcs hfe (hrange _ (List.mem_of_getElem? hv)), fnOf_product φ hcs hfe (hrange _ (List.mem_of_getElem? hpi))]
  obtain ⟨xs, hxs, rfl⟩ := split_lengths Es x (by rw [hx]; exact htot.symm)
  rw [hdims] at hax
  obtain ⟨ys, hys, hTx, hyk⟩ := hT _ hE Es hfe shape (by rw [hsl, hcl]) ax hax (sel.map Prod.fst) (by simp [hsell, hcl]) xs hxs
  rw [hTx]
  have hxl : xs.length = fs.length := by rw [← hEl]; exact hxs.length_eq
  have hyl : ys.length = fs.length := by rw [← hEl]; exact hys.length_eq
  have hval : ∀ (w : List Nat) (us : List (List K)), w.length = fs.length →
      List.Forall₂ (fun x (E : Dim × Nat) => x.length = E.1.total) us Es →
      prodFn ((fs.map fun f => (sdim f, (vshape f).length)).zip (List.zipWith (fun f k => fnOf φ f k) fs w))
        (List.replicate (Cell.prod cs).spatialDim 0) Es us.flatten z =
      (factorValues (List.zipWith (fun f k => (sdim f, fnOf φ f k)) fs w) Es us
        (cut (fs.map fun f => (vshape f).length) z)).prod := by
    intro w us hw hus
    have := prodFn_values ((fs.map fun f => (sdim f, (vshape f).length)).zip (List.zipWith (fun f k => fnOf φ f k) fs w)) Es us z
      (by simp [hw, hEl]) hus
    have e1 : ((fs.map fun f => (sdim f, (vshape f).length)).zip (List.zipWith (fun f k => fnOf φ f k) fs w)).map
        (fun g => g.1.1) = fs.map sdim := by
      clear * - hw
      induction fs generalizing w with
      | nil => rfl
      | cons f fs ih =>
        cases w with
        | nil => simp at hw
        | cons a w => simp [ih w (by simpa using hw)]
    have e2 : ((fs.map fun f => (sdim f, (vshape f).length)).zip (List.zipWith (fun f k => fnOf φ f k) fs w)).map
        (fun g => g.1.2) = fs.map fun f => (vshape f).length := by
      clear * - hw
      induction fs generalizing w with
      | nil => rfl
      | cons f fs ih =>
        cases w with
        | nil => simp at hw
        | cons a w => simp [ih w (by simpa using hw)]
    have e3 : ((fs.map fun f => (sdim f, (vshape f).length)).zip (List.zipWith (fun f k => fnOf φ f k) fs w)).map
        (fun g => (g.1.1, g.2)) = List.zipWith (fun f k => (sdim f, fnOf φ f k)) fs w := by
      clear * - hw
      induction fs generalizing w with
      | nil => rfl
      | cons f fs ih =>
        cases w with
        | nil => simp at hw
        | cons a w => simp [ih w (by simpa using hw)]
    rw [e1, e2, e3] at this
    rw [hsd, this]
  have hlj : (lookups fd jv).length = fs.length := by simp [lookups, hfl, hjl]
  have hli : (lookups fd iv).length = fs.length := by simp [lookups, hfl, hil]
  rw [hval _ xs hlj hxs, hval _ ys hli hys]
  have hL1 : (factorValues (List.zipWith (fun f k => (sdim f, fnOf φ f k)) fs (lookups fd jv)) Es xs
        (cut (fs.map fun f => (vshape f).length) z)).length = fs.length := by
    rw [factorValues_length] <;> simp [hlj, hEl, hxl, cut_length]
  have hL2 : (factorValues (List.zipWith (fun f k => (sdim f, fnOf φ f k)) fs (lookups fd iv)) Es ys
        (cut (fs.map fun f => (vshape f).length) z)).length = fs.length := by
    rw [factorValues_length] <;> simp [hli, hEl, hyl, cut_length]
  refine prod_reindex (sigma := ax.2) (by rw [hL1, ← hsl]; exact a1) (by rw [hL1, hL2]) fun k hk => ?_
  rw [hL1] at hk
  -- everything at position `k`
  obtain ⟨f, hfk⟩ := exists_getElem? hk
  obtain ⟨ck, hck⟩ := exists_getElem? (l := cs) (k := k) (by rw [hcl]; exact hk)
  obtain ⟨mk, hmk⟩ := exists_getElem? (l := ms) (k := k) (by rw [hml]; exact hk)
  obtain ⟨dk, hdk⟩ := exists_getElem? (l := ds) (k := k) (by rw [hdl]; exact hk)
  obtain ⟨Ek, hEk⟩ := exists_getElem? (l := Es) (k := k) (by rw [hEl]; exact hk)
  obtain ⟨sk, hsk⟩ := exists_getElem? (l := sel) (k := k) (by rw [hsell]; exact hk)
  obtain ⟨xk, hxk⟩ := exists_getElem? (l := xs) (k := k) (by rw [hxl]; exact hk)
  obtain ⟨jk, hjk⟩ := exists_getElem? (l := jv) (k := k) (by rw [hjl]; exact hk)
  obtain ⟨zk, hzk⟩ := exists_getElem? (l := cut (fs.map fun f => (vshape f).length) z) (k := k) (by rw [cut_length]; simpa using hk)
  have hfdk : fd[k]? = some (dofsOn dk Ek.1 Ek.2) := by
    rw [← hfdd]; simp [List.getElem?_zipWith, hdk, hEk]
  have hnk : shape[k]? = some (dofsOn dk Ek.1 Ek.2).length := by rw [← hsh]; simp [hfdk]
  have hjlt : jk < (dofsOn dk Ek.1 Ek.2).length := forall2_getElem? hjb hjk hnk
  have hEkc : Ek ∈ entities ck := forall2_getElem? hEs hck hEk
  have hfc : f.cell = .ok ck := forall2_getElem? hcm hfk hck
  have hfdo : f.entityDofs = .ok dk := forall2_getElem? hds hfk hdk
  have hfm : entityPerms F fiat subs f = .ok mk := forall2_getElem? hmf hfk hmk
  have hperm : permOn mk Ek.1 Ek.2 sk.1 = some sk.2 := by
    have hch := (chosen_iff (ms := ms) (dims := qs.map Prod.fst) (ei := ei) (sel := sel) (by rw [hEsd]; exact hkeys)).2
      (by rw [hEsd]; exact hsel)
    unfold Chosen at hch
    rw [hEsd] at hch
    exact forall2_getElem? hch hsk (show (ms.zip Es)[k]? = some (mk, Ek) by simp [List.zip, List.getElem?_zipWith, hmk, hEk])
  -- the factor
  obtain ⟨i', g', hi', hg'', hvalue⟩ := ih f (List.mem_of_getElem? hfk) mk hfm ck dk hfc hfdo Ek hEkc sk.1 sk.2 hperm jk
    (fnOf φ f ((dofsOn dk Ek.1 Ek.2).getD jk 0)) (by
      simp [entityFns, List.getElem?_map, List.getElem?_eq_getElem hjlt])
  simp only [entityFns, List.getElem?_map, Option.map_eq_some_iff] at hg''
  obtain ⟨v', hv', rfl⟩ := hg''
  -- the exchanged factor
  have halt : ax.2.getD k 0 < fs.length := by
    have hka : k < ax.2.length := by rw [hal]; exact hk
    rw [List.getD_eq_getElem _ _ hka]
    have := a1.mem_iff.1 (List.getElem_mem hka)
    rwa [List.mem_range, hsl] at this
  have hexch : fs[ax.2.getD k 0]? = some f ∧ Es[ax.2.getD k 0]? = some Ek ∧
      (cut (fs.map fun f => (vshape f).length) z)[ax.2.getD k 0]? = some zk := by
    by_cases hak : ax.2.getD k 0 = k
    · rw [hak]; exact ⟨hfk, hEk, hzk⟩
    · rw [← hsh, ← hcount] at hax
      obtain ⟨b1, b2, b3⟩ := hX _ hE Es hfe ax hax k f hfk hak
      refine ⟨b1, by rw [b2, hEk], ?_⟩
      have c1 := cut_zero (ns := fs.map fun f => (vshape f).length) (z := z) (k := k) (by simp [hfk, b3])
      rw [hzk] at c1; cases c1
      exact cut_zero (by rw [List.getElem?_map, b1]; simp [b3])
  obtain ⟨hfa, hEa, hza⟩ := hexch
  have hyk' := hyk k ck Ek sk.1 xk hck hEk (by simp [hsk]) hxk
  have hia' := hsc k hk
  generalize ax.2.getD k 0 = a at hia' hyk' hfa hEa hza halt ⊢
  obtain ⟨da, hda⟩ := exists_getElem? (l := ds) (k := a) (by rw [hdl]; exact halt)
  have hfda' : f.entityDofs = .ok da := forall2_getElem? hds hfa hda
  rw [hfdo] at hfda'; cases hfda'
  have hfda : fd[a]? = some (dofsOn dk Ek.1 Ek.2) := by
    rw [← hfdd]; simp [List.getElem?_zipWith, hda, hEa]
  obtain ⟨ya, hya⟩ := exists_getElem? (l := ys) (k := a) (by rw [hyl]; exact halt)
  obtain ⟨ia, hia⟩ := exists_getElem? (l := iv) (k := a) (by rw [hil]; exact halt)
  have hii : ia = i' := by
    have e1 := lookups_getElem? (ps := sel.map Prod.snd) (j := jv) (k := k) (p := sk.2) (by simp [hsk]) hjk
    simp only [List.getD_eq_getElem?_getD, hia, e1, hi', Option.getD_some] at hia'
    exact hia'
  subst hii
  have hyy : ya = T ck Ek sk.1 xk := by
    simpa only [List.getD_eq_getElem?_getD, hya, Option.getD_some] using hyk'
  have hsf : sdim f = ck.spatialDim := by simp [sdim, hfc]
  have hg1 : (List.zipWith (fun f k => (sdim f, fnOf φ f k)) fs (lookups fd jv))[k]? =
      some (sdim f, fnOf φ f ((dofsOn dk Ek.1 Ek.2).getD jk 0)) := by
    simp [List.getElem?_zipWith, hfk, lookups_getElem? hfdk hjk]
  have hg2 : (List.zipWith (fun f k => (sdim f, fnOf φ f k)) fs (lookups fd iv))[a]? = some (sdim f, fnOf φ f v') := by
    simp [List.getElem?_zipWith, hfa, lookups_getElem? hfda hia, List.getD_eq_getElem?_getD, hv']
  rw [List.getD_eq_getElem?_getD, List.getD_eq_getElem?_getD,
    factorValues_getElem? _ _ _ _ k _ _ _ _ _ hg1 hEk hxk hzk, factorValues_getElem? _ _ _ _ a _ _ _ _ _ hg2 hEa hya hza,
    Option.getD_some, Option.getD_some, hsf, hyy]
  exact hvalue xk zk (forall2_getElem? hxs hxk hEk)

end FInAT
