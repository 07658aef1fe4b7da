import Verif.Model.Support
import Verif.Spec.Support
import Verif.Lemmas.Attached2
import Verif.Lemmas.TabTree

/-!
# Support of composite elements
-/

set_option linter.unusedSectionVars false

namespace FInAT

open Spec

variable {K : Type} [Field K] [LinearOrder K] [IsStrictOrderedRing K] {φ : LeafVals K}

mutual
theorem inEntity_length : ∀ {c : Cell} {d : Dim} {x : List K}, InEntity c d x → x.length = d.total
  | .simplex _, .int k, x, h => by simp only [InEntity] at h; simpa [Dim.total] using h.1
  | .quad, .int k, x, h => by simp only [InEntity] at h; simpa [Dim.total] using h.1
  | .hex, .int k, x, h => by simp only [InEntity] at h; simpa [Dim.total] using h.1
  | .prod cs, .tup ds, x, h => by
    simp only [InEntity] at h
    simp only [Dim.total]
    exact inEntityL_length h
  | .simplex _, .tup _, x, h => by simp [InEntity] at h
  | .quad, .tup _, x, h => by simp [InEntity] at h
  | .hex, .tup _, x, h => by simp [InEntity] at h
  | .prod _, .int _, x, h => by simp [InEntity] at h
theorem inEntityL_length : ∀ {cs : List Cell} {ds : List Dim} {x : List K}, InEntityL cs ds x →
    x.length = Dim.totalL ds
  | [], [], x, h => by simp only [InEntityL] at h; simp [h, Dim.totalL]
  | c :: cs, d :: ds, x, h => by
    simp only [InEntityL] at h
    have h1 := inEntity_length h.1
    have h2 := inEntityL_length h.2
    simp only [List.length_take, List.length_drop] at h1 h2
    simp only [Dim.totalL]
    omega
  | [], _ :: _, x, h => by simp [InEntityL] at h
  | _ :: _, [], x, h => by simp [InEntityL] at h
end

theorem inEntityL_append {c : Cell} {cs : List Cell} {d : Dim} {ds : List Dim} {x y : List K}
    (hx : InEntity c d x) (hy : InEntityL cs ds y) : InEntityL (c :: cs) (d :: ds) (x ++ y) := by
  have hl := inEntity_length hx
  simp only [InEntityL]
  rw [← hl, List.take_left, List.drop_left]
  exact ⟨hx, hy⟩

theorem sum_le_one_of_length {x : List K} (hl : x.length ≤ 1) : x.sum ≤ 1 ↔ ∀ a ∈ x, a ≤ 1 := by
  match x, hl with
  | [], _ => simp
  | [a], _ => simp

mutual
/-- On cubes the points of an entity are those of the unit cube of its dimension. -/
theorem inEntity_cube : ∀ {c : Cell}, IsCube c → ∀ {d : Dim} {n : Nat}, (d, n) ∈ c.topology → ∀ x : List K,
    InEntity c d x ↔ x.length = d.total ∧ ∀ a ∈ x, 0 ≤ a ∧ a ≤ 1
  | .simplex m, hc, d, n, hd, x => by
    simp only [IsCube] at hc
    simp only [Cell.topology, List.mem_map, List.mem_range, Prod.mk.injEq] at hd
    obtain ⟨k, hk, rfl, _⟩ := hd
    simp only [InEntity, Dim.total]
    constructor
    · rintro ⟨h1, h2, h3⟩
      refine ⟨h1, fun a ha => ⟨h2 a ha, (sum_le_one_of_length (by omega)).1 h3 a ha⟩⟩
    · rintro ⟨h1, h2⟩
      exact ⟨h1, fun a ha => (h2 a ha).1, (sum_le_one_of_length (by omega)).2 fun a ha => (h2 a ha).2⟩
  | .quad, _, d, n, hd, x => by
    have hd' : ∃ k, d = .int k := by
      rw [Cell.topology_quad_eq] at hd
      simp only [List.mem_map, Prod.mk.injEq] at hd
      obtain ⟨k, _, h, _⟩ := hd
      exact ⟨k, h.symm⟩
    obtain ⟨k, rfl⟩ := hd'
    simp only [InEntity, Dim.total]
  | .hex, _, d, n, hd, x => by
    have hd' : ∃ k, d = .int k := by
      rw [Cell.topology_hex_eq] at hd
      simp only [List.mem_map, Prod.mk.injEq] at hd
      obtain ⟨k, _, h, _⟩ := hd
      exact ⟨k, h.symm⟩
    obtain ⟨k, rfl⟩ := hd'
    simp only [InEntity, Dim.total]
  | .prod cs, hc, d, n, hd, x => by
    simp only [IsCube] at hc
    simp only [Cell.topology, Cell.prodTop, List.mem_map, Prod.mk.injEq] at hd
    obtain ⟨ps, hps, rfl, _⟩ := hd
    simp only [InEntity, Dim.total]
    exact inEntityL_cube hc hps x
theorem inEntityL_cube : ∀ {cs : List Cell}, IsCubeL cs → ∀ {ps : List (Dim × Nat)},
    ps ∈ product (Cell.topologyL cs) → ∀ x : List K,
    InEntityL cs (ps.map Prod.fst) x ↔ x.length = Dim.totalL (ps.map Prod.fst) ∧ ∀ a ∈ x, 0 ≤ a ∧ a ≤ 1
  | [], _, ps, hps, x => by
    simp only [Cell.topologyL, product_nil, List.mem_singleton] at hps
    subst hps
    simp only [List.map_nil, InEntityL, Dim.totalL]
    constructor
    · rintro rfl; simp
    · exact fun h => List.length_eq_zero_iff.1 h.1
  | c :: cs, hc, ps, hps, x => by
    simp only [IsCubeL] at hc
    simp only [Cell.topologyL, product_cons, List.mem_flatMap, List.mem_map] at hps
    obtain ⟨p, hp, qs, hqs, rfl⟩ := hps
    have h1 := fun y : List K => inEntity_cube hc.1 (d := p.1) (n := p.2) hp y
    have h2 := fun y : List K => inEntityL_cube hc.2 hqs y
    simp only [List.map_cons, InEntityL, Dim.totalL, h1, h2, List.length_take, List.length_drop]
    constructor
    · rintro ⟨⟨a1, a2⟩, b1, b2⟩
      refine ⟨by omega, fun a ha => ?_⟩
      rw [← List.take_append_drop p.1.total x, List.mem_append] at ha
      exact ha.elim (a2 a) (b2 a)
    · rintro ⟨a1, a2⟩
      exact ⟨⟨by omega, fun a ha => a2 a (List.mem_of_mem_take ha)⟩, by omega,
        fun a ha => a2 a (List.mem_of_mem_drop ha)⟩
end

/-! ### Lists of elements with their supports -/

/-- An element with its cell and its support. -/
structure SFac where
  e : Elem
  c : Cell
  d : EntityDofs

/-- The data of one part. -/
structure SFac.OK (φ : LeafVals K) (s : SFac) : Prop where
  cell : s.e.cell = .ok s.c
  support : SupportOf φ s.e s.c s.d

theorem Spec.SupportOf.bound {e : Elem} {c : Cell} {d : EntityDofs} (h : SupportOf φ e c d) :
    ∀ v ∈ allDofs d, v < e.spaceDim := by
  intro v hv
  have := (allDofs_perm_top h.covers c.topology_nodup).mem_iff.1 hv
  obtain ⟨p, hp, hv⟩ := List.mem_flatMap.1 this
  obtain ⟨k, hk, hv⟩ := List.mem_flatMap.1 hv
  exact ((h.listed p.1 p.2 hp k (List.mem_range.1 hk) v).1 hv).1

/-- As factor of a product. -/
def SFac.fac (s : SFac) : PFactor := ⟨s.e.spaceDim, s.c.topology, s.d⟩

theorem SFac.OK.fac {s : SFac} (h : s.OK φ) : s.fac.OK :=
  ⟨h.support.covers, s.c.topology_nodup, h.support.bound⟩

theorem cellL_map : ∀ {L : List SFac}, (∀ s ∈ L, s.OK φ) → Elem.cellL (L.map SFac.e) = .ok (L.map SFac.c)
  | [], _ => rfl
  | s :: L, h => by
    have h1 := (h s List.mem_cons_self).cell
    have h2 := cellL_map fun t ht => h t (List.mem_cons_of_mem s ht)
    simp [Elem.cellL, h1, h2, bind, Except.bind, pure, Except.pure]

theorem spaceDimL_map (L : List SFac) : Elem.spaceDimL (L.map SFac.e) = (L.map SFac.fac).map (·.n) := by
  induction L with
  | nil => rfl
  | cons s L ih => simp [Elem.spaceDimL, ih, SFac.fac]

/-! ### Products -/

theorem prod_nonvanishing : ∀ (L : List SFac) (Es : List (Dim × Nat)) (ks : List Nat),
    (∀ s ∈ L, s.OK φ) → L.length = Es.length → L.length = ks.length →
    ((∃ x z, InEntityL (L.map SFac.c) (Es.map Prod.fst) x ∧
        InRange z (L.map fun s => vshape s.e).flatten ∧
        prodValue φ (L.map SFac.e) (List.replicate (Cell.spatialDimL (L.map SFac.c)) 0) Es x
          (List.zipWith (fun f k => unravel f.indexShape k) (L.map SFac.e) ks).flatten z ≠ 0) ↔
      ∀ t ∈ L.zip (Es.zip ks), NonVanishing φ t.1.e t.1.c t.2.1 t.2.2)
  | [], [], [], _, _, _ => by
    simp only [List.map_nil, List.flatten_nil, prodValue, List.zip_nil_left, List.not_mem_nil, false_implies,
      implies_true, iff_true]
    exact ⟨[], [], by simp [InEntityL], .nil, one_ne_zero⟩
  | s :: L, E :: Es, k :: ks, h, h1, h2 => by
    have hs := h s List.mem_cons_self
    have ih := prod_nonvanishing L Es ks (fun t ht => h t (List.mem_cons_of_mem s ht)) (by simpa using h1)
      (by simpa using h2)
    have hsd := sdim_eq hs.cell
    have hkl : (unravel s.e.indexShape k).length = s.e.indexShape.length := by
      have : ∀ (t : List Nat) (k : Nat), (unravel t k).length = t.length := by
        intro t
        induction t with
        | nil => intro k; rfl
        | cons n t ih => intro k; simp [unravel, ih]
      exact this _ _
    simp only [List.map_cons, List.zip_cons_cons, List.forall_mem_cons, ← ih]
    simp only [List.flatten_cons, List.zipWith_cons_cons, prodValue, Cell.spatialDimL, hsd]
    constructor
    · rintro ⟨x, z, hx, hz, hne⟩
      simp only [InEntityL] at hx
      have hz1 := (InB.split hz).1
      have hz2 := (InB.split hz).2
      rw [← hkl, List.take_left, List.drop_left, List.take_replicate, List.drop_replicate] at hne
      have e1 : min s.c.spatialDim (s.c.spatialDim + Cell.spatialDimL (L.map SFac.c)) = s.c.spatialDim := by omega
      have e2 : s.c.spatialDim + Cell.spatialDimL (L.map SFac.c) - s.c.spatialDim =
        Cell.spatialDimL (L.map SFac.c) := by omega
      rw [e1, e2] at hne
      exact ⟨⟨_, _, hx.1, hz1, left_ne_zero_of_mul hne⟩, _, _, hx.2, hz2, right_ne_zero_of_mul hne⟩
    · rintro ⟨⟨x1, z1, hx1, hz1, hn1⟩, x2, z2, hx2, hz2, hn2⟩
      refine ⟨x1 ++ x2, z1 ++ z2, inEntityL_append hx1 hx2, InB.append hz1 hz2, ?_⟩
      have hzl : z1.length = (vshape s.e).length := hz1.length_eq
      have hxl := inEntity_length hx1
      rw [← hkl, List.take_left, List.drop_left, ← hzl, List.take_left, List.drop_left, List.take_replicate,
        List.drop_replicate, ← hxl, List.take_left, List.drop_left]
      have e1 : min s.c.spatialDim (s.c.spatialDim + Cell.spatialDimL (L.map SFac.c)) = s.c.spatialDim := by omega
      have e2 : s.c.spatialDim + Cell.spatialDimL (L.map SFac.c) - s.c.spatialDim =
        Cell.spatialDimL (L.map SFac.c) := by omega
      rw [e1, e2]
      exact mul_ne_zero hn1 hn2
  | [], _ :: _, _, _, h1, _ => by simp at h1
  | _ :: _, [], _, _, h1, _ => by simp at h1
  | [], [], _ :: _, _, _, h2 => by simp at h2
  | _ :: _, _ :: _, [], _, _, h2 => by simp at h2

theorem mem_pick : ∀ (L : List SFac) (ps : List (Dim × Nat)) (ei ks : List Nat), (∀ s ∈ L, s.OK φ) →
    ps ∈ product (Cell.topologyL (L.map SFac.c)) → List.Forall₂ (fun i n => i < n) ei (ps.map Prod.snd) →
    (ks ∈ product (pick (L.map SFac.fac) ps ei) ↔
      List.Forall₂ (fun k n => k < n) ks (Elem.spaceDimL (L.map SFac.e)) ∧
      ∀ t ∈ L.zip (((ps.map Prod.fst).zip ei).zip ks), NonVanishing φ t.1.e t.1.c t.2.1 t.2.2)
  | [], ps, ei, ks, _, hps, hei => by
    simp only [List.map_nil, Cell.topologyL, product_nil, List.mem_singleton] at hps
    subst hps
    cases hei
    simp [pick, Elem.spaceDimL]
  | s :: L, ps, ei, ks, h, hps, hei => by
    simp only [List.map_cons, Cell.topologyL, product_cons, List.mem_flatMap, List.mem_map] at hps
    obtain ⟨p, hp, qs, hqs, rfl⟩ := hps
    simp only [List.map_cons] at hei
    cases hei with
    | cons hi hei =>
      rename_i i ei
      have ih := fun ks => mem_pick L qs ei ks (fun t ht => h t (List.mem_cons_of_mem s ht)) hqs hei
      have hs := (h s List.mem_cons_self).support
      rw [pick_eq] at ih ⊢
      simp only [List.map_cons, List.zip_cons_cons, List.zipWith_cons_cons, product_cons, List.mem_flatMap, List.mem_map,
        Elem.spaceDimL]
      cases ks with
      | nil => simp
      | cons k ks =>
        simp only [List.cons.injEq, List.forall₂_cons, List.zip_cons_cons, List.forall_mem_cons]
        have e1 := hs.listed p.1 p.2 hp i hi k
        constructor
        · rintro ⟨a, ha, b, hb, rfl, rfl⟩
          have h1 := e1.1 ha
          have h2 := (ih b).1 hb
          exact ⟨⟨h1.1, h2.1⟩, h1.2, h2.2⟩
        · rintro ⟨⟨a1, a2⟩, b1, b2⟩
          exact ⟨k, e1.2 ⟨a1, b1⟩, ks, (ih ks).2 ⟨a2, b2⟩, rfl, rfl⟩

theorem product_nodup : ∀ {ls : List (List Nat)}, (∀ l ∈ ls, l.Nodup) → (product ls).Nodup
  | [], _ => by simp
  | l :: ls, h => by
    have ih := product_nodup fun m hm => h m (List.mem_cons_of_mem l hm)
    have hl := h l List.mem_cons_self
    rw [product_cons, List.nodup_flatMap]
    constructor
    · intro a _
      exact ih.map fun x y hxy => by simpa using hxy
    · refine hl.imp fun {a b} hab x hx hy => ?_
      simp only [List.mem_map] at hx hy
      obtain ⟨u, _, rfl⟩ := hx
      obtain ⟨v, _, hv⟩ := hy
      exact hab (by simp only [List.cons.injEq] at hv; exact hv.1.symm)

theorem support_tensorProduct {L : List SFac} (h : ∀ s ∈ L, s.OK φ) {vs : List Nat}
    (hv : (Elem.tensorProduct (L.map SFac.e)).valueShape = .ok vs) :
    ∃ d, productise (Elem.spaceDimL (L.map SFac.e)) ((L.map SFac.c).map fun c => c.topology.map Prod.fst)
        (L.map SFac.d) = .ok d ∧ SupportOf φ (.tensorProduct (L.map SFac.e)) (.prod (L.map SFac.c)) d := by
  have hok : ∀ f ∈ L.map SFac.fac, f.OK := by
    intro f hf
    obtain ⟨s, hs, rfl⟩ := List.mem_map.1 hf
    exact (h s hs).fac
  have htop : Cell.topologyL (L.map SFac.c) = (L.map SFac.fac).map (·.top) := by
    rw [topologyL_eq]; simp [SFac.fac, Function.comp_def]
  refine ⟨_, Eq.trans ?_ (productise_eq hok), ?_⟩
  · rw [spaceDimL_map]; simp [SFac.fac, Function.comp_def]
  · have hvs : vshape (.tensorProduct (L.map SFac.e)) = (L.map fun s => vshape s.e).flatten := by
      rw [vshape_eq hv]
      simp only [Elem.valueShape, bind_ok] at hv
      obtain ⟨ss, hss, hpv⟩ := hv
      rw [prodValueShape_flatten hpv]
      congr 1
      clear hpv htop hok h
      induction L generalizing ss with
      | nil => simp only [List.map_nil, Elem.valueShapeL, Except.ok.injEq] at hss; subst hss; rfl
      | cons s L ih =>
        obtain ⟨s', ss', h1, h2, rfl⟩ := valueShapeL_cons hss
        simp [vshape_eq h1, ih ss' h2]
    have hlt : ∀ qs ∈ product (Cell.topologyL (L.map SFac.c)), ∀ k < (qs.map Prod.snd).prod, ∀ ks,
        List.Forall₂ (fun k n => k < n) ks (Elem.spaceDimL (L.map SFac.e)) →
        (NonVanishing φ (.tensorProduct (L.map SFac.e)) (.prod (L.map SFac.c)) (.tup (qs.map Prod.fst), k)
          (ravel (Elem.spaceDimL (L.map SFac.e)) ks) ↔
          ∀ t ∈ L.zip (((qs.map Prod.fst).zip (unravel (qs.map Prod.snd) k)).zip ks),
            NonVanishing φ t.1.e t.1.c t.2.1 t.2.2) := by
      intro qs hqs k hk ks hks
      have hql : L.length = qs.length := by
        have := (mem_product.1 hqs).length_eq
        rw [topologyL_eq] at this
        simpa using this.symm
      have hul : (unravel (qs.map Prod.snd) k).length = qs.length := by
        simpa using (unravel_bounds hk).length_eq
      have hkl : L.length = ks.length := by
        have := hks.length_eq
        rw [spaceDimL_map] at this
        simpa using this.symm
      rw [← prod_nonvanishing L _ ks h (by simp [hql, hul]) hkl]
      have hfe : factorEnts (L.map SFac.e) (.tup (qs.map Prod.fst), k) =
          (qs.map Prod.fst).zip (unravel (qs.map Prod.snd) k) := by
        unfold factorEnts
        rw [cellL_map h]
        simp only [bind, Except.bind]
        rw [factorEntity_eq hqs hk]
      have hfst : ((qs.map Prod.fst).zip (unravel (qs.map Prod.snd) k)).map Prod.fst = qs.map Prod.fst := by
        rw [List.map_fst_zip]; simp [hul]
      unfold NonVanishing
      simp only [InEntity, hvs, basisValue, hfe, hfst, Elem.indexShape, unravel_flatten _ _ hks, Cell.spatialDim]
    refine ⟨?_, ?_, ?_⟩
    · simp only [Cell.topology, htop]
      exact covers_productise _
    · intro dim n hd k hk
      simp only [Cell.topology, Cell.prodTop, List.mem_map, Prod.mk.injEq] at hd
      obtain ⟨qs, hqs, rfl, rfl⟩ := hd
      have hb := unravel_bounds hk
      have hdof := dofsOn_productise hok (by rw [← htop]; exact hqs) hb
      rw [ravel_unravel hk] at hdof
      rw [hdof, List.nodup_map_iff_inj_on]
      · intro a ha b hb' hab
        have h1 := ((mem_pick L qs _ a h hqs hb).1 ha).1
        have h2 := ((mem_pick L qs _ b h hqs hb).1 hb').1
        rw [← spaceDimL_map] at hab
        rw [← unravel_ravel h1, ← unravel_ravel h2, hab]
      · apply product_nodup
        intro l hl
        have : ∀ (L : List SFac) (qs : List (Dim × Nat)) (ei : List Nat), (∀ s ∈ L, s.OK φ) →
            qs ∈ product (Cell.topologyL (L.map SFac.c)) → List.Forall₂ (fun i n => i < n) ei (qs.map Prod.snd) →
            ∀ l ∈ pick (L.map SFac.fac) qs ei, l.Nodup := by
          intro L
          induction L with
          | nil => intro qs ei _ _ _ l hl; simp [pick] at hl
          | cons s L ih =>
            intro qs ei h hqs hei l hl
            simp only [List.map_cons, Cell.topologyL, product_cons, List.mem_flatMap, List.mem_map] at hqs
            obtain ⟨p, hp, qs, hqs, rfl⟩ := hqs
            simp only [List.map_cons] at hei
            cases hei with
            | cons hi hei =>
              rename_i i ei
              rw [pick_eq] at hl
              simp only [List.map_cons, List.zip_cons_cons, List.zipWith_cons_cons, List.mem_cons] at hl
              rcases hl with rfl | hl
              · exact (h s List.mem_cons_self).support.nodup p.1 p.2 hp i hi
              · rw [← pick_eq] at hl
                exact ih qs ei (fun t ht => h t (List.mem_cons_of_mem s ht)) hqs hei l hl
        exact this L qs _ h hqs hb l hl
    · intro dim n hd k hk j
      simp only [Cell.topology, Cell.prodTop, List.mem_map, Prod.mk.injEq] at hd
      obtain ⟨qs, hqs, rfl, rfl⟩ := hd
      have hb := unravel_bounds hk
      have hdof := dofsOn_productise hok (by rw [← htop]; exact hqs) hb
      rw [ravel_unravel hk] at hdof
      rw [hdof, ← spaceDimL_map]
      simp only [List.mem_map, Elem.spaceDim]
      constructor
      · rintro ⟨ks, hks, rfl⟩
        have h1 := (mem_pick L qs _ ks h hqs hb).1 hks
        exact ⟨ravel_lt h1.1, (hlt qs hqs k hk ks h1.1).2 h1.2⟩
      · rintro ⟨hj, hnv⟩
        have hks := unravel_bounds hj
        refine ⟨_, (mem_pick L qs _ _ h hqs hb).2 ⟨hks, ?_⟩, ravel_unravel hj⟩
        refine (hlt qs hqs k hk _ hks).1 ?_
        rw [ravel_unravel hj]
        exact hnv

/-! ### Sums -/

theorem sum_nonvanishing {c : Cell} {vs : List Nat} {ent : Dim × Nat} {n : Nat} (hE : (ent.1, n) ∈ c.topology)
    (hk : ent.2 < n) : ∀ (L : List SFac) (off j : Nat), (∀ s ∈ L, s.OK φ) → (∀ s ∈ L, s.c = c) →
    (∀ s ∈ L, s.e.valueShape = .ok vs) →
    (j ∈ shiftedConcat off (L.map fun s => (s.e.spaceDim, dofsOn s.d ent.1 ent.2)) ↔
      off ≤ j ∧ j < off + (Elem.spaceDimL (L.map SFac.e)).sum ∧
      ∃ x z, InEntity c ent.1 x ∧ InRange z vs ∧
        sumValue φ (L.map SFac.e) (List.replicate c.spatialDim 0) ent x (j - off) z ≠ 0)
  | [], off, j, _, _, _ => by
    simp only [List.map_nil, shiftedConcat, Elem.spaceDimL, List.sum_nil, List.not_mem_nil, false_iff, not_and]
    intro h1 h2
    omega
  | s :: L, off, j, h, hc, hv => by
    have ih := sum_nonvanishing hE hk L (off + s.e.spaceDim) j (fun t ht => h t (List.mem_cons_of_mem s ht))
      (fun t ht => hc t (List.mem_cons_of_mem s ht)) fun t ht => hv t (List.mem_cons_of_mem s ht)
    have hs := (h s List.mem_cons_self).support
    rw [hc s List.mem_cons_self] at hs
    have hl := fun i => hs.listed ent.1 n hE ent.2 hk i
    simp only [NonVanishing, vshape_eq (hv s List.mem_cons_self)] at hl
    simp only [List.map_cons, shiftedConcat, List.mem_append, List.mem_map, ih, hl, Elem.spaceDimL, List.sum_cons,
      sumValue]
    constructor
    · rintro (⟨i, ⟨hi, x, z, hx, hz, hne⟩, rfl⟩ | ⟨h1, h2, x, z, hx, hz, hne⟩)
      · refine ⟨by omega, by omega, x, z, hx, hz, ?_⟩
        rw [Nat.add_sub_cancel_left, if_pos hi]
        exact hne
      · refine ⟨by omega, by omega, x, z, hx, hz, ?_⟩
        rw [if_neg (by omega), Nat.sub_sub]
        exact hne
    · rintro ⟨h1, h2, x, z, hx, hz, hne⟩
      by_cases hj : j - off < s.e.spaceDim
      · rw [if_pos hj] at hne
        exact .inl ⟨j - off, ⟨hj, x, z, hx, hz, hne⟩, by omega⟩
      · rw [if_neg hj, Nat.sub_sub] at hne
        exact .inr ⟨by omega, by omega, x, z, hx, hz, hne⟩

theorem shiftedConcat_nodup : ∀ (l : List (Nat × List Nat)) (off : Nat),
    (∀ p ∈ l, p.2.Nodup ∧ ∀ v ∈ p.2, v < p.1) → (shiftedConcat off l).Nodup
  | [], _, _ => by simp [shiftedConcat]
  | (n, b) :: l, off, h => by
    have ih := shiftedConcat_nodup l (off + n) fun p hp => h p (List.mem_cons_of_mem _ hp)
    have hb := h (n, b) List.mem_cons_self
    simp only [shiftedConcat]
    rw [List.nodup_append]
    refine ⟨hb.1.map fun x y hxy => by simpa using hxy, ih, ?_⟩
    intro x hx y hy hxy
    obtain ⟨v, hv, rfl⟩ := List.mem_map.1 hx
    have h1 := shiftedConcat_ge l (off + n) y hy
    have h2 := hb.2 v hv
    simp only at h2
    omega

theorem support_enriched {L : List SFac} {c : Cell} {vs : List Nat} (h : ∀ s ∈ L, s.OK φ)
    (hc : ∀ s ∈ L, s.c = c) (hv : ∀ s ∈ L, s.e.valueShape = .ok vs)
    (hvs : (Elem.enriched (L.map SFac.e)).valueShape = .ok vs) :
    ∃ d, concatenateEntityDofs c.topology (Elem.spaceDimL (L.map SFac.e)) (L.map SFac.d) = .ok d ∧
      SupportOf φ (.enriched (L.map SFac.e)) c d := by
  have hcov : ∀ x ∈ L.map fun s => (s.e.spaceDim, s.d), Covers x.2 c.topology := by
    intro x hx
    obtain ⟨s, hs, rfl⟩ := List.mem_map.1 hx
    have := (h s hs).support.covers
    rwa [hc s hs] at this
  have hsh : ∀ dim e, ((cumsum0 ((L.map fun s => (s.e.spaceDim, s.d)).map Prod.fst)).zip
      ((L.map fun s => (s.e.spaceDim, s.d)).map Prod.snd)).flatMap (fun x => (dofsOn x.2 dim e).map (x.1 + ·)) =
      shiftedConcat 0 (L.map fun s => (s.e.spaceDim, dofsOn s.d dim e)) := by
    intro dim e
    have := shifted_eq 0 (L.map fun s => (s.e.spaceDim, s.d)) fun d => dofsOn d dim e
    rw [cumsum0, this, List.map_map]
    rfl
  refine ⟨_, Eq.trans ?_ (concatenateEntityDofs_eq c.topology_nodup (L.map fun s => (s.e.spaceDim, s.d)) hcov), ?_⟩
  · rw [spaceDimL_map]; simp [SFac.fac, Function.comp_def]
  · refine ⟨build_covers _ _, ?_, ?_⟩
    · intro dim n hd k hk
      rw [build_dofsOn c.topology_nodup _ hd hk, hsh]
      apply shiftedConcat_nodup
      intro p hp
      obtain ⟨s, hs, rfl⟩ := List.mem_map.1 hp
      have hsu := (h s hs).support
      rw [hc s hs] at hsu
      exact ⟨hsu.nodup dim n hd k hk, fun v hv => ((hsu.listed dim n hd k hk v).1 hv).1⟩
    · intro dim n hd k hk j
      rw [build_dofsOn c.topology_nodup _ hd hk, hsh, sum_nonvanishing (ent := (dim, k)) hd hk L 0 j h hc hv]
      simp only [Nat.zero_le, true_and, Nat.zero_add, Elem.spaceDim, NonVanishing, vshape_eq hvs, basisValue,
        Elem.indexShape, Nat.sub_zero]
      constructor
      · rintro ⟨hj, x, z, hx, hz, hne⟩
        refine ⟨hj, x, z, hx, hz, ?_⟩
        simpa [unravel, Nat.mod_eq_of_lt hj] using hne
      · rintro ⟨hj, x, z, hx, hz, hne⟩
        refine ⟨hj, x, z, hx, hz, ?_⟩
        simpa [unravel, Nat.mod_eq_of_lt hj] using hne

/-! ### Flattening, mixed elements and wrappers -/

theorem support_flattened {p : Elem} {c cf : Cell} {d : EntityDofs} (h : SupportOf φ p c d) (hcube : IsCube c)
    (hc : p.cell = .ok c) (hcf : (Elem.flattened p).cell = .ok cf) :
    SupportOf φ (.flattened p) cf (flattenEntities d) := by
  have hcf' := hcf
  simp only [Elem.cell, hc, bind, Except.bind] at hcf'
  have hsd : cf.spatialDim = c.spatialDim := by
    split at hcf'
    · rename_i h2; cases hcf'; rw [h2]; rfl
    · split at hcf'
      · rename_i h3; cases hcf'; rw [h3]; rfl
      · cases hcf'
  have hcfe : cf = .quad ∨ cf = .hex := by
    split at hcf'
    · cases hcf'; exact .inl rfl
    · split at hcf'
      · cases hcf'; exact .inr rfl
      · cases hcf'
  have htop := cube_topology ((isCube_iff c).1 hcube) hcf'
  have hcov : Covers (flattenEntities d) cf.topology := by
    rw [← htop]; exact covers_flatten h.covers c.topology_nodup
  have hcubef : IsCube cf := by rcases hcfe with rfl | rfl <;> simp [IsCube]
  have key : ∀ dim n, (dim, n) ∈ cf.topology → ∀ k < n, ∃ E : Dim × Nat, (∃ m, (E.1, m) ∈ c.topology ∧ E.2 < m) ∧
      dofsOn (flattenEntities d) dim k = dofsOn d E.1 E.2 ∧
      ∀ j, NonVanishing φ (.flattened p) cf (dim, k) j ↔ NonVanishing φ p c E j := by
    intro dim n hd k hk
    have hint : ∃ t, dim = .int t := by
      rcases hcfe with rfl | rfl
      · rw [Cell.topology_quad_eq] at hd
        simp only [List.mem_map, Prod.mk.injEq] at hd
        obtain ⟨t, _, ht, _⟩ := hd
        exact ⟨t, ht.symm⟩
      · rw [Cell.topology_hex_eq] at hd
        simp only [List.mem_map, Prod.mk.injEq] at hd
        obtain ⟨t, _, ht, _⟩ := hd
        exact ⟨t, ht.symm⟩
    obtain ⟨t, rfl⟩ := hint
    obtain ⟨ents, g1, g2, g3⟩ := Covers.get hcov cf.topology_nodup hd
    have hv := hasVals_flatten (Covers.hasVals h.covers c.topology_nodup) c.topology_nodup t
    rw [g1] at hv
    split at hv
    · cases hv
      rw [valsOf_eq] at g3
      have hl : ((entList c.topology).filter fun x => x.1.total = t).length = n := by
        have := g3.length_eq
        simpa [enumFrom_keys] using this
      obtain ⟨x, hx⟩ : ∃ x, ((entList c.topology).filter fun x => x.1.total = t)[k]? = some x :=
        ⟨_, List.getElem?_eq_getElem (by omega)⟩
      have hu : (computeUnflatteningMap (topDict c.topology)).get? (t, k) = some x := by
        rw [computeUnflatteningMap_get?]; exact hx
      have hmem := List.mem_of_getElem? hx
      rw [List.mem_filter, mem_entList] at hmem
      refine ⟨x, hmem.1, dofsOn_flatten h.covers c.topology_nodup hu, fun j => ?_⟩
      have htot : x.1.total = t := by simpa using hmem.2
      have hpe : productEnt p (.int t, k) = x := by
        unfold productEnt unflattenEntity
        have := Dict.get_eq_ok_iff.2 hu
        simp only [hc, bind, Except.bind, flattenedEntity, Option.getD_some]
        unfold topDict at this
        rw [this]
      obtain ⟨m, hm, _⟩ := hmem.1
      have hin : ∀ y : List K, InEntity cf (.int t) y ↔ InEntity c x.1 y := by
        intro y
        rw [inEntity_cube hcubef hd, inEntity_cube hcube hm, htot, Dim.total]
      have hvsh : vshape (.flattened p) = vshape p := rfl
      unfold NonVanishing
      simp only [hin, basisValue, hpe, hsd, Elem.indexShape, hvsh]
    · cases hv
  refine ⟨hcov, ?_, ?_⟩
  · intro dim n hd k hk
    obtain ⟨E, ⟨m, hm, hlt⟩, h1, _⟩ := key dim n hd k hk
    rw [h1]
    exact h.nodup _ _ hm _ hlt
  · intro dim n hd k hk j
    obtain ⟨E, ⟨m, hm, hlt⟩, h1, h2⟩ := key dim n hd k hk
    rw [h1, h2 j, h.listed _ _ hm _ hlt]
    simp only [Elem.spaceDim]

/-- Elements with the same dofs and the same non-vanishing functions. -/
theorem Spec.SupportOf.transfer {e e' : Elem} {c : Cell} {d : EntityDofs} (h : SupportOf φ e c d)
    (hs : e'.spaceDim = e.spaceDim)
    (hn : ∀ ent j, j < e.spaceDim → (NonVanishing φ e' c ent j ↔ NonVanishing φ e c ent j)) :
    SupportOf φ e' c d where
  covers := h.covers
  nodup := h.nodup
  listed dim n hd k hk j := by
    rw [h.listed dim n hd k hk j, hs]
    exact and_congr_right fun hj => (hn _ j hj).symm

theorem nonvanishing_mixedSub {e : Elem} {size offset : Nat} {vs : List Nat} (hv : e.valueShape = .ok vs)
    (hfit : offset + vs.prod ≤ size) (c : Cell) (ent : Dim × Nat) (j : Nat) :
    NonVanishing φ (.mixedSub e size offset) c ent j ↔ NonVanishing φ e c ent j := by
  have h1 : vshape (.mixedSub e size offset) = [size] := rfl
  unfold NonVanishing
  simp only [h1, vshape_eq hv, basisValue, Elem.indexShape]
  constructor
  · rintro ⟨x, z, hx, hz, hne⟩
    split at hne
    · rename_i hr
      exact ⟨x, _, hx, unravel_bounds (shape := vs) (by omega), hne⟩
    · exact absurd rfl hne
  · rintro ⟨x, z, hx, hz, hne⟩
    have hlt := ravel_lt hz
    refine ⟨x, [offset + ravel vs z], hx, .cons (by omega) .nil, ?_⟩
    rw [List.headD_cons, if_pos ⟨by omega, by omega⟩, Nat.add_sub_cancel_left, unravel_ravel hz]
    exact hne

theorem nonvanishing_wrap {e w : Elem} (sel : Except Err (List Comp)) {comps : List Comp} {vs : List Nat}
    {c : Cell} (hsel : sel = .ok comps) (hval : ∀ α ent x i z, basisValue φ e α ent x i z =
      wrapValue sel (basisValue φ w α ent x i) (z.headD 0)) (hidx : e.indexShape = w.indexShape)
    (hve : vshape e = [comps.length]) (hvw : w.valueShape = .ok vs)
    (hin : ∀ neg ix, Comp.entry neg ix ∈ comps → InRange ix vs)
    (hall : ∀ ix, InRange ix vs → ∃ neg, Comp.entry neg ix ∈ comps) (ent : Dim × Nat) (j : Nat) :
    NonVanishing φ e c ent j ↔ NonVanishing φ w c ent j := by
  unfold NonVanishing
  simp only [hval, hidx, hve, vshape_eq hvw, hsel]
  constructor
  · rintro ⟨x, z, hx, hz, hne⟩
    refine ⟨x, ?_⟩
    simp only [wrapValue] at hne
    split at hne
    · exact absurd rfl hne
    · rename_i cmp hcmp
      have hm := List.mem_of_getElem? hcmp
      match cmp, hm, hne with
      | .zero, _, hne => exact absurd rfl hne
      | .entry false ix, hm, hne => exact ⟨ix, hx, hin _ _ hm, hne⟩
      | .entry true ix, hm, hne => exact ⟨ix, hx, hin _ _ hm, fun h0 => hne (by simp [compValue, h0])⟩
  · rintro ⟨x, z, hx, hz, hne⟩
    obtain ⟨neg, hm⟩ := hall z hz
    obtain ⟨k, hk⟩ := List.mem_iff_getElem?.1 hm
    have hlt : k < comps.length := (List.getElem?_eq_some_iff.1 hk).1
    refine ⟨x, [k], hx, .cons hlt .nil, ?_⟩
    simp only [wrapValue, List.headD_cons, hk]
    cases neg
    · exact hne
    · simpa [compValue] using hne

end FInAT
