import Verif.Lemmas.TabSem
import Verif.Props.Dofs

/-!
# Which points and entities are admitted

Unstructured points on any entity of the cell, and point expressions on the cell, are admitted by
every element tree.
-/

namespace FInAT

open Spec Elem Props

/-- `ent` is an entity of the cell. -/
def IsEntity (c : Cell) (ent : Dim × Nat) : Prop := ∃ n, (ent.1, n) ∈ c.topology ∧ ent.2 < n

mutual
/-- Flattened products live on cubes. -/
def Cubes : Elem → Prop
  | .leaf _ => True
  | .tensorProduct fs => CubesL fs
  | .flattened p => Cubes p ∧ ∀ c, p.cell = .ok c → IsCube c
  | .enriched es => CubesL es
  | .mixedSub e _ _ => Cubes e
  | .discontinuous e => Cubes e
  | .tensorFE e _ _ => Cubes e
  | .hdiv w => Cubes w
  | .hcurl w => Cubes w
  | .quadrature _ _ _ => True
/-- ... for lists. -/
def CubesL : List Elem → Prop
  | [] => True
  | e :: es => Cubes e ∧ CubesL es
end

mutual
/-- Every FIAT leaf satisfies `L`; there are no quadrature elements. -/
def AllLeaves (L : Leaf → Prop) : Elem → Prop
  | .leaf l => L l
  | .tensorProduct fs => AllLeavesL L fs
  | .flattened p => AllLeaves L p
  | .enriched es => AllLeavesL L es
  | .mixedSub e _ _ => AllLeaves L e
  | .discontinuous e => AllLeaves L e
  | .tensorFE e _ _ => AllLeaves L e
  | .hdiv w => AllLeaves L w
  | .hcurl w => AllLeaves L w
  | .quadrature _ _ _ => False
/-- ... for lists. -/
def AllLeavesL (L : Leaf → Prop) : List Elem → Prop
  | [] => True
  | e :: es => AllLeaves L e ∧ AllLeavesL L es
end

theorem isEntity_factor {cs : List Cell} {ent : Dim × Nat} (h : IsEntity (.prod cs) ent) :
    ∃ ents, factorEntity cs (some ent) = .ok ents ∧ List.Forall₂ IsEntity cs ents ∧
      (ents.map fun x => x.1.total).sum = ent.1.total := by
  obtain ⟨n, hd, hk⟩ := h
  obtain ⟨d, k⟩ := ent
  simp only [Cell.topology, Cell.prodTop] at hd
  obtain ⟨ps, hps, heq⟩ := List.mem_map.1 hd
  simp only [Prod.mk.injEq] at heq
  obtain ⟨rfl, rfl⟩ := heq
  simp only at hk
  refine ⟨_, factorEntity_eq hps hk, ?_, ?_⟩
  · have hb := unravel_bounds hk
    have hm := mem_product.1 hps
    rw [topologyL_eq, List.forall₂_map_right_iff] at hm
    generalize unravel (ps.map Prod.snd) k = ei at hb
    clear hps hd hk
    induction hm generalizing ei with
    | nil => simp
    | cons hp _ ih =>
      cases hb with
      | cons h1 h2 => exact .cons ⟨_, hp, h1⟩ (ih _ h2)
  · have hlen : (unravel (ps.map Prod.snd) k).length = (ps.map Prod.fst).length := by
      simpa using (unravel_bounds hk).length_eq
    simp only [Dim.total, Cell.totalL_eq]
    rw [show (fun x : Dim × Nat => x.1.total) = Dim.total ∘ Prod.fst from rfl, ← List.map_map,
      List.map_fst_zip (by omega)]

theorem isEntity_unflatten {p : Elem} {c cf : Cell} {ent : Dim × Nat} (hc : p.cell = .ok c)
    (hcf : (Elem.flattened p).cell = .ok cf) (hcube : IsCube c) (h : IsEntity cf ent) :
    ∃ ent', unflattenEntity p (some ent) = .ok ent' ∧ IsEntity c ent' ∧ ent'.1.total = ent.1.total := by
  obtain ⟨n, hd, hk⟩ := h
  obtain ⟨d, k⟩ := ent
  have hcf' : (Elem.flattened (.quadrature 0 c [])).cell = .ok cf := by
    simp only [Elem.cell, hc] at hcf ⊢
    exact hcf
  obtain ⟨_, _, _, _, hall⟩ := C06_flattened_entities (.quadrature 0 c []) c
    ⟨trivial, fun c' hc' => by simp only [Elem.cell, Except.ok.injEq] at hc'; exact hc' ▸ hcube⟩ rfl cf hcf'
  have hint : ∃ t, d = .int t := by
    have : cf = .quad ∨ cf = .hex := by
      simp only [Elem.cell, bind, Except.bind] at hcf'
      split at hcf'
      · cases hcf'; exact .inl rfl
      · split at hcf'
        · cases hcf'; exact .inr rfl
        · cases hcf'
    rcases this with rfl | rfl
    · rw [Cell.topology_quad_eq] at hd
      obtain ⟨t, _, h⟩ := List.mem_map.1 hd
      exact ⟨t, (congrArg Prod.fst h).symm⟩
    · rw [Cell.topology_hex_eq] at hd
      obtain ⟨t, _, h⟩ := List.mem_map.1 hd
      exact ⟨t, (congrArg Prod.fst h).symm⟩
  obtain ⟨t, rfl⟩ := hint
  obtain ⟨dim, e, h1, h2, h3, _⟩ := hall t n hd k hk
  refine ⟨(dim, e), ?_, h2, h3⟩
  simp only [unflattenEntity, hc, bind, Except.bind, h1]

section
variable {K : Type} [CommRing K] {P : Type} {I : Interp K P} {φ : LeafVals K}

mutual
/-- A family of points and entities that can be split at products and unflattened is admitted. -/
theorem admits_of (S : Sem I φ) (order : Nat) (Q : P → Nat → Prop) (G : Cell → Dim × Nat → Prop)
    (hprod : ∀ cs ent p, G (.prod cs) ent → Q p ent.1.total → ∃ ents ps,
      factorEntity cs (some ent) = .ok ents ∧ List.Forall₂ G cs ents ∧
      (∀ m, I.factor cs (ents.map Prod.fst) p m = .ok (ps, m)) ∧
      List.Forall₂ (fun q (x : Dim × Nat) => Q q x.1.total) ps ents)
    (hflat : ∀ p c cf ent, p.cell = .ok c → (Elem.flattened p).cell = .ok cf → IsCube c → G cf ent →
      ∃ ent', unflattenEntity p (some ent) = .ok ent' ∧ G c ent' ∧ ent'.1.total = ent.1.total)
    (hforget : ∀ p d, Q p d → Q (I.forget p) d)
    (L : Leaf → Prop) (hleaf : ∀ l p ent, L l → G l.cell ent → Q p ent.1.total → S.leafOK l order p ent) :
    ∀ e p ent c, Cubes e → AllLeaves L e → e.cell = .ok c → G c ent → Q p ent.1.total →
      Admits S order e p ent
  | .leaf l, p, ent, c, _, hl, hc, hg, hq => by
    simp only [Elem.cell, Except.ok.injEq] at hc
    subst hc
    exact hleaf l p ent hl hg hq
  | .tensorProduct fs, p, ent, c, hcu, hl, hc, hg, hq => by
    simp only [Elem.cell, bind, Except.bind] at hc
    cases hcs : Elem.cellL fs with
    | error e => rw [hcs] at hc; cases hc
    | ok cs =>
      rw [hcs] at hc
      cases hc
      obtain ⟨ents, ps, h1, h2, h3, h4⟩ := hprod cs ent p hg hq
      simp only [Admits]
      exact ⟨cs, ents, ps, hcs, h1, h3,
        admits_of_zip S order Q G hprod hflat hforget L hleaf fs ps ents cs hcu hl hcs h2 h4⟩
  | .flattened q, p, ent, c, hcu, hl, hc, hg, hq => by
    have hc0 : ∃ c0, q.cell = .ok c0 := by
      cases h : q.cell with
      | ok c0 => exact ⟨c0, rfl⟩
      | error e => simp only [Elem.cell, h, bind, Except.bind] at hc; cases hc
    obtain ⟨c0, hc0⟩ := hc0
    simp only [Cubes] at hcu
    simp only [AllLeaves] at hl
    obtain ⟨ent', h1, h2, h3⟩ := hflat q c0 c ent hc0 hc (hcu.2 c0 hc0) hg
    simp only [Admits]
    exact ⟨ent', h1, admits_of S order Q G hprod hflat hforget L hleaf q _ ent' c0 hcu.1 hl hc0 h2
      (hforget _ _ (h3 ▸ hq))⟩
  | .enriched es, p, ent, c, hcu, hl, hc, hg, hq => by
    simp only [Admits]
    simp only [Elem.cell, bind, Except.bind] at hc
    cases hcs : Elem.cellL es with
    | error e => rw [hcs] at hc; cases hc
    | ok cs =>
      rw [hcs] at hc
      exact admits_of_list S order Q G hprod hflat hforget L hleaf es p ent cs c hcu hl hcs
        (uniqueOf_mem hc).2 hg hq
  | .mixedSub e _ _, p, ent, c, hcu, hl, hc, hg, hq => by
    simp only [Admits]
    exact admits_of S order Q G hprod hflat hforget L hleaf e p ent c hcu hl hc hg hq
  | .discontinuous e, p, ent, c, hcu, hl, hc, hg, hq => by
    simp only [Admits]
    exact admits_of S order Q G hprod hflat hforget L hleaf e p ent c hcu hl hc hg hq
  | .tensorFE e _ _, p, ent, c, hcu, hl, hc, hg, hq => by
    simp only [Admits]
    exact admits_of S order Q G hprod hflat hforget L hleaf e p ent c hcu hl hc hg hq
  | .hdiv w, p, ent, c, hcu, hl, hc, hg, hq => by
    simp only [Admits]
    exact admits_of S order Q G hprod hflat hforget L hleaf w _ ent c hcu hl hc hg (hforget _ _ hq)
  | .hcurl w, p, ent, c, hcu, hl, hc, hg, hq => by
    simp only [Admits]
    exact admits_of S order Q G hprod hflat hforget L hleaf w _ ent c hcu hl hc hg (hforget _ _ hq)
  | .quadrature _ _ _, _, _, _, _, hl, _, _, _ => by
    simp only [AllLeaves] at hl
theorem admits_of_zip (S : Sem I φ) (order : Nat) (Q : P → Nat → Prop) (G : Cell → Dim × Nat → Prop)
    (hprod : ∀ cs ent p, G (.prod cs) ent → Q p ent.1.total → ∃ ents ps,
      factorEntity cs (some ent) = .ok ents ∧ List.Forall₂ G cs ents ∧
      (∀ m, I.factor cs (ents.map Prod.fst) p m = .ok (ps, m)) ∧
      List.Forall₂ (fun q (x : Dim × Nat) => Q q x.1.total) ps ents)
    (hflat : ∀ p c cf ent, p.cell = .ok c → (Elem.flattened p).cell = .ok cf → IsCube c → G cf ent →
      ∃ ent', unflattenEntity p (some ent) = .ok ent' ∧ G c ent' ∧ ent'.1.total = ent.1.total)
    (hforget : ∀ p d, Q p d → Q (I.forget p) d)
    (L : Leaf → Prop) (hleaf : ∀ l p ent, L l → G l.cell ent → Q p ent.1.total → S.leafOK l order p ent) :
    ∀ fs ps ents cs, CubesL fs → AllLeavesL L fs → Elem.cellL fs = .ok cs → List.Forall₂ G cs ents →
      List.Forall₂ (fun q (x : Dim × Nat) => Q q x.1.total) ps ents → AdmitsZip S order fs ps ents
  | [], ps, ents, cs, _, _, hc, hg, hq => by
    simp only [Elem.cellL, Except.ok.injEq] at hc
    subst hc
    cases hg
    cases hq
    simp only [AdmitsZip]
  | f :: fs, ps, ents, cs, hcu, hl, hc, hg, hq => by
    obtain ⟨c, cs', h1, h2, rfl⟩ := cellL_cons hc
    simp only [CubesL] at hcu
    simp only [AllLeavesL] at hl
    match ents, ps, hg, hq with
    | _ :: _, _ :: _, .cons g1 g2, .cons q1 q2 =>
      simp only [AdmitsZip]
      exact ⟨admits_of S order Q G hprod hflat hforget L hleaf f _ _ c hcu.1 hl.1 h1 g1 q1,
        admits_of_zip S order Q G hprod hflat hforget L hleaf fs _ _ cs' hcu.2 hl.2 h2 g2 q2⟩
theorem admits_of_list (S : Sem I φ) (order : Nat) (Q : P → Nat → Prop) (G : Cell → Dim × Nat → Prop)
    (hprod : ∀ cs ent p, G (.prod cs) ent → Q p ent.1.total → ∃ ents ps,
      factorEntity cs (some ent) = .ok ents ∧ List.Forall₂ G cs ents ∧
      (∀ m, I.factor cs (ents.map Prod.fst) p m = .ok (ps, m)) ∧
      List.Forall₂ (fun q (x : Dim × Nat) => Q q x.1.total) ps ents)
    (hflat : ∀ p c cf ent, p.cell = .ok c → (Elem.flattened p).cell = .ok cf → IsCube c → G cf ent →
      ∃ ent', unflattenEntity p (some ent) = .ok ent' ∧ G c ent' ∧ ent'.1.total = ent.1.total)
    (hforget : ∀ p d, Q p d → Q (I.forget p) d)
    (L : Leaf → Prop) (hleaf : ∀ l p ent, L l → G l.cell ent → Q p ent.1.total → S.leafOK l order p ent) :
    ∀ es p ent cs c, CubesL es → AllLeavesL L es → Elem.cellL es = .ok cs → (∀ c' ∈ cs, c' = c) →
      G c ent → Q p ent.1.total → AdmitsL S order es p ent
  | [], p, ent, cs, c, _, _, _, _, _, _ => by simp only [AdmitsL]
  | e :: es, p, ent, cs, c, hcu, hl, hc, hall, hg, hq => by
    obtain ⟨c1, cs', h1, h2, rfl⟩ := cellL_cons hc
    simp only [CubesL] at hcu
    simp only [AllLeavesL] at hl
    have h3 := hall c1 List.mem_cons_self
    simp only [AdmitsL]
    exact ⟨admits_of S order Q G hprod hflat hforget L hleaf e p ent c hcu.1 hl.1 (h3 ▸ h1) hg hq,
      admits_of_list S order Q G hprod hflat hforget L hleaf es p ent cs' c hcu.2 hl.2 h2
        (fun c' h => hall c' (List.mem_cons_of_mem _ h)) hg hq⟩
end

end

/-! ### Unstructured points -/

section
variable {K : Type} [CommRing K] [DecidableEq K]

/-- An unstructured set of points of the given dimension: a nonempty `PointSet` (one point index), or a
part of one. -/
def PlainPoints (p : PSet K) (d : Nat) : Prop :=
  ∃ pts idx, p = .points .plain pts idx ∧ pts ≠ [] ∧ ∀ pt ∈ pts, pt.length = d

omit [CommRing K] [DecidableEq K] in
theorem plain_split {p : PSet K} {cs : List Cell} {ents : List (Dim × Nat)} (hlen : cs.length = ents.length)
    (h : PlainPoints p (ents.map fun x => x.1.total).sum) :
    ∃ ps, factorPointSet cs (ents.map Prod.fst) p = .ok ps ∧
      List.Forall₂ (fun q (x : Dim × Nat) => PlainPoints q x.1.total) ps ents := by
  obtain ⟨pts, idx, rfl, hne, hd⟩ := h
  have hdim : PSet.dimension (.points .plain pts idx) = .ok (ents.map fun x => x.1.total).sum := by
    cases pts with
    | nil => exact absurd rfl hne
    | cons pt pts => simp [PSet.dimension, PSet.pts, hd pt List.mem_cons_self]
  refine ⟨(splitLens (ents.map fun x => x.1.total) (List.range (ents.map fun x => x.1.total).sum)).map
    fun cols => .points .plain (pts.map fun pt => cols.filterMap fun c => pt[c]?) idx, ?_, ?_⟩
  · have hm : (ents.map Prod.fst).map Dim.total = ents.map fun x => x.1.total := by
      rw [List.map_map]; rfl
    unfold factorPointSet
    rw [if_neg (by simp [hlen])]
    simp only [hdim, bind, Except.bind, hm]
    rw [if_neg (by simp)]
    rfl
  · rw [List.forall₂_map_left_iff]
    have key : ∀ (ents : List (Dim × Nat)) (l : List Nat) (D : Nat),
        l.length = (ents.map fun x => x.1.total).sum → (∀ i ∈ l, i < D) → (∀ pt ∈ pts, pt.length = D) →
        List.Forall₂ (fun cols (x : Dim × Nat) => PlainPoints (PSet.points .plain
          (pts.map fun pt => cols.filterMap fun c => pt[c]?) idx) x.1.total)
          (splitLens (ents.map fun x => x.1.total) l) ents := by
      intro ents
      induction ents with
      | nil => intro l D _ _ _; exact .nil
      | cons x ents ih =>
        intro l D hl hi hD
        simp only [List.map_cons, List.sum_cons] at hl
        refine .cons ⟨_, _, rfl, by simpa using hne, ?_⟩ (ih _ D (by simp; omega)
          (fun i h => hi i (List.mem_of_mem_drop h)) hD)
        intro q hq
        obtain ⟨pt, hpt, rfl⟩ := List.mem_map.1 hq
        rw [filterMap_getElem_range pt _ (fun c hc => by
          rw [hD pt hpt]; exact hi c (List.mem_of_mem_take hc))]
        simp
        omega
    have := key ents (List.range (ents.map fun x => x.1.total).sum) _ (by simp)
      (fun i h => List.mem_range.1 h) hd
    exact this

/-- What a FIAT leaf has to satisfy to be tabulated on unstructured points of an entity. -/
def PlainLeafOK (F : Fiat K) (order : Nat) (l : Leaf) : Prop :=
  ∀ p ent, IsEntity l.cell ent → PlainPoints p ent.1.total →
    F.mapped l = none ∧ LeafOK F l order p ent

/-- Every element tree can be tabulated at unstructured points on any entity of its cell. -/
theorem admits_plain (F : Fiat K) (R : Rules K) (order : Nat) (e : Elem) (p : PSet K) (ent : Dim × Nat)
    (c : Cell) (hcube : Cubes e) (hl : AllLeaves (PlainLeafOK F order) e) (hc : e.cell = .ok c)
    (hent : IsEntity c ent) (hp : PlainPoints p ent.1.total) :
    Admits (basisSem F R) order e p ent := by
  refine admits_of (basisSem F R) order PlainPoints IsEntity ?_ ?_ (fun _ _ h => h) (PlainLeafOK F order)
    (fun l p ent h hi hq => h p ent hi hq) e p ent c hcube hl hc hent hp
  · intro cs ent p hg hq
    obtain ⟨ents, h1, h2, h3⟩ := isEntity_factor hg
    rw [← h3] at hq
    obtain ⟨ps, h4, h5⟩ := plain_split h2.length_eq hq
    exact ⟨ents, ps, h1, h2, fun m => by simp only [basisInterp, liftE, h4]; rfl, h5⟩
  · intro p c cf ent hc hcf hcube hg
    exact isEntity_unflatten hc hcf hcube hg

end

end FInAT
