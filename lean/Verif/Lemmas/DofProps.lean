import Verif.Lemmas.ElemDofs
import Verif.Model.Closure

/-! # Lemmas for the dof properties -/

namespace FInAT

open Spec

/-! ### enriched -/

/-- Concatenation of blocks shifted by the sizes of the preceding blocks. -/
theorem shifted_eq (acc : Nat) (xs : List (Nat × EntityDofs)) (f : EntityDofs → List Nat) :
    ((cumsum0.go acc (xs.map Prod.fst)).zip (xs.map Prod.snd)).flatMap
        (fun x => (f x.2).map (x.1 + ·)) =
      shiftedConcat acc (xs.map fun x => (x.1, f x.2)) := by
  induction xs generalizing acc with
  | nil => simp [shiftedConcat]
  | cons x xs ih =>
    simp only [List.map_cons, cumsum0.go, List.zip_cons_cons, List.flatMap_cons, shiftedConcat]
    rw [ih]

theorem concatenate_general {top : List (Dim × Nat)} (hn : (top.map Prod.fst).Nodup)
    (els : List (Nat × EntityDofs))
    (h : ∀ x ∈ els, x.2.keys.Nodup ∧ ∀ q ∈ x.2, q.2.keys.Nodup ∧
      ∃ n, (q.1, n) ∈ top ∧ ∀ r ∈ q.2, r.1 < n) :
    concatenateEntityDofs top (els.map Prod.fst) (els.map Prod.snd) =
      .ok (build top fun dim e =>
        shiftedConcat 0 (els.map fun x => (x.1, dofsOn x.2 dim e))) := by
  unfold concatenateEntityDofs
  simp only
  rw [emptyDofs_eq_build]
  have key : ∀ (l : List (Nat × EntityDofs)) (g : Dim → Nat → List Nat),
      (∀ x ∈ l, x.2.keys.Nodup ∧ ∀ q ∈ x.2, q.2.keys.Nodup ∧
        ∃ n, (q.1, n) ∈ top ∧ ∀ r ∈ q.2, r.1 < n) →
      l.foldlM (fun acc p => concatenateOne acc p.1 p.2) (build top g) =
        .ok (build top fun dim e => g dim e ++ l.flatMap fun x => (dofsOn x.2 dim e).map (x.1 + ·)) := by
    intro l
    induction l with
    | nil => intro g _; simp [pure, Except.pure]
    | cons x l ih =>
      intro g hl
      obtain ⟨hk, hq⟩ := hl x (by simp)
      rw [List.foldlM_cons, concatenateOne_build hn g x.1 (fun q hqm => (hq q hqm).2)]
      simp only [bind, Except.bind]
      rw [ih _ fun y hy => hl y (by simp [hy])]
      congr 1
      unfold build
      apply List.map_congr_left
      intro p _
      congr 1
      apply List.map_congr_left
      intro e _
      beta_reduce
      rw [collect_eq hk (fun ents hm => (hq _ hm).1)]
      simp [List.append_assoc]
  have hz : ∀ x ∈ (cumsum0 (els.map Prod.fst)).zip (els.map Prod.snd), x.2.keys.Nodup ∧
      ∀ q ∈ x.2, q.2.keys.Nodup ∧ ∃ n, (q.1, n) ∈ top ∧ ∀ r ∈ q.2, r.1 < n := by
    intro x hx
    have := (List.of_mem_zip hx).2
    obtain ⟨y, hy, h2⟩ := List.mem_map.1 this
    rw [← h2]
    exact h y hy
  rw [key _ _ hz]
  congr 2
  funext dim e
  simp only [List.nil_append, cumsum0]
  exact shifted_eq 0 els fun d => dofsOn d dim e

/-! ### tensor product -/

theorem dofsOn_productise {fs : List PFactor} (hf : ∀ f ∈ fs, f.OK) {ps : List (Dim × Nat)}
    (hps : ps ∈ product (fs.map (·.top))) {ei : List Nat}
    (hei : List.Forall₂ (fun i n => i < n) ei (ps.map Prod.snd)) :
    dofsOn ((product (fs.map (·.top))).map fun ps => (Dim.tup (ps.map Prod.fst),
        enumFrom 0 ((ndindex (ps.map Prod.snd)).map fun ei =>
          (product (pick fs ps ei)).map (ravel (fs.map (·.n))))))
      (.tup (ps.map Prod.fst)) (ravel (ps.map Prod.snd) ei) =
      (product (pick fs ps ei)).map (ravel (fs.map (·.n))) := by
  have hnd : (Dict.keys ((product (fs.map (·.top))).map fun ps => (Dim.tup (ps.map Prod.fst),
        enumFrom 0 ((ndindex (ps.map Prod.snd)).map fun ei =>
          (product (pick fs ps ei)).map (ravel (fs.map (·.n))))))).Nodup := by
    have := prodTop_nodup (tops := fs.map (·.top)) (by
      intro t ht
      obtain ⟨f, hfm, rfl⟩ := List.mem_map.1 ht
      exact (hf f hfm).nodup)
    simpa [Cell.prodTop, Dict.keys, List.map_map, Function.comp_def] using this
  unfold dofsOn
  rw [Dict.get?_eq_some_of_mem hnd (List.mem_map.2 ⟨ps, hps, rfl⟩), Option.bind_some,
    enumFrom_zero_get?, List.getElem?_map]
  have hlt := ravel_lt hei
  rw [ndindex_eq_map_unravel, List.getElem?_map, List.getElem?_range hlt]
  simp only [Option.map_some, Option.getD_some, unravel_ravel hei]

theorem pick_eq (fs : List PFactor) : ∀ (ps : List (Dim × Nat)) (ei : List Nat),
    pick fs ps ei = List.zipWith (fun d (x : Dim × Nat) => dofsOn d x.1 x.2) (fs.map (·.d))
      ((ps.map Prod.fst).zip ei) := by
  unfold pick
  induction fs with
  | nil => simp
  | cons f fs ih =>
    intro ps ei
    cases ps with
    | nil => simp
    | cons p ps =>
      cases ei with
      | nil => simp
      | cons e ei => simp [ih]

theorem mem_productTop_dims {tops : List (List (Dim × Nat))} {ps : List (Dim × Nat)}
    (h : ps ∈ product tops) : ((Dim.tup (ps.map Prod.fst)), (ps.map Prod.snd).prod) ∈ Cell.prodTop tops :=
  List.mem_map.2 ⟨ps, h, rfl⟩

theorem topologyL_eq (cs : List Cell) : Cell.topologyL cs = cs.map Cell.topology := by
  induction cs with
  | nil => rfl
  | cons c cs ih => simp [Cell.topologyL, ih]

/-- `_factor_entity` on a well-formed dimension tuple. -/
theorem factorEntity_shape : ∀ {cs : List Cell} {ps : List (Dim × Nat)},
    ps ∈ product (Cell.topologyL cs) →
    ((cs.zip (ps.map Prod.fst)).mapM fun p => Dict.get p.1.topology p.2) =
      (.ok (ps.map Prod.snd) : Except Err (List Nat))
  | [], ps, h => by
    simp only [Cell.topologyL, product_nil, List.mem_singleton] at h
    subst h; rfl
  | c :: cs, ps, h => by
    simp only [Cell.topologyL, product_cons, List.mem_flatMap, List.mem_map] at h
    obtain ⟨p, hp, qs, hqs, rfl⟩ := h
    have ih := factorEntity_shape hqs
    simp only [List.map_cons, List.zip_cons_cons, List.mapM_cons]
    have hg : Dict.get c.topology p.1 = .ok p.2 :=
      Dict.get_eq_ok_iff.2 (Dict.get?_eq_some_of_mem (c.topology_nodup) hp)
    rw [hg, ih]
    rfl

theorem factorEntity_eq {cs : List Cell} {ps : List (Dim × Nat)}
    (h : ps ∈ product (Cell.topologyL cs)) {k : Nat} (hk : k < (ps.map Prod.snd).prod) :
    factorEntity cs (some (.tup (ps.map Prod.fst), k)) =
      .ok ((ps.map Prod.fst).zip (unravel (ps.map Prod.snd) k)) := by
  have hlen : ps.length = cs.length := by
    rw [length_of_mem_product h, topologyL_eq, List.length_map]
  unfold factorEntity
  simp only [Option.getD_some, List.length_map, hlen, if_true]
  rw [factorEntity_shape h]
  simp [bind, Except.bind, unravelIndex, hk, pure, Except.pure]

/-! ### enriched normal form -/

theorem enrichedParts_mkEnriched {es : List Elem} (h : ∀ e ∈ es, FlatEnriched e) :
    enrichedParts (mkEnriched es) = es.flatMap enrichedParts := by
  have hparts : ∀ x ∈ es.flatMap enrichedParts, ¬ IsEnriched x := by
    intro x hx
    obtain ⟨e, he, hxe⟩ := List.mem_flatMap.1 hx
    have hf := h e he
    cases e with
    | enriched ys => exact hf x hxe
    | _ => simp only [enrichedParts, List.mem_singleton] at hxe; subst hxe; exact id
  unfold mkEnriched
  generalize es.flatMap enrichedParts = l at hparts
  match l with
  | [] => rfl
  | [e] =>
    have := hparts e (by simp)
    cases e with
    | enriched ys => exact absurd trivial this
    | _ => rfl
  | e :: e' :: l => rfl

theorem flat_mkEnriched {es : List Elem} (h : ∀ e ∈ es, FlatEnriched e) :
    FlatEnriched (mkEnriched es) := by
  have hparts : ∀ x ∈ es.flatMap enrichedParts, ¬ IsEnriched x := by
    intro x hx
    obtain ⟨e, he, hxe⟩ := List.mem_flatMap.1 hx
    have hf := h e he
    cases e with
    | enriched ys => exact hf x hxe
    | _ => simp only [enrichedParts, List.mem_singleton] at hxe; subst hxe; exact id
  unfold mkEnriched
  generalize es.flatMap enrichedParts = l at hparts
  match l with
  | [] => exact fun x hx => by simp at hx
  | [e] =>
    have := hparts e (by simp)
    cases e with
    | enriched ys => exact absurd trivial this
    | _ => trivial
  | e :: e' :: l => exact hparts

/-! ### closures -/

theorem closure_eq {subs : EntityMap (List (Dim × Nat))} {d : EntityDofs} {top : List (Dim × Nat)}
    (hn : (top.map Prod.fst).Nodup) (hd : Covers d top)
    (hs : ∀ p ∈ subs, ∀ q ∈ p.2, ∀ x ∈ q.2, ∃ n, (x.1, n) ∈ top ∧ x.2 < n) :
    entityClosureDofs subs d = .ok (subs.map fun p => (p.1, p.2.map fun q =>
      (q.1, sortNat (q.2.flatMap fun x => dofsOn d x.1 x.2)))) := by
  unfold entityClosureDofs
  refine mapM_ok fun p hp => ?_
  have h1 : (p.2.mapM fun q => do
      let ls ← q.2.mapM fun x => do
        let m ← d.get x.1
        m.get x.2
      pure (q.1, sortNat ls.flatten)) = (.ok (p.2.map fun q =>
        (q.1, sortNat (q.2.flatMap fun x => dofsOn d x.1 x.2))) : Except Err _) := by
    refine mapM_ok fun q hq => ?_
    have h2 : (q.2.mapM fun x => do
        let m ← d.get x.1
        m.get x.2) = (.ok (q.2.map fun x => dofsOn d x.1 x.2) : Except Err _) := by
      refine mapM_ok fun x hx => ?_
      obtain ⟨n, hnm, hlt⟩ := hs p hp q hq x hx
      obtain ⟨ents, g1, _, g3⟩ := Covers.get hd hn hnm
      obtain ⟨l, hl, _⟩ := get?_of_perm_range g3 hlt
      simp only [Dict.get_eq_ok_iff.2 g1, bind, Except.bind, Dict.get_eq_ok_iff.2 hl]
      simp [dofsOn, g1, hl]
    rw [h2]
    simp [bind, Except.bind, pure, Except.pure, List.flatMap_def]
  rw [h1]
  rfl

end FInAT
