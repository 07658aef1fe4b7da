import Verif.Model.Perms
import Verif.Spec.Perms
import Verif.Props.Dofs

/-!
# C11: entity permutations of enriched elements; C60: degrees of enriched elements
-/

namespace FInAT.Props

open FInAT Spec Elem

/-! ## C11 -/

section merge
variable {κ ν μ : Type} [DecidableEq κ]

theorem get?_foldl_set (f : Option ν → μ → ν) :
    ∀ (d : Dict κ μ) (acc : Dict κ ν) (k : κ), d.keys.Nodup →
      Dict.get? (d.foldl (fun acc q => acc.set q.1 (f (acc.get? q.1) q.2)) acc) k =
        match d.get? k with
        | none => acc.get? k
        | some v => some (f (acc.get? k) v)
  | [], acc, k, _ => rfl
  | (k', v) :: d, acc, k, h => by
    simp only [Dict.keys, List.map_cons, List.nodup_cons] at h
    simp only [List.foldl_cons]
    rw [get?_foldl_set f d _ k h.2]
    by_cases hk : k' = k
    · subst hk
      have hn : Dict.get? d k' = none := by
        cases hg : Dict.get? d k' with
        | none => rfl
        | some v' => exact absurd (List.mem_map_of_mem (f := Prod.fst) (Dict.mem_of_get?_eq_some hg)) h.1
      simp only [hn, Dict.get?, if_true]
      rw [Dict.get?_set]; simp
    · simp only [Dict.get?, hk, if_false]
      have : Dict.get? (acc.set k' (f (acc.get? k') v)) k = acc.get? k := by
        rw [Dict.get?_set]; simp [hk]
      rw [this]

end merge

/-- What one more element does to the permutation stored under a key. -/
def extend (old new : Option (List Nat)) : Option (List Nat) :=
  match new with
  | none => old
  | some p => some (old.getD [] ++ p.map ((old.getD []).length + ·))

theorem concatDimPerms_on (acc d : PermMap) (h : DictKeys d) (dim : Dim) (e : Nat) (o : Dim) :
    permOn (concatDimPerms acc d) dim e o = extend (permOn acc dim e o) (permOn d dim e o) := by
  unfold permOn concatDimPerms
  rw [get?_foldl_set (fun old v => concatEntityPerms (old.getD []) v) d acc dim h.1]
  cases hd : Dict.get? d dim with
  | none => simp [extend]
  | some x =>
    have hx := h.2 _ (Dict.mem_of_get?_eq_some hd)
    simp only [Option.bind_some]
    unfold concatEntityPerms
    rw [get?_foldl_set (fun old v => concatOrientations (old.getD []) v) x _ e hx.1]
    cases he : Dict.get? x e with
    | none =>
      cases Dict.get? acc dim with
      | none => simp [extend, Dict.get?]
      | some y => simp [extend]
    | some y =>
      have hy := hx.2 _ (Dict.mem_of_get?_eq_some he)
      simp only [Option.bind_some]
      unfold concatOrientations
      rw [get?_foldl_set (fun old (p : List Nat) => old.getD [] ++ p.map ((old.getD []).length + ·)) y _ o hy]
      have hacc : Dict.get? ((Dict.get? ((Dict.get? acc dim).getD []) e).getD []) o =
          ((Dict.get? acc dim).bind fun x => Dict.get? x e).bind fun x => Dict.get? x o := by
        cases Dict.get? acc dim with
        | none => simp [Dict.get?]
        | some z =>
          simp only [Option.getD_some, Option.bind_some]
          cases Dict.get? z e with
          | none => simp [Dict.get?]
          | some w => simp
      cases ho : Dict.get? y o with
      | none => simp [extend, hacc]
      | some p => simp [extend, hacc]

theorem shiftedConcat_append (a : Nat) (xs ys : List (Nat × List Nat)) :
    shiftedConcat a (xs ++ ys) = shiftedConcat a xs ++ shiftedConcat (a + (xs.map Prod.fst).sum) ys := by
  induction xs generalizing a with
  | nil => simp [shiftedConcat]
  | cons x xs ih => simp [shiftedConcat, ih, Nat.add_assoc]

theorem blocks_length (ps : List (List Nat)) : (blocks ps).length = (ps.map List.length).sum := by
  have : ∀ a, (shiftedConcat a (ps.map fun p => (p.length, p))).length = (ps.map List.length).sum := by
    induction ps with
    | nil => intro a; simp [shiftedConcat]
    | cons p ps ih => intro a; simp [shiftedConcat, ih]
  exact this 0

theorem blocks_snoc (ps : List (List Nat)) (p : List Nat) :
    blocks (ps ++ [p]) = blocks ps ++ p.map ((blocks ps).length + ·) := by
  rw [blocks_length]
  unfold blocks
  rw [List.map_append, shiftedConcat_append]
  simp [shiftedConcat, List.map_map, Function.comp_def]

/-- **C11.** For every dimension, entity and orientation the enriched element has an entry exactly when
some sub-element has one, and the entry is the concatenation of the sub-elements' lists, each shifted
by the number of entries before it. -/
theorem C11_blocks (ds : List PermMap) (h : ∀ d ∈ ds, DictKeys d) (dim : Dim) (e : Nat) (o : Dim) :
    permOn (concatenateEntityPermutations ds) dim e o =
      match ds.filterMap fun d => permOn d dim e o with
      | [] => none
      | ps => some (blocks ps) := by
  unfold concatenateEntityPermutations
  induction ds using List.reverseRecOn with
  | nil => rfl
  | append_singleton ds d ih =>
    rw [List.foldl_append]
    simp only [List.foldl_cons, List.foldl_nil]
    rw [concatDimPerms_on _ _ (h d (by simp)), ih fun x hx => h x (by simp [hx]), List.filterMap_append]
    cases hp : permOn d dim e o with
    | none => simp [extend, hp]
    | some p =>
      simp only [List.filterMap_cons, List.filterMap_nil, hp]
      cases hps : ds.filterMap fun d => permOn d dim e o with
      | nil => simp [extend, blocks, shiftedConcat]
      | cons q qs =>
        simp only [extend, Option.getD_some, List.cons_append]
        rw [← List.cons_append, blocks_snoc]

theorem blocks_perm (ps : List (List Nat)) (h : ∀ p ∈ ps, p.Perm (List.range p.length)) :
    (blocks ps).Perm (List.range (ps.map List.length).sum) := by
  have : ∀ a, (shiftedConcat a (ps.map fun p => (p.length, p))).Perm
      ((List.range (ps.map List.length).sum).map (a + ·)) := by
    induction ps with
    | nil => intro a; simp [shiftedConcat]
    | cons p ps ih =>
      intro a
      simp only [List.map_cons, shiftedConcat, List.sum_cons, List.range_add, List.map_append, List.map_map]
      refine List.Perm.append ((h p List.mem_cons_self).map _) ?_
      have := ih (fun q hq => h q (List.mem_cons_of_mem _ hq)) (a + p.length)
      simpa [Function.comp_def, Nat.add_assoc] using this
  have h0 := this 0
  simp only [Nat.zero_add, List.map_id'] at h0
  exact h0

/-- **C11.** If the sub-elements' lists are permutations, so is the concatenated list. -/
theorem C11_permutation (ds : List PermMap) (h : ∀ d ∈ ds, DictKeys d) (dim : Dim) (e : Nat) (o : Dim)
    (hp : ∀ d ∈ ds, ∀ p, permOn d dim e o = some p → p.Perm (List.range p.length)) (q : List Nat)
    (hq : permOn (concatenateEntityPermutations ds) dim e o = some q) :
    q.Perm (List.range q.length) ∧
      q.length = ((ds.filterMap fun d => permOn d dim e o).map List.length).sum := by
  rw [C11_blocks ds h] at hq
  have hall : ∀ p ∈ ds.filterMap (fun d => permOn d dim e o), p.Perm (List.range p.length) := by
    intro p hm
    obtain ⟨d, hd, h1⟩ := List.mem_filterMap.1 hm
    exact hp d hd p h1
  have hb : q = blocks (ds.filterMap fun d => permOn d dim e o) := by
    split at hq
    · cases hq
    · exact (Option.some.inj hq).symm
  rw [hb, blocks_length]
  exact ⟨blocks_perm _ hall, rfl⟩

theorem act_length {α : Type} {p : List Nat} {l : List α} (h : ∀ i ∈ p, i < l.length) :
    (act p l).length = p.length := by
  unfold act
  induction p with
  | nil => rfl
  | cons i p ih =>
    have := h i List.mem_cons_self
    simp [List.getElem?_eq_getElem this, ih fun j hj => h j (List.mem_cons_of_mem _ hj)]

theorem act_shifted {α : Type} (pre l post : List α) (p : List Nat) (h : ∀ i ∈ p, i < l.length) :
    act (p.map (pre.length + ·)) (pre ++ (l ++ post)) = act p l := by
  unfold act
  rw [List.filterMap_map]
  apply List.filterMap_congr
  intro i hi
  have := h i hi
  simp [List.getElem?_append_right, List.getElem?_append_left this]

theorem act_blocks {α : Type} (ps : List (List Nat)) (ls : List (List α))
    (h : List.Forall₂ (fun p l => p.length = l.length ∧ ∀ i ∈ p, i < l.length) ps ls) :
    act (blocks ps) ls.flatten = (List.zipWith act ps ls).flatten := by
  have : ∀ (ps : List (List Nat)) (ls : List (List α)) (pre : List α),
      List.Forall₂ (fun p l => p.length = l.length ∧ ∀ i ∈ p, i < l.length) ps ls →
      act (shiftedConcat pre.length (ps.map fun p => (p.length, p))) (pre ++ ls.flatten) =
        (List.zipWith act ps ls).flatten := by
    intro ps
    induction ps with
    | nil => intro ls pre h; cases h; rfl
    | cons p ps ih =>
      intro ls pre h
      match ls, h with
      | l :: ls, .cons h1 h2 =>
        simp only [List.map_cons, shiftedConcat, List.zipWith_cons_cons, List.flatten_cons]
        have hr := ih ls (pre ++ l) h2
        rw [List.length_append, ← h1.1, List.append_assoc] at hr
        rw [show act (p.map (pre.length + ·) ++ shiftedConcat (pre.length + p.length) (ps.map fun p => (p.length, p)))
            (pre ++ (l ++ ls.flatten)) = act (p.map (pre.length + ·)) (pre ++ (l ++ ls.flatten)) ++
              act (shiftedConcat (pre.length + p.length) (ps.map fun p => (p.length, p))) (pre ++ (l ++ ls.flatten))
          from List.filterMap_append ..]
        rw [act_shifted pre l ls.flatten p h1.2, hr]
  have h0 := this ps ls [] h
  simp only [List.length_nil, List.nil_append] at h0
  exact h0

/-- **C11.** Applying the concatenated permutation to the dof list of an entity of the enriched element
permutes the dofs of every sub-element by its own permutation: the result is the concatenation of the
permuted (and offset) sub-lists, nothing moves between blocks. -/
theorem C11_acts_blockwise (es : List Elem) (c : Cell) (hg : GoodL es)
    (hc : (Elem.enriched es).cell = .ok c) (perms : List PermMap) (hk : ∀ d ∈ perms, DictKeys d) :
    ∃ (ds : List EntityDofs) (d : EntityDofs),
      List.Forall₂ (fun e d => e.entityDofs = .ok d) es ds ∧ (Elem.enriched es).entityDofs = .ok d ∧
      ∀ dim n, (dim, n) ∈ c.topology → ∀ k < n, ∀ o (ps : List (List Nat)),
        List.Forall₂ (fun m p => permOn m dim k o = some p) perms ps →
        List.Forall₂ (fun p d' => p.Perm (List.range (dofsOn d' dim k).length)) ps ds →
        ∀ q, permOn (concatenateEntityPermutations perms) dim k o = some q →
        act q (dofsOn d dim k) = shiftedConcat 0
          (List.zipWith (fun e x => (e.spaceDim, x)) es
            (List.zipWith (fun p d' => act p (dofsOn d' dim k)) ps ds)) := by
  obtain ⟨ds, d, h1, h2, _, h4⟩ := C03_enriched_blocks es c hg hc
  refine ⟨ds, d, h1, h2, ?_⟩
  intro dim n hn k hkn o ps hps hperm q hq
  rw [C11_blocks perms hk] at hq
  have hfm : (perms.filterMap fun m => permOn m dim k o) = ps := by
    clear * - hps
    induction hps with
    | nil => rfl
    | cons h _ ih => simp [h, ih]
  rw [hfm] at hq
  have hb : q = blocks ps := by
    split at hq
    · cases hq
    · exact (Option.some.inj hq).symm
  rw [hb, h4 dim n hn k hkn]
  -- the shifted concatenation as a flattened list of shifted lists
  have key : ∀ (es : List Elem) (ds : List EntityDofs) (ps : List (List Nat)) (a : Nat),
      List.Forall₂ (fun e d => e.entityDofs = .ok d) es ds →
      List.Forall₂ (fun p d' => p.Perm (List.range (dofsOn d' dim k).length)) ps ds →
      ∃ ls : List (List Nat),
        List.Forall₂ (fun p l => p.length = l.length ∧ ∀ i ∈ p, i < l.length) ps ls ∧
        shiftedConcat a (List.zipWith (fun e d' => (e.spaceDim, dofsOn d' dim k)) es ds) = ls.flatten ∧
        shiftedConcat a (List.zipWith (fun e x => (e.spaceDim, x)) es
            (List.zipWith (fun p d' => act p (dofsOn d' dim k)) ps ds)) = (List.zipWith act ps ls).flatten := by
    intro es
    induction es with
    | nil =>
      intro ds ps a hd hp
      cases hd; cases hp
      exact ⟨[], .nil, by simp [shiftedConcat], by simp [shiftedConcat]⟩
    | cons e es ih =>
      intro ds ps a hd hp
      match ds, ps, hd, hp with
      | d :: ds, p :: ps, .cons d1 d2, .cons p1 p2 =>
        obtain ⟨ls, l1, l2, l3⟩ := ih ds ps (a + e.spaceDim) d2 p2
        refine ⟨(dofsOn d dim k).map (a + ·) :: ls, .cons ⟨?_, ?_⟩ l1, ?_, ?_⟩
        · simpa using p1.length_eq
        · intro i hi
          simpa using p1.mem_iff.1 hi
        · simp only [List.zipWith_cons_cons, shiftedConcat, List.flatten_cons, l2]
        · simp only [List.zipWith_cons_cons, shiftedConcat, List.flatten_cons, l3]
          congr 1
          unfold act
          rw [List.map_filterMap]
          apply List.filterMap_congr
          intro i _
          simp
  obtain ⟨ls, l1, l2, l3⟩ := key es ds ps 0 h1 hperm
  rw [l2, l3]
  exact act_blocks ps ls l1

/-- Non-vacuity: CG3 + CG2 on the interval, reflected. -/
example : permOn (concatenateEntityPermutations
    [[(.int 1, [(0, [(.int 0, [0, 1]), (.int 1, [1, 0])])])],
     [(.int 1, [(0, [(.int 0, [0]), (.int 1, [0])])])],
     [(.int 1, [(0, [(.int 0, [0, 1, 2]), (.int 1, [2, 1, 0])])])]]) (.int 1) 0 (.int 1) =
    some [1, 0, 2, 5, 4, 3] := by decide

/-- Permutations of CG2 and CG1 (only the identity on vertices and on the edge of CG2). -/
def permsCG2 : PermMap := [(.int 0, [(0, [(.int 0, [0])]), (1, [(.int 0, [0])])]),
  (.int 1, [(0, [(.int 0, [0]), (.int 1, [0])])])]

example :=
  C11_acts_blockwise [.leaf cg2, .leaf cg2] (.simplex 1)
    (by simp only [GoodL, Good, and_true]; exact ⟨good_cg2, good_cg2⟩) rfl [permsCG2, permsCG2] (by
      intro d hd
      have : d = permsCG2 := by simpa using hd
      subst this
      refine ⟨by decide, ?_⟩
      decide)

/-! ## C60 -/

mutual
/-- Componentwise order of degree trees of the same shape. -/
def DegLe : DegTree → DegTree → Prop
  | .leaf m, .leaf n => m ≤ n
  | .node as, .node bs => DegLeL as bs
  | _, _ => False
/-- Entry by entry. -/
def DegLeL : List DegTree → List DegTree → Prop
  | [], [] => True
  | a :: as, b :: bs => DegLe a b ∧ DegLeL as bs
  | _, _ => False
end

mutual
/-- Two trees of the same shape. -/
def SameShape : DegTree → DegTree → Prop
  | .leaf _, .leaf _ => True
  | .node as, .node bs => SameShapeL as bs
  | _, _ => False
/-- Entry by entry. -/
def SameShapeL : List DegTree → List DegTree → Prop
  | [], [] => True
  | a :: as, b :: bs => SameShape a b ∧ SameShapeL as bs
  | _, _ => False
end

theorem le_maxList {n : Nat} : ∀ {l : List Nat}, n ∈ l → n ≤ maxList l
  | a :: l, h => by
    simp only [maxList]
    rcases List.mem_cons.1 h with rfl | h
    · exact Nat.le_max_left ..
    · exact (le_maxList h).trans (Nat.le_max_right ..)

theorem maxList_le {m : Nat} : ∀ {l : List Nat}, (∀ n ∈ l, n ≤ m) → maxList l ≤ m
  | [], _ => Nat.zero_le _
  | a :: _, h => Nat.max_le.2 ⟨h a List.mem_cons_self, maxList_le fun n hn => h n (List.mem_cons_of_mem _ hn)⟩

/-- The integer of a leaf. -/
def asLeaf : DegTree → Except Err Nat
  | .leaf m => .ok m
  | .node _ => .error .valueError

/-- The entries of a tuple of the given length. -/
def asNode (k : Nat) : DegTree → Except Err (List DegTree)
  | .leaf _ => .error .valueError
  | .node us => if us.length = k then .ok us else .error .valueError

theorem treeMax_leaf (n : Nat) (rest : List DegTree) : treeMax (.leaf n) rest = (do
    let ns ← rest.mapM asLeaf
    if ns = [] then .error .typeError else pure (.leaf (maxList (n :: ns)))) := by
  rw [treeMax]
  congr 2

theorem treeMax_node (ts : List DegTree) (rest : List DegTree) : treeMax (.node ts) rest = (do
    let tss ← rest.mapM (asNode ts.length)
    let rs ← treeMaxL ts tss
    pure (.node rs)) := by
  rw [treeMax]
  congr 2

theorem mapM_asLeaf {rest : List DegTree} {ns : List Nat} (h : rest.mapM asLeaf = .ok ns) :
    rest = ns.map .leaf := by
  induction rest generalizing ns with
  | nil => cases h; rfl
  | cons t rest ih =>
    rw [List.mapM_cons] at h
    cases t with
    | node us => cases h
    | leaf m =>
      simp only [asLeaf, bind, Except.bind] at h
      cases hr : rest.mapM asLeaf with
      | error e => rw [hr] at h; cases h
      | ok ms => rw [hr] at h; cases h; simp [ih hr]

theorem mapM_asNode {k : Nat} {rest : List DegTree} {tss : List (List DegTree)}
    (h : rest.mapM (asNode k) = .ok tss) : rest = tss.map .node ∧ ∀ us ∈ tss, us.length = k := by
  induction rest generalizing tss with
  | nil => cases h; simp
  | cons t rest ih =>
    rw [List.mapM_cons] at h
    cases t with
    | leaf us => cases h
    | node us =>
      simp only [asNode] at h
      split at h
      · next hk =>
        simp only [bind, Except.bind] at h
        cases hr : rest.mapM (asNode k) with
        | error e => rw [hr] at h; cases h
        | ok ms =>
          rw [hr] at h; cases h
          obtain ⟨i1, i2⟩ := ih hr
          simp [i1, hk]
          exact i2
      · cases h

theorem mapM_asLeaf_ok (ns : List Nat) : (ns.map DegTree.leaf).mapM asLeaf = .ok ns := by
  induction ns with
  | nil => rfl
  | cons n ns ih => rw [List.map_cons, List.mapM_cons, ih]; rfl

theorem mapM_asNode_ok {k : Nat} (tss : List (List DegTree)) (h : ∀ us ∈ tss, us.length = k) :
    (tss.map DegTree.node).mapM (asNode k) = .ok tss := by
  induction tss with
  | nil => rfl
  | cons us tss ih =>
    rw [List.map_cons, List.mapM_cons, ih fun x hx => h x (List.mem_cons_of_mem _ hx)]
    simp [asNode, h us List.mem_cons_self, bind, Except.bind, pure, Except.pure]

mutual
theorem treeMax_spec : ∀ (t : DegTree) (rest : List DegTree) (r : DegTree), treeMax t rest = .ok r →
    (∀ u ∈ t :: rest, DegLe u r) ∧ (∀ w, (∀ u ∈ t :: rest, DegLe u w) → DegLe r w) ∧
    ∀ u ∈ rest, SameShape t u
  | .leaf n, rest, r, h => by
    rw [treeMax_leaf] at h
    cases hm : rest.mapM asLeaf with
    | error e => rw [hm] at h; cases h
    | ok ns =>
      rw [hm] at h
      simp only [bind, Except.bind] at h
      split at h
      · cases h
      · cases h
        have := mapM_asLeaf hm
        subst this
        refine ⟨?_, ?_, ?_⟩
        · intro u hu
          rw [← List.map_cons (f := DegTree.leaf)] at hu
          obtain ⟨m, hm', rfl⟩ := List.mem_map.1 hu
          simp only [DegLe]
          exact le_maxList hm'
        · intro w hw
          cases w with
          | node _ => exact absurd (hw _ List.mem_cons_self) (by simp [DegLe])
          | leaf m =>
            simp only [DegLe]
            refine maxList_le fun k hk => ?_
            have := hw (.leaf k) (by rw [← List.map_cons (f := DegTree.leaf)]; exact List.mem_map_of_mem hk)
            simpa [DegLe] using this
        · intro u hu
          obtain ⟨m, _, rfl⟩ := List.mem_map.1 hu
          simp [SameShape]
  | .node ts, rest, r, h => by
    rw [treeMax_node] at h
    cases hm : rest.mapM (asNode ts.length) with
    | error e => rw [hm] at h; cases h
    | ok tss =>
      rw [hm] at h
      simp only [bind, Except.bind] at h
      obtain ⟨h1, h2⟩ := mapM_asNode hm
      cases hL : treeMaxL ts tss with
      | error e => rw [hL] at h; cases h
      | ok rs =>
        rw [hL] at h
        cases h
        subst h1
        obtain ⟨l1, l2, l3⟩ := treeMaxL_spec ts tss rs h2 hL
        refine ⟨?_, ?_, ?_⟩
        · intro u hu
          rw [← List.map_cons (f := DegTree.node)] at hu
          obtain ⟨us, hus, rfl⟩ := List.mem_map.1 hu
          simp only [DegLe]
          exact l1 us hus
        · intro w hw
          cases w with
          | leaf _ => exact absurd (hw _ List.mem_cons_self) (by simp [DegLe])
          | node ws =>
            simp only [DegLe]
            refine l2 ws fun us hus => ?_
            have := hw (.node us) (by rw [← List.map_cons (f := DegTree.node)]; exact List.mem_map_of_mem hus)
            simpa [DegLe] using this
        · intro u hu
          obtain ⟨us, hus, rfl⟩ := List.mem_map.1 hu
          simp only [SameShape]
          exact l3 us hus
theorem treeMaxL_spec : ∀ (ts : List DegTree) (tss : List (List DegTree)) (rs : List DegTree),
    (∀ us ∈ tss, us.length = ts.length) → treeMaxL ts tss = .ok rs →
    (∀ us ∈ ts :: tss, DegLeL us rs) ∧ (∀ ws, (∀ us ∈ ts :: tss, DegLeL us ws) → DegLeL rs ws) ∧
    ∀ us ∈ tss, SameShapeL ts us
  | [], tss, rs, hl, h => by
    simp only [treeMaxL] at h
    cases h
    have he : ∀ us ∈ [] :: tss, us = [] := by
      intro us hus
      rcases List.mem_cons.1 hus with rfl | hus
      · rfl
      · exact List.length_eq_zero_iff.1 (hl us hus)
    refine ⟨fun us hus => by rw [he us hus]; simp [DegLeL], fun ws hw => hw _ List.mem_cons_self, ?_⟩
    intro us hus
    rw [he us (List.mem_cons_of_mem _ hus)]
    simp [SameShapeL]
  | t :: ts, tss, rs, hl, h => by
    simp only [treeMaxL, bind, Except.bind] at h
    cases h1 : treeMax t (tss.filterMap List.head?) with
    | error e => rw [h1] at h; cases h
    | ok r =>
      rw [h1] at h
      simp only at h
      cases h2 : treeMaxL ts (tss.map List.tail) with
      | error e => rw [h2] at h; cases h
      | ok rs' =>
        rw [h2] at h
        cases h
        have hl' : ∀ us ∈ tss.map List.tail, us.length = ts.length := by
          intro us hus
          obtain ⟨vs, hvs, rfl⟩ := List.mem_map.1 hus
          simp [hl vs hvs]
        obtain ⟨a1, a2, a3⟩ := treeMax_spec t _ r h1
        obtain ⟨b1, b2, b3⟩ := treeMaxL_spec ts _ rs' hl' h2
        have hcons : ∀ us ∈ tss, ∃ v vs, us = v :: vs ∧ v ∈ tss.filterMap List.head? ∧ vs ∈ tss.map List.tail := by
          intro us hus
          cases us with
          | nil => exact absurd (hl _ hus) (by simp)
          | cons v vs =>
            exact ⟨v, vs, rfl, List.mem_filterMap.2 ⟨_, hus, rfl⟩, List.mem_map.2 ⟨_, hus, rfl⟩⟩
        refine ⟨?_, ?_, ?_⟩
        · intro us hus
          rcases List.mem_cons.1 hus with rfl | hus
          · exact ⟨a1 t List.mem_cons_self, b1 ts List.mem_cons_self⟩
          · obtain ⟨v, vs, rfl, hv, hvs⟩ := hcons us hus
            exact ⟨a1 v (List.mem_cons_of_mem _ hv), b1 vs (List.mem_cons_of_mem _ hvs)⟩
        · intro ws hw
          cases ws with
          | nil => exact absurd (hw _ List.mem_cons_self) (by simp [DegLeL])
          | cons w ws =>
            simp only [DegLeL]
            refine ⟨a2 w ?_, b2 ws ?_⟩
            · intro u hu
              rcases List.mem_cons.1 hu with rfl | hu
              · exact (hw _ List.mem_cons_self).1
              · obtain ⟨us, hus, hh⟩ := List.mem_filterMap.1 hu
                have := hw us (List.mem_cons_of_mem _ hus)
                cases us with
                | nil => cases hh
                | cons v vs => cases hh; exact this.1
            · intro us hus
              rcases List.mem_cons.1 hus with rfl | hus
              · exact (hw _ List.mem_cons_self).2
              · obtain ⟨vs, hvs, rfl⟩ := List.mem_map.1 hus
                have := hw vs (List.mem_cons_of_mem _ hvs)
                obtain ⟨v, vs', rfl, _, _⟩ := hcons vs hvs
                exact this.2
        · intro us hus
          obtain ⟨v, vs, rfl, hv, hvs⟩ := hcons us hus
          exact ⟨a3 v hv, b3 vs hvs⟩
end

theorem SameShapeL.length : ∀ {as bs : List DegTree}, SameShapeL as bs → bs.length = as.length
  | [], [], _ => rfl
  | _ :: _, _ :: _, h => by simp only [SameShapeL] at h; simp [SameShapeL.length h.2]
  | [], _ :: _, h => by simp [SameShapeL] at h
  | _ :: _, [], h => by simp [SameShapeL] at h

mutual
theorem treeMax_succeeds : ∀ (t : DegTree) (rest : List DegTree), rest ≠ [] →
    (∀ u ∈ rest, SameShape t u) → ∃ r, treeMax t rest = .ok r
  | .leaf n, rest, hne, h => by
    have : ∃ ns : List Nat, rest = ns.map DegTree.leaf := by
      clear hne
      induction rest with
      | nil => exact ⟨[], rfl⟩
      | cons u rest ih =>
        obtain ⟨ns, rfl⟩ := ih fun x hx => h x (List.mem_cons_of_mem _ hx)
        have := h u List.mem_cons_self
        cases u with
        | leaf m => exact ⟨m :: ns, rfl⟩
        | node _ => simp [SameShape] at this
    obtain ⟨ns, rfl⟩ := this
    have hns : ns ≠ [] := by rintro rfl; exact hne rfl
    rw [treeMax_leaf, mapM_asLeaf_ok]
    refine ⟨.leaf (maxList (n :: ns)), ?_⟩
    simp only [bind, Except.bind]
    rw [if_neg hns]
    rfl
  | .node ts, rest, hne, h => by
    have : ∃ tss : List (List DegTree), rest = tss.map DegTree.node ∧ ∀ us ∈ tss, SameShapeL ts us := by
      clear hne
      induction rest with
      | nil => exact ⟨[], rfl, by simp⟩
      | cons u rest ih =>
        obtain ⟨ns, rfl, hs⟩ := ih fun x hx => h x (List.mem_cons_of_mem _ hx)
        have := h u List.mem_cons_self
        cases u with
        | node us =>
          simp only [SameShape] at this
          refine ⟨us :: ns, rfl, fun x hx => ?_⟩
          rcases List.mem_cons.1 hx with rfl | hx
          · exact this
          · exact hs x hx
        | leaf _ => simp [SameShape] at this
    obtain ⟨tss, rfl, hs⟩ := this
    obtain ⟨rs, hr⟩ := treeMaxL_succeeds ts tss (by rintro rfl; exact hne rfl) hs
    rw [treeMax_node, mapM_asNode_ok tss fun us hus => (hs us hus).length]
    exact ⟨.node rs, by simp [hr, bind, Except.bind, pure, Except.pure]⟩
theorem treeMaxL_succeeds : ∀ (ts : List DegTree) (tss : List (List DegTree)), tss ≠ [] →
    (∀ us ∈ tss, SameShapeL ts us) → ∃ rs, treeMaxL ts tss = .ok rs
  | [], tss, _, _ => ⟨[], by simp [treeMaxL]⟩
  | t :: ts, tss, hne, h => by
    have hcons : ∀ us ∈ tss, ∃ v vs, us = v :: vs ∧ SameShape t v ∧ SameShapeL ts vs := by
      intro us hus
      have := h us hus
      cases us with
      | nil => simp [SameShapeL] at this
      | cons v vs => exact ⟨v, vs, rfl, this⟩
    obtain ⟨r, hr⟩ := treeMax_succeeds t (tss.filterMap List.head?) (by
      cases tss with
      | nil => exact absurd rfl hne
      | cons us tss =>
        obtain ⟨v, vs, rfl, _⟩ := hcons us List.mem_cons_self
        simp) (by
      intro u hu
      obtain ⟨us, hus, hh⟩ := List.mem_filterMap.1 hu
      obtain ⟨v, vs, rfl, hv, _⟩ := hcons us hus
      cases hh
      exact hv)
    obtain ⟨rs, hrs⟩ := treeMaxL_succeeds ts (tss.map List.tail) (by simpa using hne) (by
      intro us hus
      obtain ⟨vs, hvs, rfl⟩ := List.mem_map.1 hus
      obtain ⟨v, vs', rfl, _, h2⟩ := hcons vs hvs
      exact h2)
    exact ⟨r :: rs, by simp [treeMaxL, hr, hrs, bind, Except.bind, pure, Except.pure]⟩
end

/-- **C60.** The degree of an enriched element (when it is defined) is an upper bound of the degree
trees of the sub-elements, componentwise, and the least one. -/
theorem C60_least_upper_bound (es : List Elem) (ds : List DegTree) (t : DegTree)
    (hds : Elem.degreeL es = .ok ds) (h : (Elem.enriched es).degree = .ok t) :
    (∀ d ∈ ds, DegLe d t) ∧ ∀ u, (∀ d ∈ ds, DegLe d u) → DegLe t u := by
  simp only [Elem.degree, hds, bind, Except.bind] at h
  cases ds with
  | nil => simp [treeMapMax] at h
  | cons d ds =>
    obtain ⟨h1, h2, _⟩ := treeMax_spec d ds t h
    exact ⟨h1, h2⟩

/-- **C60.** The degree of an enriched element with at least two sub-elements is defined exactly when
all degree trees have the same shape. -/
theorem C60_defined (es : List Elem) (d d' : DegTree) (ds : List DegTree)
    (hds : Elem.degreeL es = .ok (d :: d' :: ds)) :
    (∃ t, (Elem.enriched es).degree = .ok t) ↔ ∀ u ∈ d' :: ds, SameShape d u := by
  simp only [Elem.degree, hds, bind, Except.bind, treeMapMax]
  constructor
  · rintro ⟨t, h⟩
    exact (treeMax_spec d _ t h).2.2
  · exact treeMax_succeeds d _ (by simp)

/-- Non-vacuity: `(CG1 x DG0) + (CG2 x CG1)` has degree `(2, 1)`, and `CG1 + (CG1 x DG0)` has none. -/
example : (Elem.enriched [.tensorProduct [.leaf cg1, .leaf dg0], .tensorProduct [.leaf cg2, .leaf cg1]]).degree
    = .ok (.node [.leaf 2, .leaf 1]) := by rfl

example : (Elem.enriched [.leaf cg1, .tensorProduct [.leaf cg1, .leaf dg0]]).degree = .error .valueError := by
  rfl

end FInAT.Props
