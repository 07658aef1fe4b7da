import Verif.Spec.Dual
import Verif.Lemmas.LSum
import Verif.Lemmas.FiatTab
import Verif.Lemmas.Points

/-!
# The dual basis tensor of FIAT elements
-/

namespace FInAT

open Spec

variable {K : Type} [CommRing K] [DecidableEq K]

/-! ### Collecting the points -/

/-- The tuple of points stored in `seen` is found at its position in `allpts`. -/
def Seen (seen : Dict (List (List K)) (Nat × Nat)) (all : List (List K)) : Prop :=
  ∀ pts r, seen.get? pts = some r → r.2 = r.1 + pts.length ∧
    ∀ j < pts.length, all[r.1 + j]? = pts[j]?

omit [CommRing K] in
theorem collect_spec (le : List K → List K → Bool) : ∀ (nodes : List (Node K))
    (st : Dict (List (List K)) (Nat × Nat) × List (List K)), Seen st.1 st.2 →
    (∀ nd ∈ nodes, nd.hasDeriv = false) →
    (∀ k < st.2.length, ∃ pts r, st.1.get? pts = some r ∧ r.1 ≤ k ∧ k < r.2) →
    ∃ st', nodes.foldlM (fun (st : Dict (List (List K)) (Nat × Nat) × List (List K)) dual =>
      if dual.hasDeriv then .error .notImplemented
      else
        let pts := sortBy le dual.ptDict.keys
        if pts ∈ st.1.keys then .ok st
        else .ok (st.1.set pts (st.2.length, st.2.length + pts.length), st.2 ++ pts)) st
        = (.ok st' : Except Err _) ∧ Seen st'.1 st'.2 ∧
      (∀ pts, pts ∈ st'.1.keys ↔ pts ∈ st.1.keys ∨ ∃ nd ∈ nodes, pts = sortBy le nd.ptDict.keys) ∧
      (∀ x ∈ st'.2, x ∈ st.2 ∨ ∃ nd ∈ nodes, x ∈ nd.ptDict.keys) ∧
      (∀ k < st'.2.length, ∃ pts r, st'.1.get? pts = some r ∧ r.1 ≤ k ∧ k < r.2)
  | [], st, hs, _, hk => ⟨st, rfl, hs, by simp, fun x hx => .inl hx, hk⟩
  | nd :: nodes, st, hs, hd, hk => by
    rw [List.foldlM_cons]
    have hnd : nd.hasDeriv = false := hd nd List.mem_cons_self
    simp only [hnd, Bool.false_eq_true, if_false]
    by_cases hm : sortBy le nd.ptDict.keys ∈ st.1.keys
    · rw [if_pos hm]
      obtain ⟨st', h1, h2, h3, h4, h5⟩ := collect_spec le nodes st hs
        (fun x hx => hd x (List.mem_cons_of_mem _ hx)) hk
      refine ⟨st', h1, h2, fun pts => ?_, ?_, h5⟩
      · rw [h3]
        constructor
        · rintro (h | ⟨x, hx, h⟩)
          · exact .inl h
          · exact .inr ⟨x, List.mem_cons_of_mem _ hx, h⟩
        · rintro (h | ⟨x, hx, h⟩)
          · exact .inl h
          · rcases List.mem_cons.1 hx with rfl | hx
            · exact .inl (h ▸ hm)
            · exact .inr ⟨x, hx, h⟩
      · intro x hx
        rcases h4 x hx with h | ⟨y, hy, h⟩
        · exact .inl h
        · exact .inr ⟨y, List.mem_cons_of_mem _ hy, h⟩
    · rw [if_neg hm]
      set pts0 := sortBy le nd.ptDict.keys with hpts0
      obtain ⟨st', h1, h2, h3, h4, h5⟩ := collect_spec le nodes
        (st.1.set pts0 (st.2.length, st.2.length + pts0.length), st.2 ++ pts0) (by
          intro pts r hr
          simp only [] at hr
          rw [Dict.get?_set] at hr
          by_cases he : pts0 = pts
          · rw [if_pos he] at hr
            injection hr with hr
            subst hr; subst he
            refine ⟨rfl, fun j hj => ?_⟩
            simp only []
            rw [List.getElem?_append_right (by omega)]
            simp
          · rw [if_neg he] at hr
            obtain ⟨a1, a2⟩ := hs pts r hr
            refine ⟨a1, fun j hj => ?_⟩
            have := a2 j hj
            rw [List.getElem?_eq_getElem hj] at this
            have hlt := (List.getElem?_eq_some_iff.1 this).1
            simp only []
            rw [List.getElem?_append_left hlt, this, List.getElem?_eq_getElem hj])
        (fun x hx => hd x (List.mem_cons_of_mem _ hx)) (by
          intro k hk'
          simp only [List.length_append] at hk'
          by_cases hlt : k < st.2.length
          · obtain ⟨pts, r, b1, b2⟩ := hk k hlt
            refine ⟨pts, r, ?_, b2⟩
            simp only []
            rw [Dict.get?_set, if_neg, b1]
            rintro rfl
            exact hm (by rw [← Dict.get?_isSome_iff, b1]; rfl)
          · refine ⟨pts0, (st.2.length, st.2.length + pts0.length), ?_, by simp only []; omega, by simpa using hk'⟩
            simp only []
            rw [Dict.get?_set, if_pos rfl])
      refine ⟨st', h1, h2, fun pts => ?_, ?_, h5⟩
      · rw [h3, Dict.mem_keys_set]
        constructor
        · rintro ((h | h) | ⟨x, hx, h⟩)
          · exact .inr ⟨nd, List.mem_cons_self, h⟩
          · exact .inl h
          · exact .inr ⟨x, List.mem_cons_of_mem _ hx, h⟩
        · rintro (h | ⟨x, hx, h⟩)
          · exact .inl (.inr h)
          · rcases List.mem_cons.1 hx with rfl | hx
            · exact .inl (.inl h)
            · exact .inr ⟨x, hx, h⟩
      · intro x hx
        rcases h4 x hx with h | ⟨y, hy, h⟩
        · rcases List.mem_append.1 h with h | h
          · exact .inl h
          · exact .inr ⟨nd, List.mem_cons_self, (sortBy_perm le _).mem_iff.1 h⟩
        · exact .inr ⟨y, List.mem_cons_of_mem _ hy, h⟩

/-! ### Building the dictionary -/

/-- The entries written for one point of a node. -/
def pointEntries (i : Nat) (pd : Dict (List K) (List (K × List Nat))) (pk : List K × Nat) :
    Dict (List Nat) K :=
  ((pd.get? pk.1).getD []).map fun wc => (i :: pk.2 :: wc.2, wc.1)

/-- The entries written for a node whose points are at positions `ks, ks+1, ...`. -/
def nodeEntries (le : List K → List K → Bool) (i : Nat) (nd : Node K) (ks : Nat) : Dict (List Nat) K :=
  let pts := sortBy le nd.ptDict.keys
  (pts.zip (List.range' ks pts.length)).flatMap (pointEntries i nd.ptDict)

/-- All entries. -/
def allEntries (le : List K → List K → Bool) (seen : Dict (List (List K)) (Nat × Nat)) (nodes : Dict Nat (Node K)) :
    Dict (List Nat) K :=
  nodes.flatMap fun p =>
    nodeEntries le p.1 p.2 (((seen.get? (sortBy le p.2.ptDict.keys)).getD (0, 0)).1)

/-- Writing a list of entries. -/
def writes (Q : Dict (List Nat) K) (es : List (List Nat × K)) : Dict (List Nat) K :=
  es.foldl (fun Q e => Q.set e.1 e.2) Q

omit [CommRing K] [DecidableEq K] in
theorem writes_append (Q : Dict (List Nat) K) (a b : List (List Nat × K)) :
    writes Q (a ++ b) = writes (writes Q a) b := List.foldl_append

omit [CommRing K] [DecidableEq K] in
theorem writes_nodup : ∀ (es Q : List (List Nat × K)), (Dict.keys (Q ++ es)).Nodup → writes Q es = Q ++ es
  | [], Q, _ => by simp [writes]
  | e :: es, Q, h => by
    have hnot : e.1 ∉ Dict.keys Q := by
      intro hm
      simp only [Dict.keys, List.map_append, List.map_cons] at h hm
      rw [List.nodup_append] at h
      exact h.2.2 _ hm _ List.mem_cons_self rfl
    have : writes Q (e :: es) = writes (Dict.set Q e.1 e.2) es := rfl
    rw [this, Dict.set_of_not_mem hnot, writes_nodup es _ (by simpa using h)]
    simp

omit [CommRing K] in
theorem addWeights_eq (i : Nat) (pd : Dict (List K) (List (K × List Nat))) (pk : List K × Nat)
    (h : pk.1 ∈ pd.keys) (Q : Dict (List Nat) K) :
    addWeights i pd Q pk = .ok (writes Q (pointEntries i pd pk)) := by
  rw [← Dict.get?_isSome_iff] at h
  obtain ⟨ws, hws⟩ := Option.isSome_iff_exists.1 h
  unfold addWeights pointEntries
  rw [Dict.get_eq_ok_iff.2 hws, hws]
  simp only [bind, Except.bind, pure, Except.pure, Option.getD_some, writes, List.foldl_map]

omit [CommRing K] in
theorem addWeights_fold (i : Nat) (pd : Dict (List K) (List (K × List Nat))) :
    ∀ (pks : List (List K × Nat)), (∀ pk ∈ pks, pk.1 ∈ pd.keys) → ∀ Q : Dict (List Nat) K,
      pks.foldlM (addWeights i pd) Q = .ok (writes Q (pks.flatMap (pointEntries i pd)))
  | [], _, Q => rfl
  | pk :: pks, h, Q => by
    rw [List.foldlM_cons, addWeights_eq i pd pk (h pk List.mem_cons_self)]
    simp only [bind, Except.bind]
    rw [addWeights_fold i pd pks (fun x hx => h x (List.mem_cons_of_mem _ hx)), List.flatMap_cons, writes_append]

omit [CommRing K] in
theorem buildQ_fold (le : List K → List K → Bool) (seen : Dict (List (List K)) (Nat × Nat)) :
    ∀ (nodes : Dict Nat (Node K)), (∀ p ∈ nodes, ∃ r, seen.get? (sortBy le p.2.ptDict.keys) = some r ∧
        r.2 = r.1 + (sortBy le p.2.ptDict.keys).length) → ∀ Q : Dict (List Nat) K,
      nodes.foldlM (fun Q p => do
        let pts := sortBy le p.2.ptDict.keys
        let r ← seen.get pts
        (pts.zip (List.range' r.1 (r.2 - r.1))).foldlM (addWeights p.1 p.2.ptDict) Q) Q =
      (.ok (writes Q (allEntries le seen nodes)) : Except Err _)
  | [], _, Q => rfl
  | p :: nodes, h, Q => by
    obtain ⟨r, hr1, hr2⟩ := h p List.mem_cons_self
    rw [List.foldlM_cons]
    simp only [Dict.get_eq_ok_iff.2 hr1, bind, Except.bind]
    have hlen : r.2 - r.1 = (sortBy le p.2.ptDict.keys).length := by omega
    rw [hlen, addWeights_fold]
    · simp only []
      have := buildQ_fold le seen nodes (fun x hx => h x (List.mem_cons_of_mem _ hx))
        (writes Q (nodeEntries le p.1 p.2 r.1))
      simp only [bind, Except.bind] at this
      unfold nodeEntries at this
      rw [this, ← writes_append]
      congr 2
      simp only [allEntries, List.flatMap_cons, nodeEntries, hr1, Option.getD_some]
    · intro pk hpk
      exact (sortBy_perm le _).mem_iff.1 (List.of_mem_zip hpk).1

omit [CommRing K] in
theorem buildQ_eq (le : List K → List K → Bool) (seen : Dict (List (List K)) (Nat × Nat)) (nodes : List (Node K))
    (h : ∀ nd ∈ nodes, ∃ r, seen.get? (sortBy le nd.ptDict.keys) = some r ∧
        r.2 = r.1 + (sortBy le nd.ptDict.keys).length)
    (hn : (allEntries le seen (enumFrom 0 nodes)).keys.Nodup) :
    buildQ le nodes seen = .ok (allEntries le seen (enumFrom 0 nodes)) := by
  unfold buildQ
  rw [buildQ_fold le seen (enumFrom 0 nodes)]
  · rw [writes_nodup _ _ (by simpa using hn)]; rfl
  · intro p hp
    refine h p.2 ?_
    have := List.mem_map_of_mem (f := Prod.snd) hp
    rwa [enumFrom_values] at this

/-! ### Which entries there are -/

theorem mem_enumFrom {α : Type} {l : List α} {p : Nat × α} : p ∈ enumFrom 0 l ↔ l[p.1]? = some p.2 := by
  constructor
  · intro h
    rw [← enumFrom_zero_get?]
    refine Dict.get?_eq_some_of_mem ?_ h
    have := enumFrom_keys 0 l
    simp only [Nat.zero_add, List.map_id'] at this
    rw [Dict.keys, this]
    exact List.nodup_range
  · intro h
    rw [← enumFrom_zero_get?] at h
    exact Dict.mem_of_get?_eq_some h

theorem mem_zip_range' {α : Type} {l : List α} {s : Nat} {p : α × Nat} :
    p ∈ l.zip (List.range' s l.length) ↔ ∃ j, l[j]? = some p.1 ∧ p.2 = s + j := by
  rw [List.mem_iff_getElem?]
  constructor
  · rintro ⟨j, hj⟩
    rw [List.getElem?_zip_eq_some] at hj
    have hl := (List.getElem?_eq_some_iff.1 hj.1).1
    rw [List.getElem?_range' hl] at hj
    refine ⟨j, hj.1, ?_⟩
    simpa using hj.2.symm
  · rintro ⟨j, h1, h2⟩
    refine ⟨j, ?_⟩
    rw [List.getElem?_zip_eq_some, List.getElem?_range' (List.getElem?_eq_some_iff.1 h1).1]
    refine ⟨h1, ?_⟩
    simp [h2]

/-- Position of the first point of a node. -/
def kstart (le : List K → List K → Bool) (seen : Dict (List (List K)) (Nat × Nat)) (nd : Node K) : Nat :=
  ((seen.get? (sortBy le nd.ptDict.keys)).getD (0, 0)).1

omit [CommRing K] in
theorem mem_allEntries {le : List K → List K → Bool} {seen : Dict (List (List K)) (Nat × Nat)}
    {nodes : List (Node K)} {e : List Nat × K} :
    e ∈ allEntries le seen (enumFrom 0 nodes) ↔ ∃ i nd j pt wc, nodes[i]? = some nd ∧
      (sortBy le nd.ptDict.keys)[j]? = some pt ∧ wc ∈ (nd.ptDict.get? pt).getD [] ∧
      e = (i :: (kstart le seen nd + j) :: wc.2, wc.1) := by
  simp only [allEntries, nodeEntries, pointEntries, List.mem_flatMap, List.mem_map, mem_enumFrom]
  constructor
  · rintro ⟨p, hp, q, hq, wc, hwc, rfl⟩
    obtain ⟨j, h1, h2⟩ := mem_zip_range'.1 hq
    exact ⟨p.1, p.2, j, q.1, wc, hp, h1, hwc, by rw [h2]; rfl⟩
  · rintro ⟨i, nd, j, pt, wc, h1, h2, h3, rfl⟩
    exact ⟨(i, nd), h1, (pt, kstart le seen nd + j), mem_zip_range'.2 ⟨j, h2, rfl⟩, wc, h3, rfl⟩

section
variable {vs : List Nat} {nodes : List (Node K)} {le : List K → List K → Bool}
  {seen : Dict (List (List K)) (Nat × Nat)}

omit [CommRing K] in
theorem nodesOK_get (h : NodesOK vs nodes) {nd : Node K} (hm : nd ∈ nodes) {pt : List K}
    (hp : pt ∈ nd.ptDict.keys) : ∃ ws, nd.ptDict.get? pt = some ws ∧ ws ≠ [] ∧ (ws.map Prod.snd).Nodup ∧
      ∀ wc ∈ ws, InB wc.2 vs := by
  rw [← Dict.get?_isSome_iff] at hp
  obtain ⟨ws, hws⟩ := Option.isSome_iff_exists.1 hp
  exact ⟨ws, hws, h.weights nd hm (pt, ws) (Dict.mem_of_get?_eq_some hws)⟩

omit [CommRing K] [DecidableEq K] in
theorem mem_of_sorted {nd : Node K} {j : Nat} {pt : List K} (h : (sortBy le nd.ptDict.keys)[j]? = some pt) :
    pt ∈ nd.ptDict.keys := (sortBy_perm le _).mem_iff.1 (List.mem_of_getElem? h)

omit [CommRing K] in
theorem allEntries_nodup (h : NodesOK vs nodes) :
    (allEntries le seen (enumFrom 0 nodes)).keys.Nodup := by
  unfold allEntries Dict.keys
  rw [List.map_flatMap, List.nodup_flatMap]
  constructor
  · intro p hp
    have hm : p.2 ∈ nodes := List.mem_of_getElem? (mem_enumFrom.1 hp)
    unfold nodeEntries
    rw [List.map_flatMap, List.nodup_flatMap]
    constructor
    · intro q hq
      obtain ⟨j, hj, _⟩ := mem_zip_range'.1 hq
      obtain ⟨ws, hws, _, hn, _⟩ := nodesOK_get h hm (mem_of_sorted hj)
      simp only [pointEntries, hws, Option.getD_some, List.map_map]
      have : (Prod.fst ∘ fun wc : K × List Nat => (p.1 :: q.2 :: wc.2, wc.1)) = (fun c => p.1 :: q.2 :: c) ∘ Prod.snd := rfl
      rw [this, ← List.map_map]
      exact hn.map (by intro a b hab; simpa using hab)
    · have hnd : ((sortBy le p.2.ptDict.keys).zip (List.range' (((seen.get? (sortBy le p.2.ptDict.keys)).getD (0, 0)).1)
          (sortBy le p.2.ptDict.keys).length)).Pairwise (fun a b => a.2 ≠ b.2) := by
        rw [← List.pairwise_map (f := Prod.snd) (R := (· ≠ ·)), List.map_snd_zip (by simp)]
        exact List.nodup_range'
      refine hnd.imp fun {a b} hab => ?_
      rw [Function.onFun, List.disjoint_left]
      intro x hx hy
      simp only [pointEntries, List.map_map, List.mem_map, Function.comp] at hx hy
      obtain ⟨u, _, rfl⟩ := hx
      obtain ⟨w, _, hw⟩ := hy
      simp only [List.cons.injEq] at hw
      exact hab hw.2.1.symm
  · have hnd : (enumFrom 0 nodes).Pairwise (fun a b => a.1 ≠ b.1) := by
      rw [← List.pairwise_map (f := Prod.fst) (R := (· ≠ ·)), enumFrom_keys]
      simp only [Nat.zero_add, List.map_id']
      exact List.nodup_range
    refine hnd.imp fun {a b} hab => ?_
    rw [Function.onFun, List.disjoint_left]
    intro x hx hy
    simp only [nodeEntries, pointEntries, List.mem_map, List.mem_flatMap] at hx hy
    obtain ⟨_, ⟨_, _, _, _, rfl⟩, rfl⟩ := hx
    obtain ⟨_, ⟨_, _, _, _, rfl⟩, hw⟩ := hy
    simp only [List.cons.injEq] at hw
    exact hab hw.1.symm

end

omit [DecidableEq K] in
theorem lsum_zip_fst {α : Type} {l : List α} {m : List Nat} (hl : l.length = m.length) {f : α × Nat → K}
    {g : α → K} (h : ∀ p ∈ l.zip m, f p = g p.1) : lsum (l.zip m) f = lsum l g := by
  rw [lsum_congr h]
  have := lsum_map (K := K) Prod.fst (l.zip m) g
  rw [← this, List.map_fst_zip (by omega)]

omit [DecidableEq K] in
/-- Summing over the entries of a dictionary, or over its keys. -/
theorem lsum_keys {κ ν : Type} [DecidableEq κ] {d : Dict κ ν} (hd : d.keys.Nodup) (dflt : ν) (f : κ → ν → K) :
    (lsum d.keys fun k => f k ((d.get? k).getD dflt)) = lsum d fun e => f e.1 e.2 := by
  unfold Dict.keys
  rw [lsum_map]
  refine lsum_congr fun e he => ?_
  rw [Dict.get?_eq_some_of_mem hd (v := e.2) he]
  rfl

/-- The dictionary contracted with function values at the points is the functional applied to the
function. -/
theorem contract_entries {vs : List Nat} {nodes : List (Node K)} {le : List K → List K → Bool}
    {seen : Dict (List (List K)) (Nat × Nat)} {all : List (List K)} (h : NodesOK vs nodes)
    (hs : Seen seen all)
    (hseen : ∀ nd ∈ nodes, sortBy le nd.ptDict.keys ∈ seen.keys)
    {i : Nat} {nd : Node K} (hi : nodes[i]? = some nd) (f : List K → List Nat → K) :
    (lsum (List.range all.length) fun k => lsum (ndindex vs) fun z =>
      ((allEntries le seen (enumFrom 0 nodes)).get? (i :: k :: z)).getD 0 * f ((all[k]?).getD []) z) =
    nodeValue nd f := by
  have hm : nd ∈ nodes := List.mem_of_getElem? hi
  have hn := allEntries_nodup (le := le) (seen := seen) h
  set Q := allEntries le seen (enumFrom 0 nodes) with hQ
  set S := (List.range all.length).flatMap fun k => (ndindex vs).map fun z => i :: k :: z with hS
  have hSn : S.Nodup := by
    rw [hS, List.nodup_flatMap]
    refine ⟨fun k _ => (nodup_ndindex vs).map (by intro a b hab; simpa using hab), ?_⟩
    refine List.nodup_range.imp fun {a b} hab => ?_
    rw [Function.onFun, List.disjoint_left]
    intro x hx hy
    obtain ⟨u, _, rfl⟩ := List.mem_map.1 hx
    obtain ⟨w, _, hw⟩ := List.mem_map.1 hy
    simp only [List.cons.injEq] at hw
    exact hab hw.2.1.symm
  have key := lsum_get? (K := K) hSn hn fun s => f ((all[s.getD 1 0]?).getD []) (s.drop 2)
  rw [hS, lsum_flatMap] at key
  simp only [lsum_map, List.getD_cons_succ, List.getD_cons_zero, List.drop_succ_cons, List.drop_zero] at key
  rw [← hS] at key
  rw [key, hQ]
  unfold allEntries
  rw [lsum_flatMap]
  -- only node `i` contributes
  have hother : ∀ p ∈ enumFrom 0 nodes,
      (lsum (nodeEntries le p.1 p.2 (kstart le seen p.2)) fun e =>
        if e.1 ∈ S then e.2 * f ((all[e.1.getD 1 0]?).getD []) (e.1.drop 2) else 0) =
      if (i, nd).1 = p.1 then nodeValue p.2 f else 0 := by
    intro p hp
    have hp' := mem_enumFrom.1 hp
    by_cases hpi : i = p.1
    · have hpn : p.2 = nd := by
        rw [← hpi, hi] at hp'
        injection hp' with hp'
        exact hp'.symm
      rw [if_pos hpi, hpn, ← hpi]
      unfold nodeEntries
      rw [lsum_flatMap]
      obtain ⟨r, hr⟩ := Option.isSome_iff_exists.1 (Dict.get?_isSome_iff.2 (hseen nd hm))
      obtain ⟨hr1, hr2⟩ := hs _ _ hr
      have hks : kstart le seen nd = r.1 := by simp [kstart, hr]
      rw [lsum_zip_fst (g := fun pt => lsum ((nd.ptDict.get? pt).getD []) fun wc => wc.1 * f pt wc.2) (by simp)]
      · rw [lsum_perm (sortBy_perm le _)]
        rw [lsum_keys (h.points nd hm).2 [] (fun pt (ws : List (K × List Nat)) => lsum ws fun wc => wc.1 * f pt wc.2)]
        rfl
      · intro q hq
        obtain ⟨j, hj1, hj2⟩ := mem_zip_range'.1 hq
        have hjl := (List.getElem?_eq_some_iff.1 hj1).1
        obtain ⟨ws, hws, _, _, hin⟩ := nodesOK_get h hm (mem_of_sorted hj1)
        have hall : all[q.2]? = some q.1 := by
          rw [hj2, hks, hr2 j hjl, hj1]
        simp only [pointEntries, hws, Option.getD_some, lsum_map]
        refine lsum_congr fun wc hwc => ?_
        rw [if_pos]
        · simp [hall]
        · rw [hS, List.mem_flatMap]
          refine ⟨q.2, List.mem_range.2 (List.getElem?_eq_some_iff.1 hall).1, ?_⟩
          exact List.mem_map.2 ⟨wc.2, mem_ndindex.2 (hin wc hwc), rfl⟩
    · rw [if_neg hpi]
      refine lsum_zero fun e he => if_neg ?_
      intro heS
      simp only [nodeEntries, pointEntries, List.mem_flatMap, List.mem_map] at he
      obtain ⟨_, _, _, _, rfl⟩ := he
      rw [hS, List.mem_flatMap] at heS
      obtain ⟨k, _, hk⟩ := heS
      obtain ⟨z, _, hz⟩ := List.mem_map.1 hk
      simp only [List.cons.injEq] at hz
      exact hpi hz.1
  have hr : (lsum (enumFrom 0 nodes) fun a =>
      lsum (nodeEntries le a.1 a.2 ((seen.get? (sortBy le a.2.ptDict.keys)).getD (0, 0)).1) fun e =>
        if e.1 ∈ S then e.2 * f ((all[e.1.getD 1 0]?).getD []) (e.1.drop 2) else 0) =
      lsum (enumFrom 0 nodes) fun p => if i = p.1 then nodeValue p.2 f else 0 :=
    lsum_congr hother
  refine Eq.trans (lsum_congr fun a _ => lsum_congr fun e _ => ?_) (hr.trans ?_)
  · by_cases he : e.1 ∈ S
    · rw [if_pos he, if_pos he]
    · rw [if_neg he, if_neg he]
  have hk : (lsum (enumFrom 0 nodes) fun p => if i = p.1 then nodeValue p.2 f else 0) =
      lsum (Dict.keys (enumFrom 0 nodes)) fun k => if i = k then nodeValue ((Dict.get? (enumFrom 0 nodes) k).getD nd) f else 0 := by
    rw [lsum_keys (d := enumFrom 0 nodes) (by rw [Dict.keys, enumFrom_keys]; simpa using List.nodup_range) nd
      (fun k (v : Node K) => if i = k then nodeValue v f else 0)]
  rw [hk, lsum_delta (by rw [Dict.keys, enumFrom_keys]; simpa using List.nodup_range) (by
    rw [← Dict.get?_isSome_iff, enumFrom_zero_get?, hi]; rfl) (fun k => nodeValue ((Dict.get? (enumFrom 0 nodes) k).getD nd) f),
    enumFrom_zero_get?, hi]
  rfl

/-! ### The shape -/

theorem colMax_spec : ∀ {ks : List (List Nat)} {m : Nat}, ks ≠ [] → (∀ k ∈ ks, k.length = m) →
    (colMax ks).length = m ∧ ∀ a < m, (∀ k ∈ ks, (k[a]?).getD 0 ≤ ((colMax ks)[a]?).getD 0) ∧
      ∃ k ∈ ks, (k[a]?).getD 0 = ((colMax ks)[a]?).getD 0
  | [], _, h, _ => absurd rfl h
  | [k], m, _, h => by
    simp only [colMax]
    exact ⟨h k List.mem_cons_self, fun a _ => ⟨by simp, k, List.mem_cons_self, rfl⟩⟩
  | k :: k' :: ks, m, _, h => by
    obtain ⟨h1, h2⟩ := colMax_spec (ks := k' :: ks) (m := m) (by simp) fun x hx => h x (List.mem_cons_of_mem _ hx)
    have hk := h k List.mem_cons_self
    have e : colMax (k :: k' :: ks) = List.zipWith max k (colMax (k' :: ks)) := rfl
    rw [e]
    generalize colMax (k' :: ks) = c at h1 h2
    refine ⟨by simp [h1, hk], fun a ha => ?_⟩
    have hz : ((List.zipWith max k c)[a]?).getD 0 = max ((k[a]?).getD 0) ((c[a]?).getD 0) := by
      rw [List.getElem?_zipWith, List.getElem?_eq_getElem (show a < k.length by omega),
        List.getElem?_eq_getElem (show a < c.length by omega)]
      rfl
    obtain ⟨h3, x, hx, hxe⟩ := h2 a ha
    rw [hz]
    refine ⟨fun y hy => ?_, ?_⟩
    · rcases List.mem_cons.1 hy with rfl | hy
      · exact Nat.le_max_left _ _
      · exact Nat.le_trans (h3 y hy) (Nat.le_max_right _ _)
    · rcases Nat.le_total ((k[a]?).getD 0) ((c[a]?).getD 0) with hl | hl
      · exact ⟨x, List.mem_cons_of_mem _ hx, by rw [hxe, Nat.max_eq_right hl]⟩
      · exact ⟨k, List.mem_cons_self, by rw [Nat.max_eq_left hl]⟩

theorem colMax_shape {ks : List (List Nat)} {s : List Nat} (hne : ks ≠ []) (hb : ∀ k ∈ ks, InB k s)
    (hat : ∀ a < s.length, ∃ k ∈ ks, k[a]? = some ((s[a]?).getD 0 - 1)) :
    (colMax ks).map (· + 1) = s := by
  obtain ⟨h1, h2⟩ := colMax_spec hne fun k hk => (hb k hk).length
  refine List.ext_getElem (by simp [h1]) fun a ha hb' => ?_
  obtain ⟨h3, x, hx, hxe⟩ := h2 a hb'
  obtain ⟨k, hk, hke⟩ := hat a hb'
  have hc : a < (colMax ks).length := by omega
  have h4 := h3 k hk
  rw [hke, List.getElem?_eq_getElem hc, List.getElem?_eq_getElem hb'] at h4
  simp only [Option.getD_some] at h4
  have hxs := hb x hx
  have hlt : (x[a]?).getD 0 < s[a] := by
    have hxl := hxs.length
    rw [List.getElem?_eq_getElem (show a < x.length by omega)]
    have := List.Forall₂.get hxs (i := a) (by omega) hb'
    simpa using this
  rw [hxe, List.getElem?_eq_getElem hc] at hlt
  simp only [Option.getD_some] at hlt
  simp only [List.getElem_map]
  omega

end FInAT
