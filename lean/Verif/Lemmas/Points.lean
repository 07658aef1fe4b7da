import Verif.Model.PointSet
import Verif.Lemmas.TabTree

/-!
# Point sets: the point selected by the point indices
-/

namespace FInAT

variable {K : Type}

namespace PSet

mutual
/-- A point set as the constructors build it: one point per value of the point indices, all points of
the same dimension, indices numbered below `n`. -/
def WF (n : Nat) : PSet K → Prop
  | .singleton _ => True
  | .points _ pts idx => (∀ i ∈ idx, i.id < n) ∧ pts.length = (idx.map Index.extent).prod ∧
      ∃ d, ∀ pt ∈ pts, pt.length = d
  | .unknown pts d idx => idx.id < n ∧ pts.length = idx.extent ∧ ∀ pt ∈ pts, pt.length = d
  | .tensor fs => WFL n fs
/-- ... for lists. -/
def WFL (n : Nat) : List (PSet K) → Prop
  | [] => True
  | p :: ps => WF n p ∧ WFL n ps
end

/-- The values of the point indices are in range. -/
def Valid (p : PSet K) (ρ : Env) : Prop := ∀ i ∈ p.indices, ρ i.id < i.extent

/-- ... for lists. -/
def ValidL (ps : List (PSet K)) (ρ : Env) : Prop := ∀ i ∈ indicesL ps, ρ i.id < i.extent

theorem WFL_mem : ∀ {n : Nat} {ps : List (PSet K)}, WFL n ps → ∀ p ∈ ps, WF n p
  | _, [], _, p, hp => by simp at hp
  | n, q :: ps, h, p, hp => by
    simp only [WFL] at h
    rcases List.mem_cons.1 hp with rfl | hp
    · exact h.1
    · exact WFL_mem h.2 p hp

theorem ValidL_mem : ∀ {ps : List (PSet K)} {ρ : Env}, ValidL ps ρ → ∀ p ∈ ps, Valid p ρ
  | [], _, _, p, hp => by simp at hp
  | q :: ps, ρ, h, p, hp => by
    simp only [ValidL, indicesL] at h
    rcases List.mem_cons.1 hp with rfl | hp
    · exact fun i hi => h i (List.mem_append_left _ hi)
    · exact ValidL_mem (fun i hi => h i (List.mem_append_right _ hi)) p hp

theorem inB_of_range {idx : List Index} {ρ : Env} (h : ∀ i ∈ idx, ρ i.id < i.extent) :
    InB (idx.map fun i => ρ i.id) (idx.map Index.extent) := by
  induction idx with
  | nil => exact .nil
  | cons i idx ih =>
    exact .cons (h i List.mem_cons_self) (ih fun j hj => h j (List.mem_cons_of_mem _ hj))

theorem getElem?_flatMap_cons {α : Type} (l : List α) (ls : List (List α)) {i j : Nat} {a : α} {b : List α}
    (ha : l[i]? = some a) (hb : ls[j]? = some b) :
    (l.flatMap fun a => ls.map (a :: ·))[i * ls.length + j]? = some (a :: b) := by
  have hj : j < ls.length := (List.getElem?_eq_some_iff.1 hb).1
  induction l generalizing i with
  | nil => simp at ha
  | cons x l ih =>
    rw [List.flatMap_cons]
    cases i with
    | zero =>
      simp only [List.getElem?_cons_zero, Option.some.injEq] at ha
      subst ha
      rw [List.getElem?_append_left (by simpa using hj)]
      simp [hb]
    | succ i =>
      rw [List.getElem?_append_right (by simp [Nat.succ_mul]; omega)]
      rw [List.length_map, show (i + 1) * ls.length + j - ls.length = i * ls.length + j by
        rw [Nat.succ_mul]; omega]
      exact ih (by simpa using ha)

mutual
/-- The selected point is the entry of the points array at the position of the index values. -/
theorem pts_at : ∀ {n : Nat} {p : PSet K}, WF n p → p.pts.length = (p.indices.map Index.extent).prod ∧
    ∀ {ρ : Env}, Valid p ρ →
      p.pts[ravel (p.indices.map Index.extent) (p.indices.map fun i => ρ i.id)]? = some (p.pointAt ρ)
  | n, .singleton p, _ => by simp [pts, indices, pointAt]
  | n, .points c pts idx, h => by
    simp only [WF] at h
    refine ⟨by simpa [PSet.pts, indices] using h.2.1, fun {ρ} hv => ?_⟩
    simp only [PSet.pts, indices, pointAt]
    have hlt : ravel (idx.map Index.extent) (idx.map fun i => ρ i.id) < pts.length := by
      rw [h.2.1]; exact ravel_lt (inB_of_range (by simpa [Valid, indices] using hv))
    rw [List.getElem?_eq_getElem hlt]
    rfl
  | n, .unknown pts d idx, h => by
    simp only [WF] at h
    refine ⟨by simpa [PSet.pts, indices] using h.2.1, fun {ρ} hv => ?_⟩
    have hlt : ρ idx.id < pts.length := by
      rw [h.2.1]; exact hv idx (by simp [indices])
    simp only [PSet.pts, indices, pointAt, List.map_cons, List.map_nil, ravel_cons, ravel_nil,
      List.prod_nil, Nat.mul_one, Nat.add_zero]
    rw [List.getElem?_eq_getElem hlt]
    rfl
  | n, .tensor fs, h => by
    simp only [WF] at h
    obtain ⟨h1, h2⟩ := ptsL_at h
    refine ⟨by simpa [PSet.pts, indices] using h1, fun {ρ} hv => ?_⟩
    obtain ⟨l, hl, hf⟩ := h2 (ρ := ρ) (by simpa [Valid, indices, ValidL] using hv)
    simp only [PSet.pts, indices, pointAt, List.getElem?_map, hl, Option.map_some, hf]
/-- ... for tensor products of point sets. -/
theorem ptsL_at : ∀ {n : Nat} {ps : List (PSet K)}, WFL n ps →
    (product (ptsL ps)).length = ((indicesL ps).map Index.extent).prod ∧
    ∀ {ρ : Env}, ValidL ps ρ → ∃ l,
      (product (ptsL ps))[ravel ((indicesL ps).map Index.extent) ((indicesL ps).map fun i => ρ i.id)]? =
        some l ∧ l.flatten = pointAtL ρ ps
  | n, [], _ => by simp [ptsL, indicesL, pointAtL]
  | n, p :: ps, h => by
    simp only [WFL] at h
    obtain ⟨h1, h2⟩ := pts_at h.1
    obtain ⟨h3, h4⟩ := ptsL_at h.2
    have hlen : (product (ptsL (p :: ps))).length = ((indicesL (p :: ps)).map Index.extent).prod := by
      rw [ptsL, length_product, List.map_cons, List.prod_cons, ← length_product, h1, h3, indicesL,
        List.map_append, List.prod_append]
    refine ⟨hlen, fun {ρ} hv => ?_⟩
    simp only [ValidL, indicesL] at hv
    have hp := h2 (ρ := ρ) fun i hi => hv i (List.mem_append_left _ hi)
    obtain ⟨l, hl, hf⟩ := h4 (ρ := ρ) fun i hi => hv i (List.mem_append_right _ hi)
    refine ⟨p.pointAt ρ :: l, ?_, by simp [pointAtL, hf]⟩
    simp only [ptsL, indicesL, product_cons, List.map_append]
    rw [ravel_append (by simp), ← h3]
    exact getElem?_flatMap_cons _ _ hp hl
end

mutual
/-- All points have the same dimension. -/
theorem pts_width : ∀ {n : Nat} {p : PSet K}, WF n p → ∃ d, ∀ pt ∈ p.pts, pt.length = d
  | n, .singleton p, _ => ⟨p.length, by simp [pts]⟩
  | n, .points c pts idx, h => by
    simp only [WF] at h
    simpa [PSet.pts] using h.2.2
  | n, .unknown pts d idx, h => by
    simp only [WF] at h
    exact ⟨d, by simpa [PSet.pts] using h.2.2⟩
  | n, .tensor fs, h => by
    simp only [WF] at h
    obtain ⟨d, hd⟩ := ptsL_width h
    refine ⟨d, fun pt hpt => ?_⟩
    simp only [PSet.pts, List.mem_map] at hpt
    obtain ⟨l, hl, rfl⟩ := hpt
    exact hd l hl
/-- ... for tensor products. -/
theorem ptsL_width : ∀ {n : Nat} {ps : List (PSet K)}, WFL n ps →
    ∃ d, ∀ l ∈ product (ptsL ps), l.flatten.length = d
  | n, [], _ => ⟨0, by simp [ptsL]⟩
  | n, p :: ps, h => by
    simp only [WFL] at h
    obtain ⟨d, hd⟩ := pts_width h.1
    obtain ⟨d', hd'⟩ := ptsL_width h.2
    refine ⟨d + d', fun l hl => ?_⟩
    simp only [ptsL, product_cons, List.mem_flatMap, List.mem_map] at hl
    obtain ⟨a, ha, b, hb, rfl⟩ := hl
    rw [List.flatten_cons, List.length_append, hd a ha, hd' b hb]
end

theorem pointAt_mem {n : Nat} {p : PSet K} {ρ : Env} (h : WF n p) (hv : Valid p ρ) : p.pointAt ρ ∈ p.pts :=
  List.mem_of_getElem? ((pts_at h).2 hv)

/-- The selected point has the dimension of the point set. -/
theorem pointAt_length {n d : Nat} {p : PSet K} {ρ : Env} (h : WF n p) (hv : Valid p ρ)
    (hd : p.dimension = .ok d) : (p.pointAt ρ).length = d := by
  have hm := pointAt_mem h hv
  obtain ⟨d', hd'⟩ := pts_width h
  rw [hd' _ hm]
  cases p with
  | unknown pts dd idx =>
    simp only [dimension] at hd
    cases hd
    simp only [WF] at h
    rw [← hd' _ hm, h.2.2 _ (by simpa [PSet.pts] using hm)]
  | _ =>
    simp only [dimension] at hd
    split at hd
    · cases hd
    · next x xs hx =>
      cases hd
      exact (hd' x (by rw [hx]; exact List.mem_cons_self)).symm

mutual
theorem pointAt_local : ∀ {n : Nat} {p : PSet K}, WF n p → ∀ {ρ ρ' : Env}, Agree n ρ ρ' →
    p.pointAt ρ = p.pointAt ρ'
  | n, .singleton p, _, ρ, ρ', _ => rfl
  | n, .points c pts idx, h, ρ, ρ', ha => by
    simp only [WF] at h
    simp only [pointAt, ha.map h.1]
  | n, .unknown pts d idx, h, ρ, ρ', ha => by
    simp only [WF] at h
    simp only [pointAt, ha _ h.1]
  | n, .tensor fs, h, ρ, ρ', ha => by
    simp only [WF] at h
    simp only [pointAt]
    exact pointAtL_local h ha
theorem pointAtL_local : ∀ {n : Nat} {ps : List (PSet K)}, WFL n ps → ∀ {ρ ρ' : Env}, Agree n ρ ρ' →
    pointAtL ρ ps = pointAtL ρ' ps
  | n, [], _, ρ, ρ', _ => rfl
  | n, p :: ps, h, ρ, ρ', ha => by
    simp only [WFL] at h
    simp only [pointAtL, pointAt_local h.1 ha, pointAtL_local h.2 ha]
end

mutual
theorem indices_lt : ∀ {n : Nat} {p : PSet K}, WF n p → ∀ i ∈ p.indices, i.id < n
  | n, .singleton p, _, i, hi => by simp [indices] at hi
  | n, .points c pts idx, h, i, hi => by
    simp only [WF] at h
    exact h.1 i (by simpa [indices] using hi)
  | n, .unknown pts d idx, h, i, hi => by
    simp only [WF] at h
    simp only [indices, List.mem_singleton] at hi
    subst hi
    exact h.1
  | n, .tensor fs, h, i, hi => by
    simp only [WF] at h
    exact indicesL_lt h i (by simpa [indices] using hi)
theorem indicesL_lt : ∀ {n : Nat} {ps : List (PSet K)}, WFL n ps → ∀ i ∈ indicesL ps, i.id < n
  | n, [], _, i, hi => by simp [indicesL] at hi
  | n, p :: ps, h, i, hi => by
    simp only [WFL] at h
    simp only [indicesL, List.mem_append] at hi
    rcases hi with hi | hi
    · exact indices_lt h.1 i hi
    · exact indicesL_lt h.2 i hi
end

theorem valid_local {n : Nat} {p : PSet K} (h : WF n p) : LocalV n (Valid p) := by
  intro ρ ρ' ha hv i hi
  rw [← ha _ (indices_lt h i hi)]
  exact hv i hi

end PSet

/-! ### Splitting -/

theorem splitLens_map {α β : Type} (f : α → β) : ∀ (ns : List Nat) (l : List α),
    splitLens ns (l.map f) = (splitLens ns l).map (List.map f)
  | [], _ => rfl
  | n :: ns, l => by
    simp only [splitLens, List.map_cons, List.map_take, ← splitLens_map f ns, List.map_drop]

theorem splitLens_length {α : Type} : ∀ (ns : List Nat) (l : List α), (splitLens ns l).length = ns.length
  | [], _ => rfl
  | n :: ns, l => by simp [splitLens, splitLens_length ns]

theorem splitLens_flatten {α : Type} : ∀ (ls : List (List α)), splitLens (ls.map List.length) ls.flatten = ls
  | [] => rfl
  | l :: ls => by simp [splitLens, splitLens_flatten ls]

theorem flatten_splitLens {α : Type} : ∀ (ns : List Nat) (l : List α), l.length = ns.sum →
    (splitLens ns l).flatten = l
  | [], l, h => by simp at h; simp [splitLens, h]
  | n :: ns, l, h => by
    simp only [splitLens, List.flatten_cons]
    rw [flatten_splitLens ns (l.drop n) (by simp at h ⊢; omega), List.take_append_drop]

theorem splitLens_subset {α : Type} : ∀ {ns : List Nat} {l s : List α}, s ∈ splitLens ns l → ∀ a ∈ s, a ∈ l
  | [], l, s, h => by simp [splitLens] at h
  | n :: ns, l, s, h => by
    simp only [splitLens, List.mem_cons] at h
    rcases h with rfl | h
    · exact fun a ha => List.mem_of_mem_take ha
    · exact fun a ha => List.mem_of_mem_drop (splitLens_subset h a ha)

theorem mem_splitLens_length {α : Type} : ∀ {ns : List Nat} {l s : List α}, l.length = ns.sum →
    s ∈ splitLens ns l → s.length ∈ ns
  | [], l, s, _, h => by simp [splitLens] at h
  | n :: ns, l, s, hl, h => by
    simp only [splitLens, List.mem_cons] at h
    simp only [List.sum_cons] at hl
    rcases h with rfl | h
    · simp; left; omega
    · exact List.mem_cons_of_mem _ (mem_splitLens_length (by simp; omega) h)

theorem filterMap_getElem_range {α : Type} (pt : List α) (cols : List Nat) (h : ∀ c ∈ cols, c < pt.length) :
    (cols.filterMap fun c => pt[c]?) = cols.attach.map fun c => pt[c.1]'(h _ c.2) := by
  induction cols with
  | nil => rfl
  | cons c cols ih =>
    have hc := h c List.mem_cons_self
    simp only [List.filterMap_cons, List.getElem?_eq_getElem hc, List.attach_cons, List.map_cons,
      List.map_map]
    rw [ih fun x hx => h x (List.mem_cons_of_mem _ hx)]
    rfl

/-- Selecting consecutive columns of a row. -/
theorem split_columns {α : Type} : ∀ (ns : List Nat) (pt : List α) (o : Nat), o + ns.sum = pt.length →
    (splitLens ns (List.range' o ns.sum)).map (fun cols => cols.filterMap fun c => pt[c]?) =
      splitLens ns (pt.drop o)
  | [], _, _, _ => rfl
  | n :: ns, pt, o, h => by
    simp only [List.sum_cons] at h
    simp only [splitLens, List.map_cons, List.sum_cons]
    have h1 : (List.range' o (n + ns.sum)).take n = List.range' o n := by
      rw [← List.range'_append_1, List.take_left' (by simp)]
    have h2 : (List.range' o (n + ns.sum)).drop n = List.range' (o + n) ns.sum := by
      rw [← List.range'_append_1, List.drop_left' (by simp)]
    rw [h1, h2, split_columns ns pt (o + n) (by omega), List.drop_drop]
    congr 1
    clear h1 h2
    have hon : o + n ≤ pt.length := by omega
    clear h
    induction n generalizing o with
    | zero => simp
    | succ n ih =>
      rw [List.range'_succ, List.filterMap_cons, List.getElem?_eq_getElem (by omega)]
      simp only
      rw [ih (o + 1) (by omega)]
      rw [← List.getElem_cons_drop (show o < pt.length by omega), List.take_succ_cons]

namespace PSet

theorem split_ok {n : Nat} {p : PSet K} {ns : List Nat} {d : Nat} (h : WF n p) (hd : p.dimension = .ok d)
    (hsum : d = ns.sum) :
    let ps := (splitLens ns (List.range d)).map fun cols =>
      (PSet.points .plain (p.pts.map fun pt => cols.filterMap fun c => pt[c]?) p.indices : PSet K)
    (∀ q ∈ ps, WF n q) ∧ ∀ ρ, Valid p ρ → (∀ q ∈ ps, Valid q ρ) ∧
      ps.map (fun q => q.pointAt ρ) = splitLens ns (p.pointAt ρ) := by
  intro ps
  subst hsum
  obtain ⟨d', hd'⟩ := pts_width h
  have hdim : ∀ pt ∈ p.pts, pt.length = ns.sum := by
    intro pt hpt
    rw [hd' pt hpt]
    cases p with
    | unknown pts dd idx =>
      simp only [dimension, Except.ok.injEq] at hd
      simp only [WF] at h
      rw [← hd' pt hpt, h.2.2 pt (by simpa [PSet.pts] using hpt), hd]
    | _ =>
      simp only [dimension] at hd
      split at hd
      · cases hd
      · next x xs hx =>
        simp only [Except.ok.injEq] at hd
        rw [← hd' x (by rw [hx]; exact List.mem_cons_self), hd]
  refine ⟨?_, ?_⟩
  · intro q hq
    simp only [ps, List.mem_map] at hq
    obtain ⟨cols, hc, rfl⟩ := hq
    simp only [WF]
    refine ⟨indices_lt h, by rw [List.length_map, (pts_at h).1], cols.length, ?_⟩
    intro pt hpt
    obtain ⟨pt0, h0, rfl⟩ := List.mem_map.1 hpt
    have hin : ∀ c ∈ cols, c < pt0.length := by
      intro c hcc
      rw [hdim pt0 h0]
      exact List.mem_range.1 (splitLens_subset hc c hcc)
    rw [filterMap_getElem_range pt0 cols hin]
    simp
  · intro ρ hv
    refine ⟨?_, ?_⟩
    · intro q hq
      simp only [ps, List.mem_map] at hq
      obtain ⟨cols, hc, rfl⟩ := hq
      simpa [Valid, indices] using hv
    · simp only [ps, List.map_map]
      have hat := (pts_at h).2 hv
      have := split_columns ns (p.pointAt ρ) 0 (by
        rw [Nat.zero_add, hdim _ (pointAt_mem h hv)])
      rw [List.drop_zero, ← List.range_eq_range'] at this
      rw [← this]
      apply List.map_congr_left
      intro cols _
      simp only [Function.comp_apply, pointAt, List.getElem?_map, hat, Option.map_some, Option.getD_some]

/-- `factor_point_set` splits the selected point. -/
theorem factorPointSet_ok {n : Nat} {p : PSet K} {cs : List Cell} {ds : List Dim} {ps : List (PSet K)}
    (h : WF n p) (hf : factorPointSet cs ds p = .ok ps) :
    (∀ q ∈ ps, WF n q) ∧ ∀ ρ, Valid p ρ → (∀ q ∈ ps, Valid q ρ) ∧
      ps.map (fun q => q.pointAt ρ) = splitLens (ds.map Dim.total) (p.pointAt ρ) := by
  unfold factorPointSet at hf
  split at hf
  · cases hf
  rename_i hlen
  cases p with
  | singleton pt =>
    simp only [dimension, pts] at hf
    simp only [Except.bind, bind] at hf
    split at hf
    · cases hf
    · cases hf
      refine ⟨?_, ?_⟩
      · intro q hq
        obtain ⟨s, _, rfl⟩ := List.mem_map.1 hq
        simp [WF]
      · intro ρ _
        refine ⟨?_, ?_⟩
        · intro q hq
          obtain ⟨s, _, rfl⟩ := List.mem_map.1 hq
          simp [Valid, indices]
        · simp [pointAt, List.map_map, Function.comp_def]
  | unknown pts d idx =>
    simp only [dimension, Except.bind, bind] at hf
    split at hf <;> cases hf
  | points c pts idx =>
    simp only at hf
    rw [bind_ok] at hf
    obtain ⟨d, hd, hf⟩ := hf
    split at hf
    · cases hf
    · next hne =>
      cases hf
      exact split_ok h hd (by simpa using hne)
  | tensor fs =>
    simp only at hf
    split at hf
    · rw [bind_ok] at hf
      obtain ⟨dims, hdims, hf⟩ := hf
      split at hf
      · next he =>
        injection hf with hf
        subst hf
        simp only [WF] at h
        refine ⟨WFL_mem h, fun ρ hv => ?_⟩
        have hv' : ValidL fs ρ := by simpa [Valid, ValidL, indices] using hv
        refine ⟨ValidL_mem hv', ?_⟩
        rw [← he]
        simp only [pointAt]
        clear he hlen hv
        rename_i hcl
        clear hcl
        induction fs generalizing dims with
        | nil =>
          rw [List.mapM_nil] at hdims
          cases hdims
          rfl
        | cons f fs ih =>
          rw [List.mapM_cons, bind_ok] at hdims
          obtain ⟨d, hd, hdims⟩ := hdims
          rw [bind_ok] at hdims
          obtain ⟨dims', hds, hdims⟩ := hdims
          cases hdims
          simp only [WFL] at h
          have hvf : Valid f ρ := ValidL_mem hv' f List.mem_cons_self
          have hl := pointAt_length h.1 hvf hd
          simp only [List.map_cons, pointAtL, splitLens]
          rw [List.take_left' hl, List.drop_left' hl]
          congr 1
          exact ih h.2 _ hds (by
            intro i hi
            exact hv' i (by simp only [indicesL]; exact List.mem_append_right _ hi))
      · cases hf
    · rw [bind_ok] at hf
      obtain ⟨d, hd, hf⟩ := hf
      split at hf
      · cases hf
      · next hne =>
        cases hf
        exact split_ok h hd (by simpa using hne)

end PSet

end FInAT
