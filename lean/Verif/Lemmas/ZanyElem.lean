import Verif.Lemmas.ZanyEdge

/-!
# Edge rows and column scalings
-/

namespace FInAT.Zany

open Finset FInAT.Piola FInAT.Spec.Zany

variable {K : Type} [Field K]

/-- The row written for moment `k`. -/
def momentRow (vorder eorder v0id v1id s : Nat) (Bnn Bnt : K) (k : Nat) (r : Nat → K) : Nat → K :=
  let r := Function.update r s Bnn
  let r := Function.update r v1id ((((k + vorder).choose k : Nat) : K) * Bnt)
  let r := Function.update r v0id ((-(-1) ^ k * (((k + vorder).choose k : Nat) : K)) * Bnt)
  if k > 0 then Function.update r (s + eorder) (-1 * Bnt) else r

theorem momentStep_get (vorder eorder v0id v1id s0 : Nat) (Bnn Bnt : K) (V : Arr K) (k a : Nat) :
    (momentStep vorder eorder v0id v1id s0 Bnn Bnt V k).get a =
      if a = s0 + k then momentRow vorder eorder v0id v1id (s0 + k) Bnn Bnt k (V.get a) else V.get a := by
  unfold momentStep momentRow
  by_cases hk : k > 0 <;> by_cases h : a = s0 + k <;> simp [hk, h, Arr.set]

theorem act_momentRow (N vorder eorder v0id v1id s : Nat) (Bnn Bnt : K) (k : Nat) (n : Nat → K)
    (hs : s < N) (h0 : v0id < N) (h1 : v1id < N) (h01 : v0id ≠ v1id) (hs0 : v0id < s) (hs1 : v1id < s)
    (hk : k ≤ eorder) (hse : s + eorder < N) :
    act N (momentRow vorder eorder v0id v1id s Bnn Bnt k (fun b => if s = b then 1 else 0)) n =
      Bnn * n s + (((k + vorder).choose k : Nat) : K) * Bnt * n v1id -
        (-1) ^ k * (((k + vorder).choose k : Nat) : K) * Bnt * n v0id -
        (if k > 0 then Bnt * n (s + eorder) else 0) := by
  unfold momentRow
  have a1 : s ≠ v1id := by omega
  have a2 : s ≠ v0id := by omega
  by_cases hk0 : k > 0
  · have a3 : s + eorder ≠ v0id := by omega
    have a4 : s + eorder ≠ v1id := by omega
    have a5 : eorder ≠ 0 := by omega
    simp only [hk0, if_true]
    rw [act_update _ _ _ _ _ hse, act_update _ _ _ _ _ h0, act_update _ _ _ _ _ h1, act_update _ _ _ _ _ hs,
      act_delta _ _ _ hs]
    simp [Function.update, a1, a2, a3, a4, a5, a1.symm, a2.symm, h01]
    ring
  · simp only [hk0, if_false]
    rw [act_update _ _ _ _ _ h0, act_update _ _ _ _ _ h1, act_update _ _ _ _ _ hs, act_delta _ _ _ hs]
    simp [Function.update, a1, a2, a1.symm, a2.symm, h01]
    ring

omit [Field K] in
theorem edges_getD (verts : Nat → NVec K) (e : Nat) (he : e < 3) :
    (triangle verts).edges.getD e (0, 0) = ends e := by
  rcases e with _ | _ | _ | e
  · rfl
  · rfl
  · rfl
  · omega

/-- The normal coefficient used for edge `e`. -/
def edgeBnn (verts : Nat → NVec K) (L : NVec K) (g : Geometry K) (avg : Bool) (e : Nat) : K :=
  if avg then (normalTangential g.J g.detJ (edgeTangent (triangle verts) (ends e)) (L e)).1 * g.pel e
  else (normalTangential g.J g.detJ (edgeTangent (triangle verts) (ends e)) (L e)).1

/-- The tangential coefficient used for edge `e`. -/
def edgeBnt (verts : Nat → NVec K) (L : NVec K) (g : Geometry K) (e : Nat) : K :=
  (normalTangential g.J g.detJ (edgeTangent (triangle verts) (ends e)) (L e)).2.1

theorem edgeStep_get (vorder eorder : Nat) (verts : Nat → NVec K) (L : NVec K) (g : Geometry K) (avg : Bool)
    (V : Arr K) (e : Nat) (he : e < 3) (vo : Nat) (hvo : (2 + vorder).choose vorder = vo) (a : Nat) :
    (edgeStep vorder eorder (triangle verts) L g avg V e).get a =
      if 3 * vo + e * (2 * eorder + 1) ≤ a ∧ a < 3 * vo + e * (2 * eorder + 1) + (eorder + 1) then
        momentRow vorder eorder ((ends e).1 * vo) ((ends e).2 * vo) a (edgeBnn verts L g avg e)
          (edgeBnt verts L g e) (a - (3 * vo + e * (2 * eorder + 1))) (V.get a)
      else V.get a := by
  subst hvo
  unfold edgeStep
  simp only [edges_getD verts e he]
  rw [show (triangle verts).sd = 2 from rfl, show (triangle verts).nverts = 3 from rfl]
  generalize hs0 : 3 * (2 + vorder).choose vorder + e * (2 * eorder + 1) = s0
  have key := foldl_rows (momentStep vorder eorder ((ends e).1 * (2 + vorder).choose vorder)
    ((ends e).2 * (2 + vorder).choose vorder) s0 (edgeBnn verts L g avg e) (edgeBnt verts L g e))
    (fun k a => a = s0 + k)
    (fun k a r => momentRow vorder eorder ((ends e).1 * (2 + vorder).choose vorder)
      ((ends e).2 * (2 + vorder).choose vorder) (s0 + k) (edgeBnn verts L g avg e) (edgeBnt verts L g e) k r)
    (List.range (eorder + 1))
    (fun V k _ a ha => by rw [momentStep_get, if_pos ha])
    (fun V k _ a ha => by rw [momentStep_get, if_neg ha])
    (List.pairwise_lt_range.imp fun {x y} hxy a ha hb => by omega) V
  by_cases ha : s0 ≤ a ∧ a < s0 + (eorder + 1)
  · rw [if_pos ha]
    obtain ⟨k, rfl⟩ : ∃ k, a = s0 + k := ⟨a - s0, by omega⟩
    rw [Nat.add_sub_cancel_left]
    exact key.1 k (List.mem_range.2 (by omega)) _ rfl
  · rw [if_neg ha]
    exact key.2 a fun k hk hak => ha (by rw [List.mem_range] at hk; omega)

theorem edgeTransform_rows (vorder eorder : Nat) (verts : Nat → NVec K) (L : NVec K) (g : Geometry K)
    (avg : Bool) (V : Arr K) (vo : Nat) (hvo : (2 + vorder).choose vorder = vo) :
    (∀ e < 3, ∀ k ≤ eorder, (edgeTransform V vorder eorder (triangle verts) L g avg).get
        (3 * vo + e * (2 * eorder + 1) + k) =
      momentRow vorder eorder ((ends e).1 * vo) ((ends e).2 * vo) (3 * vo + e * (2 * eorder + 1) + k)
        (edgeBnn verts L g avg e) (edgeBnt verts L g e) k (V.get (3 * vo + e * (2 * eorder + 1) + k))) ∧
    (∀ e < 3, ∀ k, eorder < k → k < 2 * eorder + 1 → (edgeTransform V vorder eorder (triangle verts) L g avg).get
        (3 * vo + e * (2 * eorder + 1) + k) = V.get (3 * vo + e * (2 * eorder + 1) + k)) ∧
    (∀ a < 3 * vo, (edgeTransform V vorder eorder (triangle verts) L g avg).get a = V.get a) ∧
    ∀ a, 3 * vo + 3 * (2 * eorder + 1) ≤ a →
      (edgeTransform V vorder eorder (triangle verts) L g avg).get a = V.get a := by
  have key := foldl_rows (edgeStep vorder eorder (triangle verts) L g avg)
    (fun e a => 3 * vo + e * (2 * eorder + 1) ≤ a ∧ a < 3 * vo + e * (2 * eorder + 1) + (eorder + 1))
    (fun e a r => momentRow vorder eorder ((ends e).1 * vo) ((ends e).2 * vo) a (edgeBnn verts L g avg e)
      (edgeBnt verts L g e) (a - (3 * vo + e * (2 * eorder + 1))) r) (List.range 3)
    (fun V e he a ha => by rw [edgeStep_get _ _ _ _ _ _ _ _ (List.mem_range.1 he) vo hvo, if_pos ha])
    (fun V e he a ha => by rw [edgeStep_get _ _ _ _ _ _ _ _ (List.mem_range.1 he) vo hvo, if_neg ha])
    (List.pairwise_lt_range.imp fun {x y} hxy a ha hb => by
      have := Nat.mul_le_mul_right (2 * eorder + 1) (Nat.succ_le_of_lt hxy)
      rw [Nat.succ_mul] at this
      omega) V
  have hE : edgeTransform V vorder eorder (triangle verts) L g avg =
    (List.range 3).foldl (edgeStep vorder eorder (triangle verts) L g avg) V := rfl
  rw [hE]
  have hdist : ∀ x y : Nat, x < y → x * (2 * eorder + 1) + (2 * eorder + 1) ≤ y * (2 * eorder + 1) := by
    intro x y hxy
    have := Nat.mul_le_mul_right (2 * eorder + 1) (Nat.succ_le_of_lt hxy)
    rwa [Nat.succ_mul] at this
  refine ⟨?_, ?_, ?_, ?_⟩
  · intro e he k hk
    rw [key.1 e (List.mem_range.2 he) _ ⟨by omega, by omega⟩, Nat.add_sub_cancel_left]
  · intro e he k hk1 hk2
    refine key.2 _ ?_
    rintro x hx ⟨h1, h2⟩
    rcases Nat.lt_trichotomy x e with h | h | h
    · have := hdist _ _ h; omega
    · subst h; omega
    · have := hdist _ _ h; omega
  · intro a ha
    refine key.2 _ ?_
    rintro x hx ⟨h1, h2⟩
    omega
  · intro a ha
    refine key.2 _ ?_
    rintro x hx ⟨h1, h2⟩
    have := hdist _ _ (List.mem_range.1 hx)
    omega

/-! ### Column scalings -/

/-- The factor of column `b` after the scaling of the vertex jets. -/
def jetScale (w sd nv : Nat) (h : NVec K) (b : Nat) : K :=
  if b < nv * w then
    if b % w = 0 then 1 else if b % w ≤ sd then 1 / h (b / w) else 1 / (h (b / w) * h (b / w))
  else 1

theorem divmod (w v c : Nat) (hc : c < w) : (v * w + c) / w = v ∧ (v * w + c) % w = c := by
  constructor
  · rw [Nat.mul_comm, Nat.mul_add_div (by omega), Nat.div_eq_of_lt hc, Nat.add_zero]
  · rw [Nat.mul_comm, Nat.mul_add_mod, Nat.mod_eq_of_lt hc]

theorem scaleJets2_get (w sd hd nv : Nat) (hw : w = 1 + sd + hd) (h : NVec K) (V : Arr K) (a b : Nat) :
    ((List.range nv).foldl (scaleJets2 w sd h) V).get a b = V.get a b * jetScale w sd nv h b := by
  induction nv with
  | zero => simp [jetScale]
  | succ nv ih =>
    rw [List.range_succ, List.foldl_append, List.foldl_cons, List.foldl_nil]
    simp only [scaleJets2, Arr.scaleCols, ih]
    have hmul : w * nv = nv * w := Nat.mul_comm _ _
    have hmul2 : w * (nv + 1) = nv * w + w := by ring
    have hmul3 : (nv + 1) * w = nv * w + w := by ring
    rw [hmul, hmul2]
    unfold jetScale
    rw [hmul3]
    by_cases h1 : b < nv * w
    · have h1' : b < nv * w + w := by omega
      rw [if_neg (by omega), if_neg (by omega), if_pos h1, if_pos h1']
    · by_cases h2 : b < nv * w + w
      · obtain ⟨c, rfl⟩ : ∃ c, b = nv * w + c := ⟨b - nv * w, by omega⟩
        obtain ⟨hd1, hd2⟩ := divmod w nv c (by omega)
        rw [if_neg h1, if_pos h2, hd1, hd2]
        by_cases hc0 : c = 0
        · rw [if_neg (by omega), if_neg (by omega), if_pos hc0, mul_one]
        · by_cases hcs : c ≤ sd
          · rw [if_neg (by omega), if_pos (by omega), if_neg hc0, if_pos hcs, mul_one]
          · rw [if_pos (by omega), if_neg (by omega), if_neg hc0, if_neg hcs, mul_one]
      · rw [if_neg (by omega), if_neg (by omega), if_neg h1, if_neg h2]

theorem scaleJets1_get (w sd nv : Nat) (hw : w = 1 + sd) (h : NVec K) (V : Arr K) (a b : Nat) :
    ((List.range nv).foldl (scaleJets1 w sd h) V).get a b = V.get a b * jetScale w sd nv h b := by
  induction nv with
  | zero => simp [jetScale]
  | succ nv ih =>
    rw [List.range_succ, List.foldl_append, List.foldl_cons, List.foldl_nil]
    simp only [scaleJets1, Arr.scaleCols, ih]
    have hmul : w * nv = nv * w := Nat.mul_comm _ _
    have hmul3 : (nv + 1) * w = nv * w + w := by ring
    rw [hmul]
    unfold jetScale
    rw [hmul3]
    by_cases h1 : b < nv * w
    · have h1' : b < nv * w + w := by omega
      rw [if_neg (by omega), if_pos h1, if_pos h1']
    · by_cases h2 : b < nv * w + w
      · obtain ⟨c, rfl⟩ : ∃ c, b = nv * w + c := ⟨b - nv * w, by omega⟩
        obtain ⟨hd1, hd2⟩ := divmod w nv c (by omega)
        rw [if_neg h1, if_pos h2, hd1, hd2]
        by_cases hc0 : c = 0
        · rw [if_neg (by omega), if_pos hc0, mul_one]
        · rw [if_pos (by omega), if_neg hc0, if_pos (by omega), mul_one]
      · rw [if_neg (by omega), if_neg h1, if_neg h2]

/-- Scaling the columns is the same as scaling the degrees of freedom. -/
theorem act_scaled (N : Nat) (r sc n n0 : Nat → K) (h : ∀ k < N, n0 k = sc k * n k) :
    act N (fun b => r b * sc b) n = act N r n0 := by
  unfold act
  refine Finset.sum_congr rfl fun k hk => ?_
  rw [h k (Finset.mem_range.1 hk)]
  ring

end FInAT.Zany
