import Verif.Lemmas.ZanyNodal3

/-!
# Entries of the matrices of Bell, the point variant of Argyris and the reduced Hsieh-Clough-Tocher element
-/

namespace FInAT.Zany

open Finset FInAT.Piola FInAT.Spec.Zany

variable {K : Type} [Field K]

omit [Field K] in
theorem writes_congr (l : List (Nat × K)) (r r' : Nat → K) (c : Nat) (h : r c = r' c) :
    writes l r c = writes l r' c := by
  unfold writes
  induction l generalizing r r' with
  | nil => exact h
  | cons p l ih =>
    rw [List.foldl_cons, List.foldl_cons]
    refine ih _ _ ?_
    by_cases hc : c = p.1
    · subst hc; simp
    · rw [Function.update_of_ne hc, Function.update_of_ne hc, h]

omit [Field K] in
theorem writes_other (l : List (Nat × K)) (r : Nat → K) (c : Nat) (h : ∀ p ∈ l, p.1 ≠ c) :
    writes l r c = r c := by
  unfold writes
  induction l generalizing r with
  | nil => rfl
  | cons p l ih =>
    rw [List.foldl_cons, ih _ fun x hx => h x (List.mem_cons_of_mem _ hx),
      Function.update_of_ne (Ne.symm (h p (by simp)))]

theorem jetWrites2_lt (v0id v1id : Nat) (c0 c1 c2 Bnt : K) (Jt : NVec K) (h01 : v0id + 6 ≤ v1id) :
    ∀ p ∈ jetWrites2 v0id v1id c0 c1 c2 Bnt Jt, p.1 < v1id + 6 := by
  intro p hp
  simp only [jetWrites2, List.mem_cons, List.not_mem_nil, or_false] at hp
  rcases hp with h | h | h | h | h | h | h | h | h | h | h | h <;> subst h <;> simp only [] <;> omega

/-- The tangential coefficient of edge `e`. -/
def bnt (R : Tri K) (g : Geometry K) (e : Nat) : K :=
  (normalTangential g.J g.detJ (R.tangent e) (R.len e)).2.1

/-- The normal coefficient of edge `e`. -/
def bnn (R : Tri K) (g : Geometry K) (e : Nat) : K :=
  (normalTangential g.J g.detJ (R.tangent e) (R.len e)).1

omit [Field K] in
theorem fold_edges (step : Arr K → Nat → Arr K) (s0 : Nat) (gr : Nat → (Nat → K) → Nat → K)
    (hstep : ∀ V e, e < 3 → ∀ a, (step V e).get a = if a = s0 + e then gr e (V.get a) else V.get a) (V : Arr K) :
    (∀ e < 3, ((List.range 3).foldl step V).get (s0 + e) = gr e (V.get (s0 + e))) ∧
      ∀ a < s0, ((List.range 3).foldl step V).get a = V.get a := by
  have key := foldl_rows step (fun e a => a = s0 + e) (fun e _ r => gr e r) (List.range 3)
    (fun V e he a ha => by rw [hstep V e (List.mem_range.1 he), if_pos ha])
    (fun V e he a ha => by rw [hstep V e (List.mem_range.1 he), if_neg ha])
    (List.pairwise_lt_range.imp fun {x y} hxy a ha hb => by omega) V
  exact ⟨fun e he => key.1 e (List.mem_range.2 he) _ rfl, fun a ha => key.2 a fun e _ hae => by omega⟩

/-- Rows of the vertices have nothing in the columns after the vertices, the others are those of the
identity. -/
theorem vertex_outside (R : Tri K) (g : Geometry K) (N ncols vorder w : Nat) (hw : w = vwidth 2 vorder) :
    (∀ a < 3 * w, ∀ c, 3 * w ≤ c →
      (vertexTransform (identity N ncols) vorder (triangle R.vert) g).get a c = 0) ∧
    ∀ a, 3 * w ≤ a → (vertexTransform (identity N ncols) vorder (triangle R.vert) g).get a =
      fun c => if a = c then 1 else 0 := by
  obtain ⟨hG, hH, h0, h4⟩ := vertexTransform_rows (identity (K := K) N ncols) vorder (triangle R.vert) g
  rw [show (triangle R.vert).nverts = 3 from rfl, show (triangle R.vert).sd = 2 from rfl, ← hw] at hG hH h4
  rw [show (triangle R.vert).nverts = 3 from rfl, show (triangle R.vert).sd = 2 from rfl, ← hw] at h0
  have hwpos : 0 < w := by rw [hw]; unfold vwidth; omega
  have hw' : w = 1 + 2 + hdofs 2 vorder := hw
  refine ⟨fun a ha c hc => ?_, fun a ha => h4 a ha⟩
  obtain ⟨v, i, hv, hi, rfl⟩ : ∃ v i, v < 3 ∧ i < w ∧ a = v * w + i :=
    ⟨a / w, a % w, by rw [Nat.div_lt_iff_lt_mul hwpos]; omega, Nat.mod_lt _ hwpos,
      by rw [Nat.mul_comm]; exact (Nat.div_add_mod a w).symm⟩
  have hvw : v * w + w ≤ 3 * w := by
    have := Nat.mul_le_mul_right w (Nat.succ_le_of_lt hv)
    rwa [Nat.succ_mul] at this
  by_cases hi0 : i = 0
  · subst hi0
    rw [Nat.add_zero, h0 v hv]
    simp only [identity]
    rw [if_neg (by omega)]
  · by_cases hi2 : i ≤ 2
    · have := congrFun (hG v hv (i - 1) (by omega)) c
      rw [show v * w + 1 + (i - 1) = v * w + i by omega] at this
      refine this.trans ?_
      rw [if_neg (by omega)]
      simp only [identity]
      rw [if_neg (by omega)]
    · have := congrFun (hH v hv (i - 3) (by omega)) c
      rw [show v * w + 1 + 2 + (i - 3) = v * w + i by omega] at this
      refine this.trans ?_
      rw [if_neg (by omega)]
      simp only [identity]
      rw [if_neg (by omega)]

/-! ### Bell -/

/-- What Bell writes on the row of edge `e`. -/
def bellWrites (R : Tri K) (g : Geometry K) (e : Nat) : List (Nat × K) :=
  jetWrites2 ((ends e).1 * 6) ((ends e).2 * 6) (1 / 21) (-1 / 42) (1 / 252) (bnt R g e)
    (matVec 2 g.J (R.tangent e))

theorem bell_entries (R : Tri K) (g : Geometry K) :
    (∀ a < 3 * 6, ∀ c < 3 * 6, (bell (triangle R.vert) R.len g 21 18).get c a =
      (vertexTransform (identity 21 18) 2 (triangle R.vert) g).get a c * jetScale 6 2 3 g.h c) ∧
    ∀ e < 3, ∀ c < 3 * 6, (bell (triangle R.vert) R.len g 21 18).get c (3 * 6 + e) =
      writes (bellWrites R g e) (fun _ => 0) c * jetScale 6 2 3 g.h c := by
  have hb : ∀ c a, (bell (triangle R.vert) R.len g 21 18).get c a =
      ((List.range 3).foldl (bellStep (triangle R.vert) R.len g)
        (vertexTransform (identity 21 18) 2 (triangle R.vert) g)).get a c * jetScale 6 2 3 g.h c := by
    intro c a
    exact scaleJets2_get 6 2 3 3 rfl g.h _ a c
  have key := fold_edges (bellStep (triangle R.vert) R.len g) (3 * 6)
    (fun e r => writes (bellWrites R g e) r) (by
      intro V e he a
      unfold bellStep
      simp only [edges_getD R.vert e he]
      exact jetRow2_get _ _ _ _ _ _ _ _ V a)
    (vertexTransform (identity 21 18) 2 (triangle R.vert) g)
  obtain ⟨-, hV4⟩ := vertex_outside R g 21 18 2 6 rfl
  constructor
  · intro a ha c _
    rw [hb, key.2 a ha]
  · intro e he c hc
    rw [hb, key.1 e he, hV4 (3 * 6 + e) (by omega)]
    congr 1
    refine writes_congr _ _ _ _ ?_
    rw [if_neg (by omega)]

/-! ### Point variant of Argyris -/

/-- What the point variant of Argyris writes on the row of edge `e`, after the diagonal. -/
def pointWrites (R : Tri K) (g : Geometry K) (e : Nat) : List (Nat × K) :=
  jetWrites2 ((ends e).1 * 6) ((ends e).2 * 6) (15 / 8) (-7 / 16) (1 / 32) (bnt R g e)
    (matVec 2 g.J (R.tangent e))

/-- The factor of column `3 * 6 + e` of the point variant. -/
def edgeFactor (g : Geometry K) (e : Nat) : K := 2 / (g.h (ends e).1 + g.h (ends e).2)

theorem edgeScale_get (R : Tri K) (g : Geometry K) (V : Arr K) (a : Nat) :
    let V' := (List.range 3).foldl (fun (V : Arr K) e =>
      V.scaleCols (3 * 6 + e * 1) 1 (2 / (g.h ((triangle R.vert).edges.getD e (0, 0)).1 +
        g.h ((triangle R.vert).edges.getD e (0, 0)).2))) V
    (∀ c < 3 * 6, V'.get a c = V.get a c) ∧
      ∀ e < 3, V'.get a (3 * 6 + e) = V.get a (3 * 6 + e) * edgeFactor g e := by
  intro V'
  constructor
  · intro c hc
    simp only [V', List.range, List.range.loop, List.foldl_cons, List.foldl_nil, Arr.scaleCols]
    rw [if_neg (by omega), if_neg (by omega), if_neg (by omega)]
  · intro e he
    simp only [V', List.range, List.range.loop, List.foldl_cons, List.foldl_nil, Arr.scaleCols]
    rcases e with _ | _ | _ | e
    · rw [if_neg (by omega), if_neg (by omega), if_pos (by omega)]; rfl
    · rw [if_neg (by omega), if_pos (by omega), if_neg (by omega)]; rfl
    · rw [if_pos (by omega), if_neg (by omega), if_neg (by omega)]; rfl
    · omega

theorem point_entries (R : Tri K) (g : Geometry K) :
    (∀ a < 3 * 6, ∀ c < 3 * 6, (argyrisPoint (triangle R.vert) R.len g 21 5).get c a =
      (vertexTransform (identity 21 21) 2 (triangle R.vert) g).get a c * jetScale 6 2 3 g.h c) ∧
    (∀ a < 3 * 6, ∀ e < 3, (argyrisPoint (triangle R.vert) R.len g 21 5).get (3 * 6 + e) a = 0) ∧
    (∀ e < 3, ∀ c < 3 * 6, (argyrisPoint (triangle R.vert) R.len g 21 5).get c (3 * 6 + e) =
      writes (pointWrites R g e) (fun _ => 0) c * jetScale 6 2 3 g.h c) ∧
    ∀ e < 3, ∀ e' < 3, (argyrisPoint (triangle R.vert) R.len g 21 5).get (3 * 6 + e') (3 * 6 + e) =
      if e = e' then bnn R g e * g.pel e * edgeFactor g e else 0 := by
  let V0 := vertexTransform (identity 21 21) 2 (triangle R.vert) g
  let V1 := (List.range 3).foldl (argyrisPointStep (triangle R.vert) R.len g 0) V0
  let V2 := (List.range 3).foldl (scaleJets2 6 2 g.h) V1
  have hV2 : ∀ a c, V2.get a c = V1.get a c * jetScale 6 2 3 g.h c := fun a c =>
    scaleJets2_get 6 2 3 3 rfl g.h V1 a c
  have hb0 : argyrisPoint (triangle R.vert) R.len g 21 5 = ((List.range 3).foldl (fun (V : Arr K) e =>
      V.scaleCols (3 * 6 + e * 1) 1 (2 / (g.h ((triangle R.vert).edges.getD e (0, 0)).1 +
        g.h ((triangle R.vert).edges.getD e (0, 0)).2))) V2).T := by
    unfold argyrisPoint
    have h1 : (triangle R.vert).nverts = 3 := rfl
    have h2 : (triangle R.vert).sd = 2 := rfl
    have h3 : (triangle R.vert).edges.length = 3 := rfl
    have h4 : (2 + 2).choose 2 = 6 := rfl
    simp only [h1, h2, h3, h4, Nat.sub_self, Nat.mul_zero, Nat.zero_add]
    rfl
  have hb : ∀ a, (∀ c < 3 * 6, (argyrisPoint (triangle R.vert) R.len g 21 5).get c a = V2.get a c) ∧
      ∀ e < 3, (argyrisPoint (triangle R.vert) R.len g 21 5).get (3 * 6 + e) a =
        V2.get a (3 * 6 + e) * edgeFactor g e := fun a => by
    rw [hb0]; exact edgeScale_get R g V2 a
  have key := fold_edges (argyrisPointStep (triangle R.vert) R.len g 0) (3 * 6)
    (fun e r => writes (pointWrites R g e) (Function.update r (3 * 6 + e) (bnn R g e * g.pel e))) (by
      intro V e he a
      unfold argyrisPointStep
      simp only [edges_getD R.vert e he]
      refine (jetRow2_get _ _ _ _ _ _ _ _ _ a).trans ?_
      have hs : (triangle R.vert).nverts * ((triangle R.vert).sd + 2).choose 2 + e * (0 + 1) = 3 * 6 + e := by
        show 3 * 6 + e * (0 + 1) = 3 * 6 + e
        omega
      rw [hs]
      by_cases h : a = 3 * 6 + e
      · rw [if_pos h, if_pos h]
        simp only [Arr.set, if_pos h]
        rfl
      · rw [if_neg h, if_neg h]
        simp only [Arr.set, if_neg h]) V0
  obtain ⟨hz, hrow'⟩ := vertex_outside R g 21 21 2 6 rfl
  have hrow : ∀ e < 3, V0.get (3 * 6 + e) = fun b => if 3 * 6 + e = b then 1 else 0 := fun e he =>
    hrow' (3 * 6 + e) (by omega)
  refine ⟨?_, ?_, ?_, ?_⟩
  · intro a ha c hc
    rw [(hb a).1 c hc, hV2, key.2 a ha]
  · intro a ha e he
    rw [(hb a).2 e he, hV2, key.2 a ha]
    rw [show V0.get a (3 * 6 + e) = 0 from hz a ha _ (by omega), zero_mul, zero_mul]
  · intro e he c hc
    rw [(hb _).1 c hc, hV2, key.1 e he, hrow e he]
    congr 1
    refine writes_congr _ _ _ _ ?_
    rw [Function.update_of_ne (by omega), if_neg (by omega)]
  · intro e he e' he'
    rw [(hb _).2 e' he', hV2, key.1 e he, hrow e he, jetScale_after 6 2 3 _ _ (by omega)]
    rw [writes_other]
    · by_cases h : e = e'
      · subst h; simp
      · rw [Function.update_of_ne (by omega), if_neg (by omega), if_neg h]; ring
    · intro p hp
      obtain ⟨m1, m2⟩ := mul_ends 6 e
      have := jetWrites2_lt _ _ _ _ _ _ _ m1 p hp
      omega

/-! ### Reduced Hsieh-Clough-Tocher -/

/-- What the reduced Hsieh-Clough-Tocher element writes on the row of edge `e`. -/
def hctWrites (R : Tri K) (g : Geometry K) (e : Nat) : List (Nat × K) :=
  jetWrites1 ((ends e).1 * 3) ((ends e).2 * 3) (1 / 5) (1 / 10) (bnt R g e) (matVec 2 g.J (R.tangent e))

theorem reducedHct_entries (R : Tri K) (g : Geometry K) :
    (∀ a < 3 * 3, ∀ c < 3 * 3, (reducedHct (triangle R.vert) R.len g 12 9).get c a =
      (vertexTransform (identity 12 9) 1 (triangle R.vert) g).get a c * jetScale 3 2 3 g.h c) ∧
    ∀ e < 3, ∀ c < 3 * 3, (reducedHct (triangle R.vert) R.len g 12 9).get c (3 * 3 + e) =
      writes (hctWrites R g e) (fun _ => 0) c * jetScale 3 2 3 g.h c := by
  have hb : ∀ c a, (reducedHct (triangle R.vert) R.len g 12 9).get c a =
      ((List.range 3).foldl (reducedHctStep (triangle R.vert) R.len g)
        (vertexTransform (identity 12 9) 1 (triangle R.vert) g)).get a c * jetScale 3 2 3 g.h c := by
    intro c a
    exact scaleJets1_get 3 2 3 rfl g.h _ a c
  have key := fold_edges (reducedHctStep (triangle R.vert) R.len g) (3 * 3)
    (fun e r => writes (hctWrites R g e) r) (by
      intro V e he a
      unfold reducedHctStep
      simp only [edges_getD R.vert e he]
      have hsd : (triangle R.vert).sd = 2 := rfl
      have hs : (triangle R.vert).nverts * ((triangle R.vert).sd + 1).choose 1 + e = 3 * 3 + e := rfl
      have hch : ((triangle R.vert).sd + 1).choose 1 = 3 := rfl
      rw [hs, hch, hsd]
      by_cases h : a = 3 * 3 + e
      · subst h
        simp [Arr.set, List.range, List.range.loop, writes, hctWrites, jetWrites1, Nat.add_assoc]
        rfl
      · simp [Arr.set, List.range, List.range.loop, h])
    (vertexTransform (identity 12 9) 1 (triangle R.vert) g)
  obtain ⟨-, hV4⟩ := vertex_outside R g 12 9 1 3 rfl
  constructor
  · intro a ha c _
    rw [hb, key.2 a ha]
  · intro e he c hc
    rw [hb, key.1 e he, hV4 (3 * 3 + e) (by omega)]
    congr 1
    refine writes_congr _ _ _ _ ?_
    rw [if_neg (by omega)]

end FInAT.Zany
