import Verif.Lemmas.ZanyNodal

/-!
# Hermite, Powell-Sabin: curved cells, loops of single writes
-/

namespace FInAT.Spec.Zany

open MvPolynomial Finset

variable {K : Type} [Field K] {d : Nat}

theorem value_pullBy (F : Nat → MvPolynomial (Fin d) K) (x : Nat → K) (f : MvPolynomial (Fin d) K) :
    value x (pullBy F f) = value (fun i => value x (F i)) f := by
  have : (value x).comp (pullBy F) = value (d := d) (fun i => value x (F i)) := by
    ext i
    simp [value, pullBy]
  exact DFunLike.congr_fun this f

theorem pderiv_pullBy (F : Nat → MvPolynomial (Fin d) K) (j : Fin d) (f : MvPolynomial (Fin d) K) :
    pderiv j (pullBy F f) = ∑ i : Fin d, pderiv j (F i) * pullBy F (pderiv i f) := by
  induction f using MvPolynomial.induction_on with
  | C a => simp [pullBy, algebraMap_eq]
  | add p q hp hq => simp only [map_add, hp, hq, mul_add, Finset.sum_add_distrib]
  | mul_X p n hp =>
    rw [map_mul, pderiv_mul, hp]
    have h1 : pullBy F (X n) = F n := by simp [pullBy]
    rw [h1]
    simp only [pderiv_mul, pderiv_X, map_add, map_mul, mul_add, Finset.sum_add_distrib]
    congr 1
    · rw [Finset.sum_mul]
      exact Finset.sum_congr rfl fun i _ => by rw [h1]; ring
    · rw [Finset.sum_eq_single n]
      · simp [mul_comm]
      · intro k _ hk; simp [Pi.single_eq_of_ne (Ne.symm hk)]
      · simp

theorem value_D_pullBy (F : Nat → MvPolynomial (Fin d) K) (x : Nat → K) (j : Nat) (hj : j < d)
    (f : MvPolynomial (Fin d) K) :
    value x (D j (pullBy F f)) =
      ∑ i ∈ range d, value x (D j (F i)) * value (fun i => value x (F i)) (D i f) := by
  simp only [D, hj, dif_pos, pderiv_pullBy, Finset.sum_range, Fin.is_lt, map_sum, map_mul, value_pullBy]

end FInAT.Spec.Zany

namespace FInAT.Zany

open Finset FInAT.Piola FInAT.Spec.Zany

variable {K : Type} [Field K]

omit [Field K] in
theorem Arr.ext' {V W : Arr K} (h1 : V.rows = W.rows) (h2 : V.cols = W.cols) (h3 : V.get = W.get) : V = W := by
  cases V; cases W; simp_all

omit [Field K] in
/-- A row written entry by entry. -/
theorem set_loop (r c n : Nat) (B : Nat → K) (V : Arr K) :
    (List.range n).foldl (fun V k => V.set r (c + k) (B k)) V = V.setBlock r c 1 n fun _ => B := by
  induction n with
  | zero =>
    refine Arr.ext' rfl rfl ?_
    funext a b
    simp only [List.range_zero, List.foldl_nil, Arr.setBlock]
    split
    · beta_reduce; rw [if_neg (by omega)]
    · rfl
  | succ n ih =>
    rw [List.range_succ, List.foldl_append, ih]
    refine Arr.ext' rfl rfl ?_
    funext a b
    simp only [List.foldl_cons, List.foldl_nil, Arr.set, Arr.setBlock]
    by_cases ha : a = r
    · subst ha
      rw [if_pos rfl, if_pos ⟨le_rfl, by omega⟩, if_pos ⟨le_rfl, by omega⟩]
      by_cases hb : b = c + n
      · subst hb
        rw [Function.update_self, if_pos ⟨by omega, by omega⟩, Nat.add_sub_cancel_left]
      · rw [Function.update_of_ne hb]
        by_cases hb2 : c ≤ b ∧ b < c + n
        · rw [if_pos hb2, if_pos ⟨hb2.1, by omega⟩]
        · rw [if_neg hb2, if_neg (by omega)]
    · rw [if_neg ha, if_neg (by omega), if_neg (by omega)]

omit [Field K] in
/-- A block written entry by entry. -/
theorem set_loop2 (r c m n : Nat) (B : NMat K) (V : Arr K) :
    (List.range m).foldl (fun V j => (List.range n).foldl (fun V k => V.set (r + j) (c + k) (B j k)) V) V =
      V.setBlock r c m n B := by
  simp only [set_loop]
  induction m with
  | zero =>
    refine Arr.ext' rfl rfl ?_
    funext a b
    simp only [List.range_zero, List.foldl_nil, Arr.setBlock]
    rw [if_neg (by omega)]
  | succ m ih =>
    rw [List.range_succ, List.foldl_append, ih]
    refine Arr.ext' rfl rfl ?_
    funext a
    simp only [List.foldl_cons, List.foldl_nil, Arr.setBlock]
    by_cases ha : a = r + m
    · subst ha
      rw [if_pos ⟨le_rfl, by omega⟩, if_neg (by omega), if_pos ⟨by omega, by omega⟩, Nat.add_sub_cancel_left]
    · rw [if_neg (show ¬ (r + m ≤ a ∧ a < r + m + 1) by omega)]
      by_cases ha2 : r ≤ a ∧ a < r + m
      · rw [if_pos ha2, if_pos ⟨ha2.1, by omega⟩]
      · rw [if_neg ha2, if_neg (by omega)]

theorem scale_loop (c n : Nat) (x : K) (V : Arr K) :
    (List.range n).foldl (fun V k => V.scaleCols (c + k) 1 x) V = V.scaleCols c n x := by
  induction n with
  | zero =>
    refine Arr.ext' rfl rfl ?_
    funext a b
    simp only [List.range_zero, List.foldl_nil, Arr.scaleCols]
    rw [if_neg (by omega)]
  | succ n ih =>
    rw [List.range_succ, List.foldl_append, ih]
    refine Arr.ext' rfl rfl ?_
    funext a b
    simp only [List.foldl_cons, List.foldl_nil, Arr.scaleCols]
    by_cases hb : b = c + n
    · subst hb
      rw [if_pos ⟨le_rfl, by omega⟩, if_neg (by omega), if_pos ⟨by omega, by omega⟩]
    · rw [if_neg (show ¬ (c + n ≤ b ∧ b < c + n + 1) by omega)]
      by_cases hb2 : c ≤ b ∧ b < c + n
      · rw [if_pos hb2, if_pos ⟨hb2.1, by omega⟩]
      · rw [if_neg hb2, if_neg (by omega)]

/-! ### Hermite -/

theorem hermite_eq (d : Nat) (g : Geometry K) (N : Nat) :
    hermite d g N = (List.range (d + 1)).foldl (fun M i => M.setBlock (i * (d + 1) + 1) (i * (d + 1) + 1) d d
      fun j k => g.Js i j k / g.h i) (identity N N) := by
  unfold hermite
  rw [foldl_counter _ (d + 1) (fun M i => M.setBlock (i * (d + 1) + 1) (i * (d + 1) + 1) d d
    fun j k => g.Js i j k / g.h i)]
  rintro s V v rfl
  simp only [hermiteStep]
  refine Prod.ext ?_ ?_
  · ring_nf
  · exact set_loop2 _ _ _ _ _ _

theorem hermite_rows (d : Nat) (g : Geometry K) (N : Nat) :
    (∀ v < d + 1, ∀ j < d, (hermite d g N).get (v * (d + 1) + 1 + j) = fun b =>
      if v * (d + 1) + 1 ≤ b ∧ b < v * (d + 1) + 1 + d then g.Js v j (b - (v * (d + 1) + 1)) / g.h v
      else if v * (d + 1) + 1 + j = b then 1 else 0) ∧
    (∀ v < d + 1, (hermite d g N).get (v * (d + 1)) = fun b => if v * (d + 1) = b then 1 else 0) ∧
    ∀ a, (d + 1) * (d + 1) ≤ a → (hermite d g N).get a = fun b => if a = b then 1 else 0 := by
  rw [hermite_eq]
  set w := d + 1 with hw
  have hdist : ∀ x y : Nat, x < y → x * w + w ≤ y * w := by
    intro x y hxy
    have := Nat.mul_le_mul_right w (Nat.succ_le_of_lt hxy)
    rwa [Nat.succ_mul] at this
  have key := foldl_rows (fun (M : Arr K) i => M.setBlock (i * w + 1) (i * w + 1) d d
      fun j k => g.Js i j k / g.h i)
    (fun v a => v * w + 1 ≤ a ∧ a < v * w + 1 + d)
    (fun v a r => fun b => if v * w + 1 ≤ b ∧ b < v * w + 1 + d then
      g.Js v (a - (v * w + 1)) (b - (v * w + 1)) / g.h v else r b)
    (List.range w) (?hin) (?hout) (?hd) (identity N N)
  case hin =>
    intro V v hv a ha
    simp only [Arr.setBlock]
    rw [if_pos ha]
  case hout =>
    intro V v hv a ha
    simp only [Arr.setBlock]
    rw [if_neg ha]
  case hd =>
    refine List.pairwise_lt_range.imp ?_
    rintro x y hxy a ⟨ha1, ha2⟩ ⟨hb1, hb2⟩
    have := hdist _ _ hxy
    omega
  obtain ⟨h1, h2⟩ := key
  refine ⟨?_, ?_, ?_⟩
  · intro v hv j hj
    rw [h1 v (List.mem_range.2 hv) _ ⟨by omega, by omega⟩, Nat.add_sub_cancel_left]
    rfl
  · intro v hv
    rw [h2]
    · rfl
    rintro x hx ⟨hx1, hx2⟩
    rcases Nat.lt_trichotomy x v with h | h | h
    · have := hdist _ _ h; omega
    · subst h; omega
    · have := hdist _ _ h; omega
  · intro a ha
    rw [h2]
    · rfl
    rintro x hx ⟨hx1, hx2⟩
    have := hdist x w (List.mem_range.1 hx)
    omega

/-- A column of `hermite` against a vector. -/
theorem hermite_column (d : Nat) (g : Geometry K) (N : Nat) (n : Nat → K) :
    (∀ v < d + 1, ∀ k < d, (d + 1) * (d + 1) ≤ N →
      ∑ a ∈ range N, (hermite d g N).get a (v * (d + 1) + 1 + k) * n a =
        ∑ j ∈ range d, g.Js v j k / g.h v * n (v * (d + 1) + 1 + j)) ∧
    (∀ v < d + 1, (d + 1) * (d + 1) ≤ N →
      ∑ a ∈ range N, (hermite d g N).get a (v * (d + 1)) * n a = n (v * (d + 1))) ∧
    ∀ c, (d + 1) * (d + 1) ≤ c → c < N → ∑ a ∈ range N, (hermite d g N).get a c * n a = n c := by
  obtain ⟨hG, h0, hr⟩ := hermite_rows d g N
  set w := d + 1 with hw
  have hdist : ∀ x y : Nat, x < y → x * w + w ≤ y * w := by
    intro x y hxy
    have := Nat.mul_le_mul_right w (Nat.succ_le_of_lt hxy)
    rwa [Nat.succ_mul] at this
  -- every entry
  have hent : ∀ a c, (hermite d g N).get a c =
      if a < w * w ∧ c < w * w ∧ a / w = c / w ∧ a % w ≠ 0 ∧ c % w ≠ 0 then
        g.Js (a / w) (a % w - 1) (c % w - 1) / g.h (a / w) else if a = c then 1 else 0 := by
    intro a c
    have hdm := Nat.div_add_mod a w
    have hdc := Nat.div_add_mod c w
    have hma := Nat.mod_lt a (show 0 < w by omega)
    have hmc := Nat.mod_lt c (show 0 < w by omega)
    rw [Nat.mul_comm] at hdm hdc
    by_cases ha : a < w * w
    · have hv : a / w < w := by rw [Nat.div_lt_iff_lt_mul (by omega)]; exact ha
      by_cases hz : a % w = 0
      · have : a = a / w * w := by omega
        rw [if_neg (by tauto)]
        conv_lhs => rw [this]
        rw [h0 _ hv, ← this]
      · have he : a = a / w * w + 1 + (a % w - 1) := by omega
        have hrow := hG (a / w) hv (a % w - 1) (by omega)
        rw [← he] at hrow
        rw [hrow]
        simp only []
        by_cases hb : a / w * w + 1 ≤ c ∧ c < a / w * w + 1 + d
        · have hq : c / w = a / w := by
            refine Nat.div_eq_of_lt_le (by omega) ?_
            rw [Nat.succ_mul]; omega
          have hmod : c % w = c - a / w * w := by rw [hq] at hdc; omega
          have hlt : c < w * w := by have := hdist _ _ hv; omega
          rw [if_pos hb, if_pos ⟨ha, hlt, hq.symm, hz, by omega⟩, hmod]
          congr 2
        · rw [if_neg hb]
          by_cases hcond : a < w * w ∧ c < w * w ∧ a / w = c / w ∧ a % w ≠ 0 ∧ c % w ≠ 0
          · obtain ⟨-, -, h3, -, h5⟩ := hcond
            rw [← h3] at hdc
            omega
          · rw [if_neg hcond]
    · rw [hr a (by omega), if_neg (by tauto)]
  refine ⟨?_, ?_, ?_⟩
  · intro v hv k hk hN
    have hvw : v * w + w ≤ w * w := hdist v w hv
    have hq := divmod w v (1 + k) (by omega)
    rw [← Nat.add_assoc] at hq
    have hsub : Ico (v * w + 1) (v * w + 1 + d) ⊆ range N := by
      intro x hx; rw [Finset.mem_Ico] at hx; rw [Finset.mem_range]; omega
    rw [← Finset.sum_subset hsub]
    · rw [Finset.sum_Ico_eq_sum_range, Nat.add_sub_cancel_left]
      refine Finset.sum_congr rfl fun j hj => ?_
      rw [Finset.mem_range] at hj
      have hq' := divmod w v (1 + j) (by omega)
      rw [← Nat.add_assoc] at hq'
      rw [hent, hq.1, hq.2, hq'.1, hq'.2, if_pos ⟨by omega, by omega, rfl, by omega, by omega⟩,
        Nat.add_sub_cancel_left, Nat.add_sub_cancel_left]
    · intro x _ hx
      rw [Finset.mem_Ico] at hx
      rw [hent, hq.1, hq.2, if_neg, if_neg (by omega), zero_mul]
      rintro ⟨_, _, h3, h4, _⟩
      have hdm := Nat.div_add_mod x w
      have hma := Nat.mod_lt x (show 0 < w by omega)
      rw [Nat.mul_comm, h3] at hdm
      omega
  · intro v hv hN
    have hvw : v * w + w ≤ w * w := hdist v w hv
    have hq := divmod w v 0 (by omega)
    rw [Nat.add_zero] at hq
    rw [Finset.sum_eq_single (v * w)]
    · rw [hent, hq.2, if_neg (by tauto), if_pos rfl, one_mul]
    · intro a _ ha
      rw [hent, hq.2, if_neg (by tauto), if_neg ha, zero_mul]
    · intro h; exact absurd (Finset.mem_range.2 (by omega)) h
  · intro c hc hcN
    rw [Finset.sum_eq_single c]
    · rw [hent, if_neg (by omega), if_pos rfl, one_mul]
    · intro a _ ha
      rw [hent, if_neg (by omega), if_neg ha, zero_mul]
    · intro h; exact absurd (Finset.mem_range.2 hcN) h

/-! ### Powell-Sabin -/

theorem powellSabin12_eq (R : Tri K) (g : Geometry K) (N : Nat) (avg : Bool) :
    powellSabin12 (triangle R.vert) R.len g N avg = hct (triangle R.vert) R.len g N 3 avg := by
  have h1 : ∀ V : Arr K, (List.range (triangle R.vert).nverts).foldl (fun V v =>
      (List.range (triangle R.vert).sd).foldl (fun V i =>
        (List.range (triangle R.vert).sd).foldl (fun V j =>
          V.set (((triangle R.vert).sd + 1) * v + 1 + i) (((triangle R.vert).sd + 1) * v + 1 + j) (g.J j i)) V) V) V =
      vertexTransform V 1 (triangle R.vert) g := by
    intro V
    rw [vertexTransform_eq]
    congr 1
    funext V v
    rw [set_loop2 _ _ _ _ (fun i j => g.J j i) V]
    unfold vertexStep'
    have hw : vwidth (triangle R.vert).sd 1 = 3 := rfl
    have hs : (triangle R.vert).sd = 2 := rfl
    have hh : hdofs (triangle R.vert).sd 1 = 0 := rfl
    rw [hw, hh, hs]
    refine Arr.ext' rfl rfl ?_
    funext a b
    simp only [Arr.setBlock]
    rw [if_neg (show ¬ (v * 3 + 1 + 2 ≤ a ∧ a < v * 3 + 1 + 2 + 0) by omega),
      show (2 + 1) * v = v * 3 by omega]
    rfl
  have h2 : ∀ V : Arr K, (List.range (triangle R.vert).nverts).foldl (fun V v =>
      (List.range (triangle R.vert).sd).foldl (fun V k =>
        V.scaleCols (((triangle R.vert).sd + 1) * v + 1 + k) 1 (1 / g.h v)) V) V =
      (List.range (triangle R.vert).nverts).foldl (scaleJets1 (((triangle R.vert).sd + 1).choose 1)
        (triangle R.vert).sd g.h) V := by
    intro V
    congr 1
    funext V v
    rw [scale_loop, scaleJets1, Nat.choose_one_right]
  unfold powellSabin12 hct
  simp only [h1, h2, Nat.sub_self]

end FInAT.Zany
