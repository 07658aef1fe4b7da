import Verif.Props.Smooth
import Verif.Lemmas.SmoothSplit

/-!
# Functions of the Powell-Sabin and Morley elements on two triangles with a common edge (C94)

As for C91: on each of two physical triangles with a common edge there is a function of the element, given by
coefficients in the basis that `basis_transformation` yields, and the coefficients that belong to the common vertices and
the common edge agree. Functions of the Powell-Sabin elements are piecewise quadratic; the edges are split in two.
-/

namespace FInAT.Props

open Finset FInAT.Zany FInAT.Spec.Zany

variable {K : Type} [Field K]

theorem eq_combine {V : Type} [AddCommGroup V] [Module K V] {ℓ ℓ' : Fn 2 K → V} (h : IsLinearMap K ℓ)
    (h' : IsLinearMap K ℓ') {N n : Nat} {M : Nat → Nat → K} {φ : Nat → Fn 2 K} (c : Nat → K)
    (H : ∀ j < N, ℓ (φ j) = ℓ' (φ j)) :
    ℓ (combine n c (transformed N M φ)) = ℓ' (combine n c (transformed N M φ)) := by
  rw [combine_linear h, combine_linear h']
  refine Finset.sum_congr rfl fun i _ => ?_
  congr 1
  have := combine_linear h N (M i) φ
  have h2 := combine_linear h' N (M i) φ
  unfold combine at this h2
  unfold transformed
  rw [this, h2]
  exact Finset.sum_congr rfl fun j hj => by rw [H j (Finset.mem_range.1 hj)]

theorem valueD_piece_linear (y : Nat → K) (k : Nat) (p : Piece) :
    IsLinearMap K fun f : Fn 2 K => value y (D k (f p)) :=
  ⟨fun f f' => by simp [D_add], fun a f => by simp [D_smul]⟩

theorem traceD_piece_linear (y z : Nat → K) (k : Nat) (p : Piece) :
    IsLinearMap K fun f : Fn 2 K => trace y z (D k (f p)) :=
  ⟨fun f f' => by simp [D_add], fun a f => by simp [D_smul]⟩

/-! ### The element on the split into twelve triangles -/

/-- One cell of `QuadraticPowellSabin12`: on both halves of each edge the basis functions of the reference element, as
functions of the physical coordinates, are quadratic polynomials with the same first derivatives where they meet, and
they are nodal on the reference cell. -/
structure Ps12Cell (R : Tri K) (S : Split K) (avg : Bool) (g : Geometry K) (b : Nat → K) (φ : Nat → Fn 2 K) : Prop where
  affine : Affine R g b
  fits : ∀ j < 12, (phys R g b avg).Fits S 3 (φ j)
  knots : ∀ j < 12, (phys R g b avg).Knots S (φ j)
  degree : ∀ j < 12, ∀ e < 3, ∀ i < 2, (φ j (.edge e i)).totalDegree ≤ 2
  nodal : Nodal 12 (R.jetDofs 3 fun e => R.normalMoment S e 1) fun j => (φ j).pull g.J b

/-- `QuadraticPowellSabin12`: the functions are continuously differentiable across the common edge. -/
theorem C94_powellSabin12 [CharZero K] (R : Tri K) (S : Split K) (hS : S.Two) (avg : Bool) (g g' : Geometry K)
    (b b' : Nat → K) (φ φ' : Nat → Fn 2 K) (E : Ps12Cell R S avg g b φ) (E' : Ps12Cell R S avg g' b' φ') (e e' : Nat)
    (H : SharedEdge (phys R g b avg) (phys R g' b' avg) e e') (c c' : Nat → K) (hv : SameAtEnds 3 e e' c c')
    (he : SameOnEdge 3 1 e e' c c') :
    SmoothOn S (phys R g b avg) (phys R g' b' avg) e e'
      (combine 12 c (transformed 12 (powellSabin12 (triangle R.vert) R.len g 12 avg).get φ))
      (combine 12 c' (transformed 12 (powellSabin12 (triangle R.vert) R.len g' 12 avg).get φ')) := by
  have hOK : S.OK := ⟨by rw [hS.segments]; omega, hS.first, by rw [hS.segments]; exact hS.last⟩
  have co := combine_nodal (jetDofs_linear _ _ _ fun k => normalMoment_linear _ S _ _)
    (C37_powellSabin12 R S hOK g b E.affine avg φ E.fits E.nodal) c
  have co' := combine_nodal (jetDofs_linear _ _ _ fun k => normalMoment_linear _ S _ _)
    (C37_powellSabin12 R S hOK g' b' E'.affine avg φ' E'.fits E'.nodal) c'
  have e1 := ends_lt e
  have e2 := ends_lt e'
  have hm := hS.segments
  have jl : ∀ v < 3, ∀ k < 3, v * 3 + k < 12 := fun v hv k hk => by omega
  have m1 := co (3 * 3 + e) (by have := H.left; omega)
  have m2 := co' (3 * 3 + e') (by have := H.right; omega)
  rw [jetDofs_rest] at m1 m2
  have j1 := fun v hv k hk => co (v * 3 + k) (jl v hv k hk)
  have j2 := fun v hv k hk => co' (v * 3 + k) (jl v hv k hk)
  have hk := eq_combine (M := (powellSabin12 (triangle R.vert) R.len g 12 avg).get) (n := 12) (φ := φ)
    (valueD_piece_linear ((phys R g b avg).point e (S.pt 1)) 0 (.edge e 0))
    (valueD_piece_linear ((phys R g b avg).point e (S.pt 1)) 0 (.edge e 1)) c
    (fun j hj => E.knots j hj e H.left 0 (by omega) 0 (by omega))
  have hk2 := eq_combine (M := (powellSabin12 (triangle R.vert) R.len g 12 avg).get) (n := 12) (φ := φ)
    (valueD_piece_linear ((phys R g b avg).point e (S.pt 1)) 1 (.edge e 0))
    (valueD_piece_linear ((phys R g b avg).point e (S.pt 1)) 1 (.edge e 1)) c
    (fun j hj => E.knots j hj e H.left 0 (by omega) 1 (by omega))
  have hk' := eq_combine (M := (powellSabin12 (triangle R.vert) R.len g' 12 avg).get) (n := 12) (φ := φ')
    (valueD_piece_linear ((phys R g' b' avg).point e' (S.pt 1)) 0 (.edge e' 0))
    (valueD_piece_linear ((phys R g' b' avg).point e' (S.pt 1)) 0 (.edge e' 1)) c'
    (fun j hj => E'.knots j hj e' H.right 0 (by omega) 0 (by omega))
  have hk2' := eq_combine (M := (powellSabin12 (triangle R.vert) R.len g' 12 avg).get) (n := 12) (φ := φ')
    (valueD_piece_linear ((phys R g' b' avg).point e' (S.pt 1)) 1 (.edge e' 0))
    (valueD_piece_linear ((phys R g' b' avg).point e' (S.pt 1)) 1 (.edge e' 1)) c'
    (fun j hj => E'.knots j hj e' H.right 0 (by omega) 1 (by omega))
  have hd : ∀ i < 2, (combine 12 c (transformed 12 (powellSabin12 (triangle R.vert) R.len g 12 avg).get φ)
      (.edge e i)).totalDegree ≤ 2 := fun i hi => degree_combine c fun j hj => E.degree j hj e H.left i hi
  have hd' : ∀ i < 2, (combine 12 c' (transformed 12 (powellSabin12 (triangle R.vert) R.len g' 12 avg).get φ')
      (.edge e' i)).totalDegree ≤ 2 := fun i hi => degree_combine c' fun j hj => E'.degree j hj e' H.right i hi
  have ft := fits_combine (n := 12) (M := (powellSabin12 (triangle R.vert) R.len g 12 avg).get) c E.fits
  have ft' := fits_combine (n := 12) (M := (powellSabin12 (triangle R.vert) R.len g' 12 avg).get) c' E'.fits
  generalize combine 12 c (transformed 12 (powellSabin12 (triangle R.vert) R.len g 12 avg).get φ) = u at *
  generalize combine 12 c' (transformed 12 (powellSabin12 (triangle R.vert) R.len g' 12 avg).get φ') = u' at *
  have jets := split_jets H E.affine.size S 3 u u' ft ft' (fun k hk => by
    rw [← jetDofs_at _ 3 (fun e => (phys R g b avg).normalMoment S e 1) u _ k (e1.1.trans e1.2) hk,
      ← jetDofs_at _ 3 (fun e => (phys R g b avg).normalMoment S e 1) u _ k e1.2 hk,
      ← jetDofs_at _ 3 (fun e => (phys R g' b' avg).normalMoment S e 1) u' _ k (e2.1.trans e2.2) hk,
      ← jetDofs_at _ 3 (fun e => (phys R g' b' avg).normalMoment S e 1) u' _ k e2.2 hk,
      j1 _ (e1.1.trans e1.2) k hk, j1 _ e1.2 k hk, j2 _ (e2.1.trans e2.2) k hk, j2 _ e2.2 k hk]
    exact hv k hk)
  rw [hm] at jets
  obtain ⟨deg, tr, gr⟩ := split_continuous H S hS u u' ft ft' hd hd'
    (fun k hk => by match k, hk with
      | 0, _ => assumption
      | 1, _ => assumption)
    (fun k hk => by match k, hk with
      | 0, _ => assumption
      | 1, _ => assumption) jets
  obtain ⟨-, -, z⟩ := ends_zero _ e _ _ jets
  have mean : integral 0 (S.pt 1) ((phys R g b avg).on e (along ((phys R g b avg).normal e)
        (u (.edge e 0) - u' (.edge e' 0)))) + integral (S.pt 1) 1 ((phys R g b avg).on e
        (along ((phys R g b avg).normal e) (u (.edge e 1) - u' (.edge e' 1)))) = 0 := by
    unfold Tri.normalMoment Split.integral at m1 m2
    have hc := he 0 (by omega)
    rw [mul_one, mul_one, add_zero, add_zero] at hc
    rw [← hc] at m2
    rw [shared_on H, shared_normal H, ← H.factor] at m2
    have := mul_left_cancel₀ (phys_scale E.affine avg e H.left) (m1.trans m2.symm)
    rw [hm] at this
    simp only [Finset.sum_range_succ, Finset.sum_range_zero, zero_add, mul_one, hS.first] at this
    rw [show (1 + 1 : Nat) = 2 from rfl, hS.last] at this
    rw [along_sub, along_sub, on_sub, on_sub, integral_sub, integral_sub]
    linear_combination this
  have nz := zero_of_knot_mean hS.left hS.right ((trace_along _ _ _ _).trans (Nat.sub_le_sub_right (deg 0 (by omega)) 1))
    ((trace_along _ _ _ _).trans (Nat.sub_le_sub_right (deg 1 (by omega)) 1)) (z _).1 (z _).2 (gr _) mean
  obtain ⟨l0, lsq⟩ := E.affine.phys_len (fun e => if avg then 1 else g.pel e) e H.left
  refine smoothOn_of_zero H S hS u u' ((phys R g b avg).normal e) ?_ tr (fun i hi => ?_)
  · unfold Tri.normal
    rw [if_neg one_ne_zero, if_pos rfl]
    have : (phys R g b avg).len e ≠ 0 := l0
    have hl : (phys R g b avg).len e * (phys R g b avg).len e = (phys R g b avg).tangent e 0 * (phys R g b avg).tangent e 0 +
      (phys R g b avg).tangent e 1 * (phys R g b avg).tangent e 1 := lsq
    intro h
    refine this (mul_self_eq_zero.1 ?_)
    have h2 : -((phys R g b avg).len e * (phys R g b avg).len e) / (phys R g b avg).len e = 0 := by
      rw [hl, ← h]
      ring
    exact neg_eq_zero.1 ((div_eq_zero_iff.1 h2).resolve_right this)
  · match i, hi with
    | 0, _ => exact nz.1
    | 1, _ => exact nz.2

/-! ### The element on the split into six triangles -/

/-- One cell of `QuadraticPowellSabin6`: the physical cell is split along the lines from the point `z` to the vertices
and to the points that split the edges; the basis functions are quadratic on each part, and nodal on the reference cell for
the values and first derivatives at the vertices. -/
structure Ps6Cell (R : Tri K) (S : Split K) (z : Nat → K) (g : Geometry K) (b : Nat → K) (φ : Nat → Fn 2 K) : Prop where
  affine : Affine R g b
  jacobian : ∀ v i j, i < 2 → j < 2 → g.Js v i j = g.J i j
  fits : ∀ j < 9, (phys R g b true).Fits S 3 (φ j)
  joined : ∀ j < 9, (phys R g b true).Joined S z (φ j)
  degree : ∀ j < 9, ∀ e < 3, ∀ i < 2, (φ j (.edge e i)).totalDegree ≤ 2
  nodal : Nodal 9 (R.jetDofs 3 fun _ _ => 0) fun j => (φ j).pull g.J b

/-- The function of `QuadraticPowellSabin6` with coefficients `c`. -/
noncomputable def ps6 (g : Geometry K) (φ : Nat → Fn 2 K) (c : Nat → K) : Fn 2 K :=
  combine 9 c (transformed 9 (hermite 2 g 9).get φ)

theorem jet_three (x : Nat → K) (h : K) (f : MvPolynomial (Fin 2) K) :
    jet x h 0 f = value x f ∧ jet x h 1 f = h * value x (D 0 f) ∧ jet x h 2 f = h * value x (D 1 f) := by
  refine ⟨?_, ?_, ?_⟩ <;> simp [jet]

theorem ps6_jets {R : Tri K} {S : Split K} {z : Nat → K} {g : Geometry K} {b : Nat → K} {φ : Nat → Fn 2 K}
    (E : Ps6Cell R S z g b φ) (c : Nat → K) (v : Nat) (hv : v < 3) (k : Nat) (hk : k < 3) :
    jet ((phys R g b true).vert v) (g.h v) k (ps6 g φ c (.vertex v)) = c (v * 3 + k) := by
  have key := C35_hermite_chain 2 g 0 9 rfl E.affine.size
    (fun v (f : Fn 2 K) => value ((phys R g b true).vert v) (f (.vertex v)))
    (fun v => ⟨fun f g => by simp, fun c f => by simp⟩)
    (fun v i f => value ((phys R g b true).vert v) (D i (f (.vertex v)))) (fun v i => valueD_piece_linear _ _ _)
    (fun v f => value (R.vert v) (f (.vertex v))) (fun v i f => value (R.vert v) (D i (f (.vertex v)))) (Fn.pull g.J b)
    (fun v _ f => value_pull _ _ _ _)
    (fun v _ k hk f => by
      refine (value_D_pull _ _ _ _ hk _).trans ?_
      exact Finset.sum_congr rfl fun j hj => by rw [E.jacobian v j k (Finset.mem_range.1 hj) hk]; rfl)
    (fun _ _ => 0) (fun _ => ⟨fun _ _ => by simp, fun _ _ => by simp⟩) φ
    (fun j hj => by
      have hs : ∀ a : Nat, (if a = j then (1 : K) else 0) = if j = a then 1 else 0 := fun a => by
        by_cases h : j = a
        · rw [if_pos h, if_pos h.symm]
        · rw [if_neg h, if_neg (fun h' => h h'.symm)]
      have n : ∀ v < 3, ∀ k < 3, jet (R.vert v) 1 k ((φ j).pull g.J b (.vertex v)) = if j = v * 3 + k then 1 else 0 := by
        intro v hv k hk
        have := E.nodal (v * 3 + k) (by omega) j hj
        rw [jetDofs_at R 3 _ _ v k hv hk, E.affine.h_one v, hs] at this
        exact this
      refine ⟨fun v hv => ?_, fun v hv i hi => ?_, fun k hk => by omega⟩
      · exact (jet_values2 _ _).1.symm.trans (n v hv 0 (by omega))
      · match i, hi with
        | 0, _ => exact (jet_values2 _ _).2.1.symm.trans (n v hv 1 (by omega))
        | 1, _ => exact (jet_values2 _ _).2.2.1.symm.trans (n v hv 2 (by omega)))
  have nod : ∀ i < 9, jet ((phys R g b true).vert v) (g.h v) k ((transformed 9 (hermite 2 g 9).get φ) i (.vertex v)) =
      if i = v * 3 + k then 1 else 0 := by
    intro i hi
    obtain ⟨k0, k1, -⟩ := key i hi
    obtain ⟨t0, t1, t2⟩ := jet_three ((phys R g b true).vert v) (g.h v) ((transformed 9 (hermite 2 g 9).get φ) i (.vertex v))
    match k, hk with
    | 0, _ => rw [t0]; exact k0 v hv
    | 1, _ => rw [t1]; exact k1 v hv 0 (by omega)
    | 2, _ => rw [t2]; exact k1 v hv 1 (by omega)
  have lin : IsLinearMap K fun f : Fn 2 K => jet ((phys R g b true).vert v) (g.h v) k (f (.vertex v)) :=
    ⟨fun f f' => (jet_linear _ _ _).map_add _ _, fun a f => (jet_linear _ _ _).map_smul _ _⟩
  have := combine_linear lin 9 c (transformed 9 (hermite 2 g 9).get φ)
  refine this.trans ?_
  rw [Finset.sum_congr rfl fun i hi => by rw [nod i (Finset.mem_range.1 hi)]]
  simp [show v * 3 + k < 9 by omega]

theorem ps6_pieces [CharZero K] {R : Tri K} {S : Split K} (hS : S.Two) {g g' : Geometry K} {b b' : Nat → K}
    {φ φ' : Nat → Fn 2 K} {z z' : Nat → K} (E : Ps6Cell R S z g b φ) (E' : Ps6Cell R S z' g' b' φ') {e e' : Nat}
    (H : SharedEdge (phys R g b true) (phys R g' b' true) e e') (c c' : Nat → K) (hv : SameAtEnds 3 e e' c c') :
    let G := phys R g b true
    let u := ps6 g φ c
    let u' := ps6 g' φ' c'
    (∀ i < 2, G.on e (u (.edge e i) - u' (.edge e' i)) = 0) ∧
    G.on e (along (fun i => z i - G.point e (S.pt 1) i) (u (.edge e 0))) =
      G.on e (along (fun i => z i - G.point e (S.pt 1) i) (u (.edge e 1))) ∧
    G.on e (along (fun i => z' i - G.point e (S.pt 1) i) (u' (.edge e' 0))) =
      G.on e (along (fun i => z' i - G.point e (S.pt 1) i) (u' (.edge e' 1))) ∧
    ∀ w : Nat → K, (G.on e (along w (u (.edge e 0) - u' (.edge e' 0)))).natDegree ≤ 1 ∧
      (G.on e (along w (u (.edge e 0) - u' (.edge e' 0)))).eval 0 = 0 ∧
      (G.on e (along w (u (.edge e 1) - u' (.edge e' 1)))).eval 1 = 0 := by
  intro G u u'
  have e1 := ends_lt e
  have e2 := ends_lt e'
  have hm := hS.segments
  have dat : ∀ {g : Geometry K} {b : Nat → K} {φ : Nat → Fn 2 K} {z : Nat → K} (_ : Ps6Cell R S z g b φ) (c : Nat → K),
      (phys R g b true).Fits S 3 (ps6 g φ c) ∧ (∀ e < 3, ∀ i < 2, (ps6 g φ c (.edge e i)).totalDegree ≤ 2) ∧
      (phys R g b true).Joined S z (ps6 g φ c) := by
    intro g b φ z E c
    exact ⟨fits_combine c E.fits, fun e he i hi => degree_combine c fun j hj => E.degree j hj e he i hi,
      fun e he k hk => eq_combine (traceD_piece_linear _ _ _ _) (traceD_piece_linear _ _ _ _) c
        fun j hj => E.joined j hj e he k hk⟩
  obtain ⟨ft, hd, hj⟩ := dat E c
  obtain ⟨ft', hd', hj'⟩ := dat E' c'
  have knot : ∀ {G : Tri K} {f : Fn 2 K} {z : Nat → K} {e : Nat}, e < 3 → G.Joined S z f → ∀ k < 2,
      value (G.point e (S.pt 1)) (D k (f (.edge e 0))) = value (G.point e (S.pt 1)) (D k (f (.edge e 1))) := by
    intro G f z e he hj k hk
    rw [← eval_trace_zero _ z, hj e he k hk, eval_trace_zero]
  have jets := split_jets H E.affine.size S 3 u u' ft ft' (fun k hk => by
    have a := ps6_jets E c _ (e1.1.trans e1.2) k hk
    have b := ps6_jets E c _ e1.2 k hk
    have a' := ps6_jets E' c' _ (e2.1.trans e2.2) k hk
    have b' := ps6_jets E' c' _ e2.2 k hk
    exact ⟨a.trans ((hv k hk).1.trans a'.symm), b.trans ((hv k hk).2.trans b'.symm)⟩)
  rw [hm] at jets
  obtain ⟨deg, tr, -⟩ := split_continuous H S hS u u' ft ft' (fun i hi => hd e H.left i hi)
    (fun i hi => hd' e' H.right i hi) (knot H.left hj) (knot H.right hj') jets
  obtain ⟨-, -, zz⟩ := ends_zero _ e _ _ jets
  have line : ∀ (G : Tri K) (f : Fn 2 K) (z : Nat → K) (e : Nat), e < 3 → G.Joined S z f →
      (∀ i < 2, (f (.edge e i)).totalDegree ≤ 2) →
      G.on e (along (fun i => z i - G.point e (S.pt 1) i) (f (.edge e 0))) =
        G.on e (along (fun i => z i - G.point e (S.pt 1) i) (f (.edge e 1))) := by
    intro G f z e he hj hd
    have := joined_along G e (S.pt 1) z (f (.edge e 0) - f (.edge e 1))
      ((MvPolynomial.totalDegree_sub _ _).trans (max_le (hd 0 (by omega)) (hd 1 (by omega))))
      (fun k hk => by rw [D_sub, map_sub, hj e he k hk, sub_self])
    rw [along_sub, on_sub] at this
    exact sub_eq_zero.1 this
  refine ⟨tr, line _ _ _ _ H.left hj (fun i hi => hd e H.left i hi), ?_, fun w => ⟨?_, (zz w).1, (zz w).2⟩⟩
  · have := line _ _ _ _ H.right hj' (fun i hi => hd' e' H.right i hi)
    rw [shared_on H, shared_point H] at this
    exact this
  · exact (trace_along _ _ _ _).trans (Nat.sub_le_sub_right (deg 0 (by omega)) 1)

/-- `QuadraticPowellSabin6`: the functions are continuous across the common edge. -/
theorem C94_powellSabin6 [CharZero K] (R : Tri K) (S : Split K) (hS : S.Two) (g g' : Geometry K)
    (b b' : Nat → K) (φ φ' : Nat → Fn 2 K) (z z' : Nat → K) (E : Ps6Cell R S z g b φ) (E' : Ps6Cell R S z' g' b' φ')
    (e e' : Nat) (H : SharedEdge (phys R g b true) (phys R g' b' true) e e') (c c' : Nat → K)
    (hv : SameAtEnds 3 e e' c c') :
    ContinuousOn S (phys R g b true) (phys R g' b' true) e e' (ps6 g φ c) (ps6 g' φ' c') :=
  continuousOn_of_zero H S hS _ _ (ps6_pieces hS E E' H c c' hv).1

/-- `QuadraticPowellSabin6`, in part: the functions are continuously differentiable across the common edge if the line
between the points that split the two cells meets the edge in the point that splits it. -/
theorem C94_powellSabin6_partial [CharZero K] (R : Tri K) (S : Split K) (hS : S.Two) (g g' : Geometry K)
    (b b' : Nat → K) (φ φ' : Nat → Fn 2 K) (z z' : Nat → K) (E : Ps6Cell R S z g b φ) (E' : Ps6Cell R S z' g' b' φ')
    (e e' : Nat) (H : SharedEdge (phys R g b true) (phys R g' b' true) e e') (c c' : Nat → K)
    (hv : SameAtEnds 3 e e' c c')
    (hline : (phys R g b true).Through e ((phys R g b true).point e (S.pt 1)) z z') :
    SmoothOn S (phys R g b true) (phys R g' b' true) e e' (ps6 g φ c) (ps6 g' φ' c') := by
  have key := ps6_pieces hS E E' H c c' hv
  dsimp only at key
  clear E E'
  generalize phys R g b true = G at *
  generalize phys R g' b' true = G' at *
  generalize ps6 g φ c = u at *
  generalize ps6 g' φ' c' = u' at *
  obtain ⟨tr, l, l', ed⟩ := key
  obtain ⟨hw, r, hr, hz⟩ := hline
  obtain ⟨hdeg, v0, v1⟩ := ed fun i => z i - G.point e (S.pt 1) i
  have scale : ∀ f : MvPolynomial (Fin 2) K, G.on e (along (fun i => z' i - G.point e (S.pt 1) i) f) =
        Polynomial.C r * G.on e (along (fun i => z i - G.point e (S.pt 1) i) f) := by
    intro f
    rw [along_comb r 0 (fun i => z i - G.point e (S.pt 1) i) (fun _ => 0) _ f
      (fun i hi => by rw [hz i hi]; ring)]
    simp [Tri.on, trace]
  rw [scale, scale] at l'
  have l2 := mul_left_cancel₀ (Polynomial.C_ne_zero.2 hr) l'
  have same : G.on e (along (fun i => z i - G.point e (S.pt 1) i) (u (.edge e 0) - u' (.edge e' 0))) =
      G.on e (along (fun i => z i - G.point e (S.pt 1) i) (u (.edge e 1) - u' (.edge e' 1))) := by
    rw [along_sub, along_sub, on_sub, on_sub, l, l2]
  rw [← same] at v1
  have zero := zero_of_ends hdeg v0 v1
  refine smoothOn_of_zero H S hS _ _ (fun i => z i - G.point e (S.pt 1) i) hw tr fun i hi => ?_
  match i, hi with
  | 0, _ => exact zero
  | 1, _ => exact same.symm.trans zero

/-! ### Morley -/

/-- One cell of the Morley element on a triangle with reference vertices `x`. -/
structure MorleyCell (x : Nat → Nat → K) (g : Geometry K) (b : Nat → K) (φ : Nat → MvPolynomial (Fin 2) K) : Prop where
  length : ∀ e < 3, g.pel e ≠ 0
  tangent : ∀ e < 3, ∀ i < 2, g.pts e i * g.pel e =
    mapPoint 2 g.J b (x (ends e).2) i - mapPoint 2 g.J b (x (ends e).1) i
  unit : ∀ e < 3, g.pns e 0 * g.pns e 0 + g.pns e 1 * g.pns e 1 = 1 ∧
    g.pts e 0 * g.pts e 0 + g.pts e 1 * g.pts e 1 = 1 ∧ g.pns e 0 * g.pts e 0 + g.pns e 1 * g.pts e 1 = 0
  size : ∀ e < 3, g.h (ends e).1 + g.h (ends e).2 ≠ 0
  nodal : Nodal 6 (morleyDofs x g.rns fun _ => 1) fun j => pull g.J b (φ j)

/-- The function of the Morley element with coefficients `c`. -/
noncomputable def morleyFunction (g : Geometry K) (φ : Nat → MvPolynomial (Fin 2) K) (c : Nat → K) :
    MvPolynomial (Fin 2) K := ∑ i ∈ range 6, c i • ∑ j ∈ range 6, (morley g 6).get i j • φ j

theorem morley_linear (x : Nat → Nat → K) (n : Nat → Nat → K) (s : Nat → K) (k : Nat) :
    IsLinearMap K (morleyDofs x n s k) := by
  unfold morleyDofs
  by_cases h : k < 3
  · simp only [h, if_true]
    exact ⟨fun f g => map_add _ _ _, fun c f => map_smul _ _ _⟩
  · simp only [h, if_false]
    refine ⟨fun f f' => ?_, fun c f => ?_⟩
    · rw [along_add, map_add, integral_add, mul_add]
    · rw [along_smul, map_smul, Polynomial.smul_eq_C_mul, integral_C_mul, smul_eq_mul]; ring

theorem morley_coefficients [CharZero K] {x : Nat → Nat → K} {g : Geometry K} {b : Nat → K}
    {φ : Nat → MvPolynomial (Fin 2) K} (E : MorleyCell x g b φ) (c : Nat → K) (k : Nat) (hk : k < 6) :
    morleyDofs (fun v => mapPoint 2 g.J b (x v)) g.pns (fun e => (g.h (ends e).1 + g.h (ends e).2) / 2) k
      (morleyFunction g φ c) = c k := by
  have := C36_morley g x b E.length E.tangent E.unit E.size φ E.nodal
  unfold morleyFunction
  rw [linear_sum (morley_linear _ _ _ k), Finset.sum_congr rfl fun i hi => by rw [this k hk i (Finset.mem_range.1 hi)]]
  simp [hk]

/-- Morley: the functions have the same values at the two ends of the common edge, and the means over the edge of all
their first derivatives are the same. -/
theorem C94_morley [CharZero K] (x : Nat → Nat → K) (g g' : Geometry K) (b b' : Nat → K)
    (φ φ' : Nat → MvPolynomial (Fin 2) K) (E : MorleyCell x g b φ) (E' : MorleyCell x g' b' φ') (e e' : Nat) (he : e < 3)
    (he' : e' < 3) (y₀ y₁ : Nat → K) (h₀ : mapPoint 2 g.J b (x (ends e).1) = y₀)
    (h₀' : mapPoint 2 g'.J b' (x (ends e').1) = y₀) (h₁ : mapPoint 2 g.J b (x (ends e).2) = y₁)
    (h₁' : mapPoint 2 g'.J b' (x (ends e').2) = y₁) (hn : ∀ i < 2, g.pns e i = g'.pns e' i)
    (hh : g.h (ends e).1 = g'.h (ends e').1 ∧ g.h (ends e).2 = g'.h (ends e').2) (c c' : Nat → K)
    (hv : c (ends e).1 = c' (ends e').1 ∧ c (ends e).2 = c' (ends e').2) (hc : c (3 + e) = c' (3 + e')) :
    let u := morleyFunction g φ c
    let u' := morleyFunction g' φ' c'
    value y₀ u = value y₀ u' ∧ value y₁ u = value y₁ u' ∧
      ∀ i < 2, integral 0 1 (trace y₀ y₁ (D i u)) = integral 0 1 (trace y₀ y₁ (D i u')) := by
  intro u u'
  have e1 := ends_lt e
  have e2 := ends_lt e'
  have val : ∀ {g : Geometry K} {b : Nat → K} {φ : Nat → MvPolynomial (Fin 2) K} (_ : MorleyCell x g b φ) (c : Nat → K)
      (v : Nat), v < 3 → value (mapPoint 2 g.J b (x v)) (morleyFunction g φ c) = c v := by
    intro g b φ E c v hv
    have := morley_coefficients E c v (by omega)
    unfold morleyDofs at this
    rwa [if_pos hv] at this
  have mom : ∀ {g : Geometry K} {b : Nat → K} {φ : Nat → MvPolynomial (Fin 2) K} (_ : MorleyCell x g b φ) (c : Nat → K)
      (e : Nat), e < 3 → (g.h (ends e).1 + g.h (ends e).2) / 2 * integral 0 1 (trace (mapPoint 2 g.J b (x (ends e).1))
        (mapPoint 2 g.J b (x (ends e).2)) (along (g.pns e) (morleyFunction g φ c))) = c (3 + e) := by
    intro g b φ E c e he
    have := morley_coefficients E c (3 + e) (by omega)
    unfold morleyDofs at this
    rwa [if_neg (by omega), Nat.add_sub_cancel_left] at this
  have v0 := (val E c _ (e1.1.trans e1.2)).trans (hv.1.trans (val E' c' _ (e2.1.trans e2.2)).symm)
  have v1 := (val E c _ e1.2).trans (hv.2.trans (val E' c' _ e2.2).symm)
  have m := (mom E c e he).trans (hc.trans (mom E' c' e' he').symm)
  rw [h₀, h₀'] at v0
  rw [h₁, h₁'] at v1
  rw [h₀, h₁, h₀', h₁', ← hh.1, ← hh.2] at m
  have m := mul_left_cancel₀ (div_ne_zero (E.size e he) two_ne_zero) m
  have split : ∀ (w : Nat → K) (f : MvPolynomial (Fin 2) K), integral 0 1 (trace y₀ y₁ (along w f)) =
      w 0 * integral 0 1 (trace y₀ y₁ (D 0 f)) + w 1 * integral 0 1 (trace y₀ y₁ (D 1 f)) := by
    intro w f
    have hC : ∀ a : K, trace (d := 2) y₀ y₁ (MvPolynomial.C a) = Polynomial.C a := fun a => by simp [trace]
    rw [along_two, map_add, map_mul, map_mul, hC, hC, integral_add, integral_C_mul, integral_C_mul]
  have tan : ∀ f : MvPolynomial (Fin 2) K, integral 0 1 (trace y₀ y₁ (along (fun i => y₁ i - y₀ i) f)) =
      value y₁ f - value y₀ f := by
    intro f
    rw [← derivative_trace, integral_derivative, eval_trace_one, eval_trace_zero]
  refine ⟨v0, v1, ?_⟩
  have t1 := (tan u).symm.trans (split _ u)
  have t2 := (tan u').symm.trans (split _ u')
  rw [split, split, ← hn 0 (by omega), ← hn 1 (by omega)] at m
  obtain ⟨u1, u2, u3⟩ := E.unit e he
  have T0 : y₁ 0 - y₀ 0 = g.pts e 0 * g.pel e := by rw [E.tangent e he 0 (by omega), h₁, h₀]
  have T1 : y₁ 1 - y₀ 1 = g.pts e 1 * g.pel e := by rw [E.tangent e he 1 (by omega), h₁, h₀]
  have hL := E.length e he
  rw [v0, v1, t2] at t1
  rw [T0, T1] at t1
  change g.pns e 0 * integral 0 1 (trace y₀ y₁ (D 0 u)) + g.pns e 1 * integral 0 1 (trace y₀ y₁ (D 1 u)) =
    g.pns e 0 * integral 0 1 (trace y₀ y₁ (D 0 u')) + g.pns e 1 * integral 0 1 (trace y₀ y₁ (D 1 u')) at m
  set a := integral 0 1 (trace y₀ y₁ (D 0 u))
  set a1 := integral 0 1 (trace y₀ y₁ (D 1 u))
  set d := integral 0 1 (trace y₀ y₁ (D 0 u'))
  set d1 := integral 0 1 (trace y₀ y₁ (D 1 u'))
  have hdet : (g.pns e 0 * g.pts e 1 - g.pns e 1 * g.pts e 0) * (g.pns e 0 * g.pts e 1 - g.pns e 1 * g.pts e 0) = 1 := by
    linear_combination (g.pts e 0 * g.pts e 0 + g.pts e 1 * g.pts e 1) * u1 + u2 -
      (g.pns e 0 * g.pts e 0 + g.pns e 1 * g.pts e 1) * u3
  have hdet0 : g.pns e 0 * g.pts e 1 - g.pns e 1 * g.pts e 0 ≠ 0 := by
    intro h
    rw [h, mul_zero] at hdet
    exact zero_ne_one hdet
  have t : g.pts e 0 * a + g.pts e 1 * a1 = g.pts e 0 * d + g.pts e 1 * d1 :=
    mul_left_cancel₀ hL (by linear_combination -t1)
  intro i hi
  match i, hi with
  | 0, _ =>
    change a = d
    exact mul_left_cancel₀ hdet0 (by linear_combination g.pts e 1 * m - g.pns e 1 * t)
  | 1, _ =>
    change a1 = d1
    exact mul_left_cancel₀ hdet0 (by linear_combination g.pns e 0 * t - g.pts e 0 * m)

end FInAT.Props
