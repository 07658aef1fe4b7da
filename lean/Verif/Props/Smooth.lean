import Verif.Props.Zany2
import Verif.Lemmas.Smooth

/-!
# Functions of the Argyris, Hsieh-Clough-Tocher and Bell elements are continuously differentiable (C91)

Two physical triangles have an edge in common. On each there is a function of the element, given by coefficients in the
basis that `basis_transformation` yields. If the coefficients of the common vertices and of the common edge agree, the
two functions have the same values and the same first derivatives along the edge. `K` is a field of real numbers.
-/

namespace FInAT.Props

open Finset FInAT.Zany FInAT.Spec.Zany

variable {K : Type} [Field K]

/-! ### Linear combinations -/

theorem combine_linear {V : Type} [AddCommGroup V] [Module K V] {ℓ : Fn 2 K → V} (h : IsLinearMap K ℓ) (n : Nat)
    (c : Nat → K) (ψ : Nat → Fn 2 K) : ℓ (combine n c ψ) = ∑ i ∈ range n, c i • ℓ (ψ i) := by
  have := map_sum (IsLinearMap.mk' _ h) (fun i => c i • ψ i) (range n)
  simp only [IsLinearMap.mk'_apply, h.map_smul] at this
  exact this

theorem combine_nodal {N : Nat} {ℓ : Nat → Fn 2 K → K} (h : ∀ k, IsLinearMap K (ℓ k)) {ψ : Nat → Fn 2 K}
    (hψ : Nodal N ℓ ψ) (c : Nat → K) (i : Nat) (hi : i < N) : ℓ i (combine N c ψ) = c i := by
  rw [combine_linear (h i)]
  rw [Finset.sum_congr rfl fun j hj => by rw [hψ i hi j (Finset.mem_range.1 hj)]]
  simp [hi]

theorem fits_sum (G : Tri K) (S : Split K) (w N : Nat) (c : Nat → K) (φ : Nat → Fn 2 K)
    (h : ∀ j < N, G.Fits S w (φ j)) : G.Fits S w (∑ j ∈ range N, c j • φ j) := by
  have hjet : ∀ (x : Nat → K) (k : Nat) (p : Piece), IsLinearMap K fun f : Fn 2 K => jet x 1 k (f p) := by
    intro x k p
    have := jet_linear (K := K) (d := 2) x 1 k
    exact ⟨fun f f' => this.map_add _ _, fun a f => this.map_smul _ _⟩
  have hon : ∀ (e : Nat) (p : Piece) (x : K), IsLinearMap K fun f : Fn 2 K => (G.on e (f p)).eval x := by
    intro e p x
    refine ⟨fun f f' => ?_, fun a f => ?_⟩
    · rw [Pi.add_apply, show G.on e (f p + f' p) = _ from map_add _ _ _, Polynomial.eval_add]; rfl
    · rw [Pi.smul_apply, show G.on e (a • f p) = _ from map_smul (trace _ _) _ _, Polynomial.eval_smul]; rfl
  refine ⟨fun e he k hk => ?_, fun e he k hk => ?_, fun e he i hi => ?_⟩
  · have h1 := combine_linear (hjet (G.vert (ends e).1) k (.edge e 0)) N c φ
    have h2 := combine_linear (hjet (G.vert (ends e).1) k (.vertex (ends e).1)) N c φ
    unfold combine at h1 h2
    rw [h1, h2]
    exact Finset.sum_congr rfl fun j hj => by rw [(h j (Finset.mem_range.1 hj)).start e he k hk]
  · have h1 := combine_linear (hjet (G.vert (ends e).2) k (.edge e (S.m - 1))) N c φ
    have h2 := combine_linear (hjet (G.vert (ends e).2) k (.vertex (ends e).2)) N c φ
    unfold combine at h1 h2
    rw [h1, h2]
    exact Finset.sum_congr rfl fun j hj => by rw [(h j (Finset.mem_range.1 hj)).stop e he k hk]
  · have h1 := combine_linear (hon e (.edge e i) (S.pt (i + 1))) N c φ
    have h2 := combine_linear (hon e (.edge e (i + 1)) (S.pt (i + 1))) N c φ
    unfold combine at h1 h2
    rw [h1, h2]
    exact Finset.sum_congr rfl fun j hj => by rw [(h j (Finset.mem_range.1 hj)).cont e he i hi]

theorem fits_combine {G : Tri K} {S : Split K} {w N n : Nat} {M : Nat → Nat → K} {φ : Nat → Fn 2 K} (c : Nat → K)
    (h : ∀ j < N, G.Fits S w (φ j)) : G.Fits S w (combine n c (transformed N M φ)) :=
  fits_sum G S w n c _ fun i _ => fits_sum G S w N (M i) φ h

theorem totalDegree_sum {n D : Nat} (c : Nat → K) (f : Nat → MvPolynomial (Fin 2) K)
    (h : ∀ j < n, (f j).totalDegree ≤ D) : (∑ j ∈ range n, c j • f j).totalDegree ≤ D := by
  refine (MvPolynomial.totalDegree_finsetSum _ _).trans (Finset.sup_le fun j hj => ?_)
  exact (MvPolynomial.totalDegree_smul_le _ _).trans (h j (Finset.mem_range.1 hj))

theorem degree_combine {N n D : Nat} {M : Nat → Nat → K} {φ : Nat → Fn 2 K} {p : Piece} (c : Nat → K)
    (h : ∀ j < N, (φ j p).totalDegree ≤ D) : (combine n c (transformed N M φ) p).totalDegree ≤ D := by
  unfold combine
  rw [Finset.sum_apply]
  refine totalDegree_sum c (fun i => transformed N M φ i p) fun i _ => ?_
  unfold transformed
  rw [Finset.sum_apply]
  exact totalDegree_sum (M i) (fun j => φ j p) h

/-! ### Same degrees of freedom -/

theorem whole_integral (p : Nat → Polynomial K) : (whole : Split K).integral p = integral 0 1 (p 0) := by
  simp [Split.integral, whole]

theorem smooth_of_moments [CharZero K] [Algebra K ℝ] {G G' : Tri K} {e e' : Nat} (H : SharedEdge G G' e e')
    (hL : G.Lengths) (hh : ∀ v < 3, G.h v ≠ 0) (hs : G.scale e ≠ 0) (a w q D : Nat)
    (hcase : a = 1 ∧ w = 3 ∧ D = q + 3 ∨ a = 2 ∧ w = 6 ∧ D = q + 5) (u u' : Fn 2 K)
    (hf : G.Fits whole w u) (hf' : G'.Fits whole w u')
    (hd : (u (.edge e 0)).totalDegree ≤ D) (hd' : (u' (.edge e' 0)).totalDegree ≤ D)
    (hj : ∀ k < w, jet (G.vert (ends e).1) (G.h (ends e).1) k (u (.vertex (ends e).1)) =
        jet (G'.vert (ends e').1) (G'.h (ends e').1) k (u' (.vertex (ends e').1)) ∧
      jet (G.vert (ends e).2) (G.h (ends e).2) k (u (.vertex (ends e).2)) =
        jet (G'.vert (ends e').2) (G'.h (ends e').2) k (u' (.vertex (ends e').2)))
    (hn : ∀ k ≤ q, G.normalMoment whole e (jacobi a k) u = G'.normalMoment whole e' (jacobi a k) u')
    (ht : ∀ k < q, G.traceMoment whole e (Polynomial.derivative (jacobi a (k + 1))) u =
      G'.traceMoment whole e' (Polynomial.derivative (jacobi a (k + 1))) u') : Smooth G G' e e' u u' := by
  have jets := shared_jets H hh whole rfl w u u' hf hf' hj
  have hdeg : (u (.edge e 0) - u' (.edge e' 0)).totalDegree ≤ D :=
    (MvPolynomial.totalDegree_sub _ _).trans (max_le hd hd')
  have d1 : (G.on e (u (.edge e 0) - u' (.edge e' 0))).natDegree ≤ D := (trace_degree _ _ _).trans hdeg
  have d2 : (G.on e (along (G.normal e) (u (.edge e 0) - u' (.edge e' 0)))).natDegree ≤ D - 1 :=
    (trace_along _ _ _ _).trans (Nat.sub_le_sub_right hdeg 1)
  have mt : ∀ k < q, integral 0 1 (G.on e (u (.edge e 0) - u' (.edge e' 0)) *
      Polynomial.derivative (jacobi a (k + 1))) = 0 := by
    intro k hk
    have := ht k hk
    unfold Tri.traceMoment at this
    rw [whole_integral, whole_integral, shared_on H] at this
    rw [on_sub, sub_mul, integral_sub, this, sub_self]
  have mn : ∀ k < q + 1, integral 0 1 (G.on e (along (G.normal e) (u (.edge e 0) - u' (.edge e' 0))) *
      jacobi a k) = 0 := by
    intro k hk
    have := hn k (by omega)
    unfold Tri.normalMoment at this
    rw [whole_integral, whole_integral, shared_on H, shared_normal H, ← H.factor] at this
    rw [along_sub, on_sub, sub_mul, integral_sub, mul_left_cancel₀ hs this, sub_self]
  have wt := all_moments q (fun k _ => jacobi_derivative a k) mt
  have wn := all_moments (q + 1) (fun k _ => jacobi_natDegree a k) mn
  rcases hcase with ⟨-, rfl, rfl⟩ | ⟨-, rfl, rfl⟩
  · obtain ⟨r1, r2⟩ := roots1 G e _ jets
    exact smooth_of_zero H (hL e H.left) u u' (zero_of_moments (by omega) r1 wt)
      (zero_of_moments (by omega) (r2 _) wn)
  · obtain ⟨r1, r2⟩ := roots2 G e _ jets
    exact smooth_of_zero H (hL e H.left) u u' (zero_of_moments (by omega) r1 wt)
      (zero_of_moments (by omega) (r2 _) wn)

/-- One cell: the affine map `x = b + J x̂` of geometry `g`, and the basis functions `φ` of the reference element as
functions of the physical coordinates: polynomials of total degree `D` along the edges, nodal on the reference cell `R`
for the degrees of freedom of Argyris or Hsieh-Clough-Tocher elements. -/
structure MomentCell (R : Tri K) (a w q D N : Nat) (inner : Nat → Fn 2 K → K) (avg : Bool) (g : Geometry K)
    (b : Nat → K) (φ : Nat → Fn 2 K) : Prop where
  affine : Affine R g b
  linear : ∀ k, IsLinearMap K (inner k)
  fits : ∀ j < N, (phys R g b avg).Fits whole w (φ j)
  degree : ∀ j < N, ∀ e < 3, (φ j (.edge e 0)).totalDegree ≤ D
  nodal : Nodal N (R.momentDofs whole a w q inner) fun j => (φ j).pull g.J b

theorem phys_scale {R : Tri K} {g : Geometry K} {b : Nat → K} (A : Affine R g b) (avg : Bool) (e : Nat) (he : e < 3) :
    (phys R g b avg).scale e ≠ 0 := by
  have := (A.phys_lengths e he).1
  cases avg
  · exact this
  · exact one_ne_zero

/-- Degrees of freedom of momentDofs, one by one. -/
theorem momentDofs_at (G : Tri K) (a w q : Nat) (inner : Nat → Fn 2 K → K) (f : Fn 2 K) :
    (∀ v < 3, ∀ k < w, G.momentDofs whole a w q inner (v * w + k) f = jet (G.vert v) (G.h v) k (f (.vertex v))) ∧
    ∀ e < 3, (∀ k ≤ q, G.momentDofs whole a w q inner (3 * w + e * (2 * q + 1) + k) f =
        G.normalMoment whole e (jacobi a k) f) ∧
      ∀ k < q, G.momentDofs whole a w q inner (3 * w + e * (2 * q + 1) + (q + 1 + k)) f =
        G.traceMoment whole e (Polynomial.derivative (jacobi a (k + 1))) f := by
  have key : ∀ e < 3, ∀ k < 2 * q + 1, e * (2 * q + 1) + k < 3 * (2 * q + 1) ∧
      (e * (2 * q + 1) + k) % (2 * q + 1) = k ∧ (e * (2 * q + 1) + k) / (2 * q + 1) = e := by
    intro e he k hk
    refine ⟨?_, ?_, ?_⟩
    · calc e * (2 * q + 1) + k < e * (2 * q + 1) + (2 * q + 1) := by omega
        _ = (e + 1) * (2 * q + 1) := by ring
        _ ≤ 3 * (2 * q + 1) := Nat.mul_le_mul_right _ he
    · rw [add_comm, Nat.add_mul_mod_self_right, Nat.mod_eq_of_lt hk]
    · rw [add_comm, Nat.add_mul_div_right _ _ (by omega), Nat.div_eq_of_lt hk, zero_add]
  refine ⟨fun v hv k hk => jetDofs_at G w _ f v k hv hk, fun e he => ⟨fun k hk => ?_, fun k hk => ?_⟩⟩
  · obtain ⟨h1, h2, h3⟩ := key e he k (by omega)
    unfold Tri.momentDofs
    rw [add_assoc, jetDofs_rest, if_pos h1, h2, if_pos hk, h3]
  · obtain ⟨h1, h2, h3⟩ := key e he (q + 1 + k) (by omega)
    unfold Tri.momentDofs
    rw [add_assoc, jetDofs_rest, if_pos h1, h2, if_neg (by omega), h3, show q + 1 + k - q = k + 1 by omega]

theorem smooth_of_cells [CharZero K] [Algebra K ℝ] {R : Tri K} {a w q D N m : Nat} {inner : Nat → Fn 2 K → K} {avg : Bool}
    {g g' : Geometry K} {b b' : Nat → K} {φ φ' : Nat → Fn 2 K} (E : MomentCell R a w q D N inner avg g b φ)
    (E' : MomentCell R a w q D N inner avg g' b' φ') (hN : N = 3 * w + 3 * (2 * q + 1) + m)
    (hcase : a = 1 ∧ w = 3 ∧ D = q + 3 ∨ a = 2 ∧ w = 6 ∧ D = q + 5) (M M' : Nat → Nat → K)
    (hψ : Nodal N ((phys R g b avg).momentDofs whole a w q fun k f => inner k (f.pull g.J b)) (transformed N M φ))
    (hψ' : Nodal N ((phys R g' b' avg).momentDofs whole a w q fun k f => inner k (f.pull g'.J b')) (transformed N M' φ'))
    {e e' : Nat} (H : SharedEdge (phys R g b avg) (phys R g' b' avg) e e') (c c' : Nat → K)
    (hv : SameAtEnds w e e' c c') (he : SameOnEdge w (2 * q + 1) e e' c c') :
    Smooth (phys R g b avg) (phys R g' b' avg) e e' (combine N c (transformed N M φ))
      (combine N c' (transformed N M' φ')) := by
  have lin := momentDofs_linear (phys R g b avg) whole a w q _ fun k => pull_linear g.J b _ (E.linear k)
  have lin' := momentDofs_linear (phys R g' b' avg) whole a w q _ fun k => pull_linear g'.J b' _ (E'.linear k)
  have co := combine_nodal lin hψ c
  have co' := combine_nodal lin' hψ' c'
  obtain ⟨j, ed⟩ := momentDofs_at (phys R g b avg) a w q (fun k f => inner k (f.pull g.J b))
    (combine N c (transformed N M φ))
  obtain ⟨j', ed'⟩ := momentDofs_at (phys R g' b' avg) a w q (fun k f => inner k (f.pull g'.J b'))
    (combine N c' (transformed N M' φ'))
  have hvert : ∀ v < 3, ∀ k < w, v * w + k < N := by
    intro v hv k hk
    have : v * w + w ≤ 3 * w := by
      calc v * w + w = (v + 1) * w := by ring
        _ ≤ 3 * w := Nat.mul_le_mul_right _ hv
    omega
  have hedge : ∀ e < 3, ∀ k < 2 * q + 1, 3 * w + e * (2 * q + 1) + k < N := by
    intro e he k hk
    have : e * (2 * q + 1) + (2 * q + 1) ≤ 3 * (2 * q + 1) := by
      calc e * (2 * q + 1) + (2 * q + 1) = (e + 1) * (2 * q + 1) := by ring
        _ ≤ 3 * (2 * q + 1) := Nat.mul_le_mul_right _ he
    omega
  have e1 := ends_lt e
  have e2 := ends_lt e'
  refine smooth_of_moments H (E.affine.phys_len _) E.affine.size (phys_scale E.affine avg e H.left) a w q D hcase _ _
    (fits_combine c E.fits) (fits_combine c' E'.fits) (degree_combine c fun i hi => E.degree i hi e H.left)
    (degree_combine c' fun i hi => E'.degree i hi e' H.right) (fun k hk => ⟨?_, ?_⟩) (fun k hk => ?_) (fun k hk => ?_)
  · rw [← j _ (e1.1.trans e1.2) k hk, ← j' _ (e2.1.trans e2.2) k hk, co _ (hvert _ (e1.1.trans e1.2) k hk),
      co' _ (hvert _ (e2.1.trans e2.2) k hk)]
    exact (hv k hk).1
  · rw [← j _ e1.2 k hk, ← j' _ e2.2 k hk, co _ (hvert _ e1.2 k hk), co' _ (hvert _ e2.2 k hk)]
    exact (hv k hk).2
  · rw [← (ed e H.left).1 k hk, ← (ed' e' H.right).1 k hk, co _ (hedge e H.left k (by omega)),
      co' _ (hedge e' H.right k (by omega))]
    exact he k (by omega)
  · rw [← (ed e H.left).2 k hk, ← (ed' e' H.right).2 k hk, co _ (hedge e H.left _ (by omega)),
      co' _ (hedge e' H.right _ (by omega))]
    exact he _ (by omega)

/-! ### The elements -/

/-- Argyris elements of every degree `q + 5`: functions whose coefficients agree at the common vertices and on the common
edge are continuously differentiable. -/
theorem C91_argyris [CharZero K] [Algebra K ℝ] (R : Tri K) (q m N : Nat) (hN : N = 3 * 6 + 3 * (2 * q + 1) + m)
    (inner : Nat → Fn 2 K → K) (avg : Bool) (g g' : Geometry K) (b b' : Nat → K) (φ φ' : Nat → Fn 2 K)
    (E : MomentCell R 2 6 q (q + 5) N inner avg g b φ) (E' : MomentCell R 2 6 q (q + 5) N inner avg g' b' φ')
    (e e' : Nat) (H : SharedEdge (phys R g b avg) (phys R g' b' avg) e e') (c c' : Nat → K)
    (hv : SameAtEnds 6 e e' c c') (he : SameOnEdge 6 (2 * q + 1) e e' c c') :
    Smooth (phys R g b avg) (phys R g' b' avg) e e'
      (combine N c (transformed N (argyris (triangle R.vert) R.len g N (q + 5) avg).get φ))
      (combine N c' (transformed N (argyris (triangle R.vert) R.len g' N (q + 5) avg).get φ')) :=
  smooth_of_cells E E' hN (Or.inr ⟨rfl, rfl, rfl⟩) _ _
    (C37_argyris R whole whole_OK g b E.affine avg q m N hN inner E.linear φ E.fits E.nodal)
    (C37_argyris R whole whole_OK g' b' E'.affine avg q m N hN inner E'.linear φ' E'.fits E'.nodal) H c c' hv he

/-- Hsieh-Clough-Tocher elements of every degree `q + 3`. -/
theorem C91_hct [CharZero K] [Algebra K ℝ] (R : Tri K) (q m N : Nat) (hN : N = 3 * 3 + 3 * (2 * q + 1) + m)
    (inner : Nat → Fn 2 K → K) (avg : Bool) (g g' : Geometry K) (b b' : Nat → K) (φ φ' : Nat → Fn 2 K)
    (E : MomentCell R 1 3 q (q + 3) N inner avg g b φ) (E' : MomentCell R 1 3 q (q + 3) N inner avg g' b' φ')
    (e e' : Nat) (H : SharedEdge (phys R g b avg) (phys R g' b' avg) e e') (c c' : Nat → K)
    (hv : SameAtEnds 3 e e' c c') (he : SameOnEdge 3 (2 * q + 1) e e' c c') :
    Smooth (phys R g b avg) (phys R g' b' avg) e e'
      (combine N c (transformed N (hct (triangle R.vert) R.len g N (q + 3) avg).get φ))
      (combine N c' (transformed N (hct (triangle R.vert) R.len g' N (q + 3) avg).get φ')) :=
  smooth_of_cells E E' hN (Or.inl ⟨rfl, rfl, rfl⟩) _ _
    (C37_hct R whole whole_OK g b E.affine avg q m N hN inner E.linear φ E.fits E.nodal)
    (C37_hct R whole whole_OK g' b' E'.affine avg q m N hN inner E'.linear φ' E'.fits E'.nodal) H c c' hv he

/-- One cell of Bell (`w = 6`, `ℓ = 4`, `D = 5`) or reduced Hsieh-Clough-Tocher elements (`w = 3`, `ℓ = 2`, `D = 3`):
the degrees of freedom on the reference cell are jets at the vertices and moments against a Legendre polynomial. -/
structure ReducedCell (R : Tri K) (w ℓ D : Nat) (g : Geometry K) (b : Nat → K) (φ : Nat → Fn 2 K) : Prop where
  affine : Affine R g b
  fits : ∀ j < 3 * w + 3, (phys R g b true).Fits whole w (φ j)
  degree : ∀ j < 3 * w + 3, ∀ e < 3, (φ j (.edge e 0)).totalDegree ≤ D
  nodal : Nodal (3 * w + 3) (R.jetDofs w fun e => R.normalMoment whole e (jacobi 0 ℓ)) fun j => (φ j).pull g.J b

theorem reduced_jets {w n : Nat} (hn : n = 3 * w) (G : Tri K) (ψ : Nat → Fn 2 K)
    (h : ∀ v < 3, ∀ k < w, ∀ i < n, jet (G.vert v) (G.h v) k (ψ i (.vertex v)) = if i = v * w + k then 1 else 0)
    (c : Nat → K) (v : Nat) (hv : v < 3) (k : Nat) (hk : k < w) :
    jet (G.vert v) (G.h v) k (combine n c ψ (.vertex v)) = c (v * w + k) := by
  have hj : IsLinearMap K fun f : Fn 2 K => jet (G.vert v) (G.h v) k (f (.vertex v)) := by
    have := jet_linear (K := K) (d := 2) (G.vert v) (G.h v) k
    exact ⟨fun f f' => this.map_add _ _, fun a f => this.map_smul _ _⟩
  rw [combine_linear hj]
  rw [Finset.sum_congr rfl fun i hi => by rw [h v hv k hk i (Finset.mem_range.1 hi)]]
  have : v * w + k < n := by
    have : v * w + w ≤ 3 * w := by
      calc v * w + w = (v + 1) * w := by ring
        _ ≤ 3 * w := Nat.mul_le_mul_right _ hv
    omega
  simp [this]

theorem normal_combine (G : Tri K) (e n d : Nat) (c : Nat → K) (ψ : Nat → Fn 2 K)
    (h : ∀ i < n, (G.on e (along (G.normal e) (ψ i (.edge e 0)))).natDegree ≤ d) :
    (G.on e (along (G.normal e) (combine n c ψ (.edge e 0)))).natDegree ≤ d :=
  normal_degree G e n d (fun _ => c) ψ h 0

theorem smooth_of_jets [CharZero K] [Algebra K ℝ] {G G' : Tri K} {e e' : Nat} (H : SharedEdge G G' e e')
    (hL : G.Lengths) (hh : ∀ v < 3, G.h v ≠ 0) (w D : Nat) (hcase : w = 3 ∧ D = 3 ∨ w = 6 ∧ D = 5) (u u' : Fn 2 K)
    (hf : G.Fits whole w u) (hf' : G'.Fits whole w u')
    (hd : (u (.edge e 0)).totalDegree ≤ D) (hd' : (u' (.edge e' 0)).totalDegree ≤ D)
    (hn : (G.on e (along (G.normal e) (u (.edge e 0)))).natDegree ≤ D - 2)
    (hn' : (G'.on e' (along (G'.normal e') (u' (.edge e' 0)))).natDegree ≤ D - 2)
    (hj : ∀ k < w, jet (G.vert (ends e).1) (G.h (ends e).1) k (u (.vertex (ends e).1)) =
        jet (G'.vert (ends e').1) (G'.h (ends e').1) k (u' (.vertex (ends e').1)) ∧
      jet (G.vert (ends e).2) (G.h (ends e).2) k (u (.vertex (ends e).2)) =
        jet (G'.vert (ends e').2) (G'.h (ends e').2) k (u' (.vertex (ends e').2))) : Smooth G G' e e' u u' := by
  have jets := shared_jets H hh whole rfl w u u' hf hf' hj
  have hdeg : (u (.edge e 0) - u' (.edge e' 0)).totalDegree ≤ D :=
    (MvPolynomial.totalDegree_sub _ _).trans (max_le hd hd')
  have d1 : (G.on e (u (.edge e 0) - u' (.edge e' 0))).natDegree ≤ D := (trace_degree _ _ _).trans hdeg
  have d2 : (G.on e (along (G.normal e) (u (.edge e 0) - u' (.edge e' 0)))).natDegree ≤ D - 2 := by
    rw [along_sub, on_sub]
    rw [shared_on H, shared_normal H] at hn'
    exact (Polynomial.natDegree_sub_le _ _).trans (max_le hn hn')
  rcases hcase with ⟨rfl, rfl⟩ | ⟨rfl, rfl⟩
  · obtain ⟨r1, r2⟩ := roots1 G e _ jets
    exact smooth_of_zero H (hL e H.left) u u' (zero_of_moments (q := 0) (by omega) r1 fun _ h => by omega)
      (zero_of_moments (q := 0) (by omega) (r2 _) fun _ h => by omega)
  · obtain ⟨r1, r2⟩ := roots2 G e _ jets
    exact smooth_of_zero H (hL e H.left) u u' (zero_of_moments (q := 0) (by omega) r1 fun _ h => by omega)
      (zero_of_moments (q := 0) (by omega) (r2 _) fun _ h => by omega)

/-- Bell elements: the coefficients of the common vertices suffice. -/
theorem C91_bell [CharZero K] [Algebra K ℝ] (R : Tri K) (g g' : Geometry K) (b b' : Nat → K) (φ φ' : Nat → Fn 2 K)
    (E : ReducedCell R 6 4 5 g b φ) (E' : ReducedCell R 6 4 5 g' b' φ')
    (e e' : Nat) (H : SharedEdge (phys R g b true) (phys R g' b' true) e e') (c c' : Nat → K)
    (hv : SameAtEnds 6 e e' c c') :
    Smooth (phys R g b true) (phys R g' b' true) e e'
      (combine 18 c (transformed 21 (bell (triangle R.vert) R.len g 21 18).get φ))
      (combine 18 c' (transformed 21 (bell (triangle R.vert) R.len g' 21 18).get φ')) := by
  have tr : ∀ j < 21, ∀ e < 3, ((phys R g b true).on e (φ j (.edge e 0))).natDegree ≤ 5 :=
    fun j hj e he => (trace_degree _ _ _).trans (E.degree j hj e he)
  have tr' : ∀ j < 21, ∀ e < 3, ((phys R g' b' true).on e (φ' j (.edge e 0))).natDegree ≤ 5 :=
    fun j hj e he => (trace_degree _ _ _).trans (E'.degree j hj e he)
  have ns := C38_bell_cubic R g b E.affine φ E.fits tr
    (fun j hj e he => (trace_along _ _ _ _).trans (Nat.sub_le_sub_right (E.degree j hj e he) 1)) E.nodal
  have ns' := C38_bell_cubic R g' b' E'.affine φ' E'.fits tr'
    (fun j hj e he => (trace_along _ _ _ _).trans (Nat.sub_le_sub_right (E'.degree j hj e he) 1)) E'.nodal
  have js := reduced_jets (n := 18) (w := 6) rfl (phys R g b true) _
    (C38_bell R g b E.affine φ E.fits tr E.nodal).1 c
  have js' := reduced_jets (n := 18) (w := 6) rfl (phys R g' b' true) _
    (C38_bell R g' b' E'.affine φ' E'.fits tr' E'.nodal).1 c'
  have e1 := ends_lt e
  have e2 := ends_lt e'
  refine smooth_of_jets H (E.affine.phys_len _) E.affine.size 6 5 (Or.inr ⟨rfl, rfl⟩) _ _ (fits_combine c E.fits)
    (fits_combine c' E'.fits) (degree_combine c fun i hi => E.degree i hi e H.left)
    (degree_combine c' fun i hi => E'.degree i hi e' H.right)
    (normal_combine _ _ _ _ _ _ fun i hi => ns e H.left i hi)
    (normal_combine _ _ _ _ _ _ fun i hi => ns' e' H.right i hi) fun k hk => ⟨?_, ?_⟩
  · rw [js _ (e1.1.trans e1.2) k hk, js' _ (e2.1.trans e2.2) k hk]
    exact (hv k hk).1
  · rw [js _ e1.2 k hk, js' _ e2.2 k hk]
    exact (hv k hk).2

/-- Reduced Hsieh-Clough-Tocher elements. -/
theorem C91_reducedHct [CharZero K] [Algebra K ℝ] (R : Tri K) (g g' : Geometry K) (b b' : Nat → K) (φ φ' : Nat → Fn 2 K)
    (E : ReducedCell R 3 2 3 g b φ) (E' : ReducedCell R 3 2 3 g' b' φ')
    (e e' : Nat) (H : SharedEdge (phys R g b true) (phys R g' b' true) e e') (c c' : Nat → K)
    (hv : SameAtEnds 3 e e' c c') :
    Smooth (phys R g b true) (phys R g' b' true) e e'
      (combine 9 c (transformed 12 (reducedHct (triangle R.vert) R.len g 12 9).get φ))
      (combine 9 c' (transformed 12 (reducedHct (triangle R.vert) R.len g' 12 9).get φ')) := by
  have tr : ∀ j < 12, ∀ e < 3, ((phys R g b true).on e (φ j (.edge e 0))).natDegree ≤ 3 :=
    fun j hj e he => (trace_degree _ _ _).trans (E.degree j hj e he)
  have tr' : ∀ j < 12, ∀ e < 3, ((phys R g' b' true).on e (φ' j (.edge e 0))).natDegree ≤ 3 :=
    fun j hj e he => (trace_degree _ _ _).trans (E'.degree j hj e he)
  have ns := C38_reducedHct_linear R g b E.affine φ E.fits tr
    (fun j hj e he => (trace_along _ _ _ _).trans (Nat.sub_le_sub_right (E.degree j hj e he) 1)) E.nodal
  have ns' := C38_reducedHct_linear R g' b' E'.affine φ' E'.fits tr'
    (fun j hj e he => (trace_along _ _ _ _).trans (Nat.sub_le_sub_right (E'.degree j hj e he) 1)) E'.nodal
  have js := reduced_jets (n := 9) (w := 3) rfl (phys R g b true) _
    (C38_reducedHct R g b E.affine φ E.fits tr E.nodal).1 c
  have js' := reduced_jets (n := 9) (w := 3) rfl (phys R g' b' true) _
    (C38_reducedHct R g' b' E'.affine φ' E'.fits tr' E'.nodal).1 c'
  have e1 := ends_lt e
  have e2 := ends_lt e'
  refine smooth_of_jets H (E.affine.phys_len _) E.affine.size 3 3 (Or.inl ⟨rfl, rfl⟩) _ _ (fits_combine c E.fits)
    (fits_combine c' E'.fits) (degree_combine c fun i hi => E.degree i hi e H.left)
    (degree_combine c' fun i hi => E'.degree i hi e' H.right)
    (normal_combine _ _ _ _ _ _ fun i hi => ns e H.left i hi)
    (normal_combine _ _ _ _ _ _ fun i hi => ns' e' H.right i hi) fun k hk => ⟨?_, ?_⟩
  · rw [js _ (e1.1.trans e1.2) k hk, js' _ (e2.1.trans e2.2) k hk]
    exact (hv k hk).1
  · rw [js _ e1.2 k hk, js' _ e2.2 k hk]
    exact (hv k hk).2

/-- One cell of the point variant of Argyris elements of degree five: the normal derivative at the midpoint of each
edge. -/
structure PointCell (R : Tri K) (g : Geometry K) (b : Nat → K) (φ : Nat → Fn 2 K) : Prop where
  affine : Affine R g b
  sizes : ∀ e < 3, g.h (ends e).1 + g.h (ends e).2 ≠ 0
  fits : ∀ j < 21, (phys R g b true).Fits whole 6 (φ j)
  degree : ∀ j < 21, ∀ e < 3, (φ j (.edge e 0)).totalDegree ≤ 5
  nodal : Nodal 21 (R.jetDofs 6 R.normalMidpoint) fun j => (φ j).pull g.J b

/-- Argyris elements of degree five with point degrees of freedom. -/
theorem C91_argyris_point [CharZero K] [Algebra K ℝ] (R : Tri K) (g g' : Geometry K) (b b' : Nat → K) (φ φ' : Nat → Fn 2 K)
    (E : PointCell R g b φ) (E' : PointCell R g' b' φ')
    (e e' : Nat) (H : SharedEdge (phys R g b true) (phys R g' b' true) e e') (c c' : Nat → K)
    (hv : SameAtEnds 6 e e' c c') (he : SameOnEdge 6 1 e e' c c') :
    Smooth (phys R g b true) (phys R g' b' true) e e'
      (combine 21 c (transformed 21 (argyrisPoint (triangle R.vert) R.len g 21 5).get φ))
      (combine 21 c' (transformed 21 (argyrisPoint (triangle R.vert) R.len g' 21 5).get φ')) := by
  have tr : ∀ j < 21, ∀ e < 3, ((phys R g b true).on e (φ j (.edge e 0))).natDegree ≤ 5 :=
    fun j hj e he => (trace_degree _ _ _).trans (E.degree j hj e he)
  have tr' : ∀ j < 21, ∀ e < 3, ((phys R g' b' true).on e (φ' j (.edge e 0))).natDegree ≤ 5 :=
    fun j hj e he => (trace_degree _ _ _).trans (E'.degree j hj e he)
  have co := combine_nodal (jetDofs_linear _ 6 _ fun k => normalMidpoint_linear _ k)
    (C38_argyris_point R g b E.affine E.sizes φ E.fits tr E.nodal) c
  have co' := combine_nodal (jetDofs_linear _ 6 _ fun k => normalMidpoint_linear _ k)
    (C38_argyris_point R g' b' E'.affine E'.sizes φ' E'.fits tr' E'.nodal) c'
  have e1 := ends_lt e
  have e2 := ends_lt e'
  have j1 : ∀ v < 3, ∀ k < 6, jet ((phys R g b true).vert v) ((phys R g b true).h v) k
      (combine 21 c (transformed 21 (argyrisPoint (triangle R.vert) R.len g 21 5).get φ) (.vertex v)) = c (v * 6 + k) :=
    fun v hv k hk => by rw [← co _ (by omega), jetDofs_at _ _ _ _ _ _ hv hk]
  have j2 : ∀ v < 3, ∀ k < 6, jet ((phys R g' b' true).vert v) ((phys R g' b' true).h v) k
      (combine 21 c' (transformed 21 (argyrisPoint (triangle R.vert) R.len g' 21 5).get φ') (.vertex v)) = c' (v * 6 + k) :=
    fun v hv k hk => by rw [← co' _ (by omega), jetDofs_at _ _ _ _ _ _ hv hk]
  have m1 := co (3 * 6 + e) (by have := H.left; omega)
  have m2 := co' (3 * 6 + e') (by have := H.right; omega)
  rw [jetDofs_rest] at m1 m2
  set u := combine 21 c (transformed 21 (argyrisPoint (triangle R.vert) R.len g 21 5).get φ)
  set u' := combine 21 c' (transformed 21 (argyrisPoint (triangle R.vert) R.len g' 21 5).get φ')
  have jets := shared_jets H E.affine.size whole rfl 6 u u' (fits_combine c E.fits) (fits_combine c' E'.fits)
    (fun k hk => ⟨by rw [j1 _ (e1.1.trans e1.2) k hk, j2 _ (e2.1.trans e2.2) k hk]; exact (hv k hk).1,
      by rw [j1 _ e1.2 k hk, j2 _ e2.2 k hk]; exact (hv k hk).2⟩)
  have hdeg : (u (.edge e 0) - u' (.edge e' 0)).totalDegree ≤ 5 :=
    (MvPolynomial.totalDegree_sub _ _).trans (max_le (degree_combine c fun i hi => E.degree i hi e H.left)
      (degree_combine c' fun i hi => E'.degree i hi e' H.right))
  obtain ⟨r1, r2⟩ := roots2 (phys R g b true) e _ jets
  have d1 : ((phys R g b true).on e (u (.edge e 0) - u' (.edge e' 0))).natDegree ≤ 5 := (trace_degree _ _ _).trans hdeg
  have mid : ((phys R g b true).on e (along ((phys R g b true).normal e)
      (u (.edge e 0) - u' (.edge e' 0)))).eval (1 / 2) = 0 := by
    unfold Tri.normalMidpoint at m1 m2
    have hs : (g.h (ends e).1 + g.h (ends e).2) / 2 ≠ (0 : K) := div_ne_zero (E.sizes e H.left) two_ne_zero
    have k1 : ((phys R g b true).on e (along ((phys R g b true).normal e) (u (.edge e 0)))).eval (1 / 2) =
        c (3 * 6 + e) / ((g.h (ends e).1 + g.h (ends e).2) / 2) := by
      rw [eq_div_iff hs, mul_comm]
      exact m1
    have k2 : ((phys R g' b' true).on e' (along ((phys R g' b' true).normal e') (u' (.edge e' 0)))).eval (1 / 2) =
        c' (3 * 6 + e') / ((g.h (ends e).1 + g.h (ends e).2) / 2) := by
      rw [eq_div_iff hs, mul_comm, show g.h (ends e).1 = g'.h (ends e').1 from H.size_start,
        show g.h (ends e).2 = g'.h (ends e').2 from H.size_stop]
      exact m2
    rw [shared_on H, shared_normal H] at k2
    have hc := he 0 (by omega)
    rw [mul_one, mul_one, add_zero, add_zero] at hc
    rw [along_sub, on_sub, Polynomial.eval_sub, k1, k2, hc, sub_self]
  exact smooth_of_zero H (E.affine.phys_len _ e H.left) u u'
    (zero_of_moments (q := 0) (by omega) r1 fun _ h => by omega)
    (zero_of_midpoint ((trace_along _ _ _ _).trans (Nat.sub_le_sub_right hdeg 1)) (r2 _) mid)

/-! ### Hermite elements -/

/-- One cell of Hermite elements on simplices of dimension `d` with reference vertices `x`: the values and first
derivatives at the vertices and others. -/
structure HermiteCell (d : Nat) (x : Nat → Nat → K) (m N : Nat) (inner : Nat → MvPolynomial (Fin d) K → K)
    (g : Geometry K) (b : Nat → K) (φ : Nat → MvPolynomial (Fin d) K) : Prop where
  affine : ∀ v i j, i < d → j < d → g.Js v i j = g.J i j
  size : ∀ v < d + 1, g.h v ≠ 0
  linear : ∀ k, IsLinearMap K (inner k)
  degree : ∀ j < N, (φ j).totalDegree ≤ 3
  nodal : ∀ j < N, (∀ v < d + 1, value (x v) (pull g.J b (φ j)) = if j = v * (d + 1) then 1 else 0) ∧
      (∀ v < d + 1, ∀ i < d, value (x v) (D i (pull g.J b (φ j))) = if j = v * (d + 1) + 1 + i then 1 else 0) ∧
      ∀ k < m, inner k (pull g.J b (φ j)) = if j = (d + 1) * (d + 1) + k then 1 else 0

theorem value_linear {d : Nat} (y : Nat → K) : IsLinearMap K fun f : MvPolynomial (Fin d) K => value y f :=
  ⟨fun f f' => map_add _ _ _, fun a f => map_smul (value y) _ _⟩

theorem value_D_linear {d : Nat} (y : Nat → K) (i : Nat) :
    IsLinearMap K fun f : MvPolynomial (Fin d) K => value y (D i f) := by
  refine ⟨fun f f' => ?_, fun a f => ?_⟩
  · rw [D_add, map_add]
  · rw [show D i (a • f) = a • D i f by unfold D; split <;> simp]
    exact map_smul (value y) _ _

theorem linear_sum {V : Type} [AddCommGroup V] [Module K V] {ℓ : V → K} (h : IsLinearMap K ℓ) (n : Nat)
    (c : Nat → K) (ψ : Nat → V) : ℓ (∑ i ∈ range n, c i • ψ i) = ∑ i ∈ range n, c i * ℓ (ψ i) := by
  have := map_sum (IsLinearMap.mk' _ h) (fun i => c i • ψ i) (range n)
  simp only [IsLinearMap.mk'_apply, h.map_smul, smul_eq_mul] at this
  exact this

theorem hermite_nodal (d : Nat) (x : Nat → Nat → K) (m N : Nat) (hN : N = (d + 1) * (d + 1) + m)
    (inner : Nat → MvPolynomial (Fin d) K → K) (g : Geometry K) (b : Nat → K) (φ : Nat → MvPolynomial (Fin d) K)
    (E : HermiteCell d x m N inner g b φ) (c : Nat → K) (v : Nat) (hv : v < d + 1) :
    value (mapPoint d g.J b (x v)) (∑ i ∈ range N, c i • ∑ j ∈ range N, (hermite d g N).get i j • φ j) =
        c (v * (d + 1)) ∧
      ∀ k < d, g.h v * value (mapPoint d g.J b (x v))
        (D k (∑ i ∈ range N, c i • ∑ j ∈ range N, (hermite d g N).get i j • φ j)) = c (v * (d + 1) + 1 + k) := by
  have key := C35_hermite_chain d g m N hN E.size (fun v f => value (mapPoint d g.J b (x v)) f)
    (fun v => value_linear _) (fun v i f => value (mapPoint d g.J b (x v)) (D i f)) (fun v i => value_D_linear _ i)
    (fun v f => value (x v) f) (fun v i f => value (x v) (D i f)) (pull g.J b) (fun v _ f => value_pull _ _ _ f)
    (fun v _ k hk f => by
      rw [value_D_pull _ _ _ _ hk]
      exact Finset.sum_congr rfl fun j hj => by rw [E.affine v j k (Finset.mem_range.1 hj) hk])
    inner (fun k => ⟨fun f f' => by rw [map_add, (E.linear k).map_add], fun a f => by
      rw [map_smul, (E.linear k).map_smul]⟩) φ E.nodal
  have lt := vertex_lt (d + 1)
  refine ⟨?_, fun k hk => ?_⟩
  · rw [linear_sum (value_linear _)]
    rw [Finset.sum_congr rfl fun i hi => by rw [(key i (Finset.mem_range.1 hi)).1 v hv]]
    have : v * (d + 1) < N := by have := lt v hv 0 (by omega); omega
    simp [this]
  · rw [linear_sum (value_D_linear _ k), Finset.mul_sum]
    rw [Finset.sum_congr rfl fun i hi => by
      rw [mul_left_comm, (key i (Finset.mem_range.1 hi)).2.1 v hv k hk]]
    have : v * (d + 1) + 1 + k < N := by have := lt v hv (1 + k) (by omega); omega
    simp [this]

/-- Hermite elements in every dimension: along a common edge the function is continuous. -/
theorem C91_hermite [CharZero K] [Algebra K ℝ] (d : Nat) (x : Nat → Nat → K) (m N : Nat) (hN : N = (d + 1) * (d + 1) + m)
    (inner : Nat → MvPolynomial (Fin d) K → K) (g g' : Geometry K) (b b' : Nat → K) (φ φ' : Nat → MvPolynomial (Fin d) K)
    (E : HermiteCell d x m N inner g b φ) (E' : HermiteCell d x m N inner g' b' φ') (c c' : Nat → K)
    (y₀ y₁ : Nat → K) (v₀ v₁ v₀' v₁' : Nat)
    (h₀ : v₀ < d + 1 ∧ y₀ = mapPoint d g.J b (x v₀)) (h₁ : v₁ < d + 1 ∧ y₁ = mapPoint d g.J b (x v₁))
    (h₀' : v₀' < d + 1 ∧ y₀ = mapPoint d g'.J b' (x v₀')) (h₁' : v₁' < d + 1 ∧ y₁ = mapPoint d g'.J b' (x v₁'))
    (hs : g.h v₀ = g'.h v₀' ∧ g.h v₁ = g'.h v₁')
    (hc : ∀ k < d + 1, c (v₀ * (d + 1) + k) = c' (v₀' * (d + 1) + k) ∧ c (v₁ * (d + 1) + k) = c' (v₁' * (d + 1) + k)) :
    trace y₀ y₁ (∑ i ∈ range N, c i • ∑ j ∈ range N, (hermite d g N).get i j • φ j) =
      trace y₀ y₁ (∑ i ∈ range N, c' i • ∑ j ∈ range N, (hermite d g' N).get i j • φ' j) := by
  have dg : ∀ (c : Nat → K) (M : Nat → Nat → K) (f : Nat → MvPolynomial (Fin d) K), (∀ j < N, (f j).totalDegree ≤ 3) →
      (∑ i ∈ range N, c i • ∑ j ∈ range N, M i j • f j).totalDegree ≤ 3 := by
    intro c M f h
    have hsum : ∀ (c : Nat → K) (f : Nat → MvPolynomial (Fin d) K), (∀ j < N, (f j).totalDegree ≤ 3) →
        (∑ j ∈ range N, c j • f j).totalDegree ≤ 3 := fun c f h =>
      (MvPolynomial.totalDegree_finsetSum _ _).trans (Finset.sup_le fun j hj =>
        (MvPolynomial.totalDegree_smul_le _ _).trans (h j (Finset.mem_range.1 hj)))
    exact hsum c _ fun i _ => hsum (M i) f h
  have n0 := hermite_nodal d x m N hN inner g b φ E c v₀ h₀.1
  have n1 := hermite_nodal d x m N hN inner g b φ E c v₁ h₁.1
  have n0' := hermite_nodal d x m N hN inner g' b' φ' E' c' v₀' h₀'.1
  have n1' := hermite_nodal d x m N hN inner g' b' φ' E' c' v₁' h₁'.1
  have du := dg c (hermite d g N).get φ E.degree
  have du' := dg c' (hermite d g' N).get φ' E'.degree
  rw [← h₀.2] at n0
  rw [← h₁.2] at n1
  rw [← h₀'.2] at n0'
  rw [← h₁'.2] at n1'
  generalize (∑ i ∈ range N, c i • ∑ j ∈ range N, (hermite d g N).get i j • φ j) = u at *
  generalize (∑ i ∈ range N, c' i • ∑ j ∈ range N, (hermite d g' N).get i j • φ' j) = u' at *
  rw [← sub_eq_zero, ← map_sub]
  have ddeg : (trace y₀ y₁ (u - u')).natDegree ≤ 3 :=
    (trace_degree _ _ _).trans ((MvPolynomial.totalDegree_sub _ _).trans (max_le du du'))
  have hgrad : ∀ (y t : Nat → K), (∀ k < d, value y (D k (u - u')) = 0) → value y (along t (u - u')) = 0 := by
    intro y t h
    unfold along
    rw [map_sum]
    refine Finset.sum_eq_zero fun i _ => ?_
    have := h i.1 i.2
    rw [D, dif_pos i.2] at this
    rw [map_mul, this, mul_zero]
  have hsub : ∀ (y : Nat → K) (k : Nat), value y (D k (u - u')) = value y (D k u) - value y (D k u') := fun y k =>
    (IsLinearMap.mk' _ (value_D_linear y k)).map_sub u u'
  refine zero_of_moments (m := 2) (q := 0) (by omega) (fun k hk => ?_) fun _ h => by omega
  match k, hk with
  | 0, _ =>
    refine ⟨(eval_trace_zero _ _ _).trans ?_, (eval_trace_one _ _ _).trans ?_⟩
    · rw [map_sub, n0.1, n0'.1, sub_eq_zero]
      exact (hc 0 (by omega)).1
    · rw [map_sub, n1.1, n1'.1, sub_eq_zero]
      exact (hc 0 (by omega)).2
  | 1, _ =>
    show (Polynomial.derivative _).eval 0 = 0 ∧ (Polynomial.derivative _).eval 1 = 0
    rw [derivative_trace]
    refine ⟨(eval_trace_zero _ _ _).trans (hgrad _ _ fun k hk => ?_),
      (eval_trace_one _ _ _).trans (hgrad _ _ fun k hk => ?_)⟩
    · rw [hsub, sub_eq_zero]
      refine mul_left_cancel₀ (E.size v₀ h₀.1) ?_
      rw [n0.2 k hk, hs.1, n0'.2 k hk]
      have := (hc (1 + k) (by omega)).1
      rwa [← add_assoc, ← add_assoc] at this
    · rw [hsub, sub_eq_zero]
      refine mul_left_cancel₀ (E.size v₁ h₁.1) ?_
      rw [n1.2 k hk, hs.2, n1'.2 k hk]
      have := (hc (1 + k) (by omega)).2
      rwa [← add_assoc, ← add_assoc] at this

end FInAT.Props
