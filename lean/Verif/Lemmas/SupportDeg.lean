import Verif.Spec.Support
import Verif.Model.Support
import Verif.Lemmas.Support2
import Mathlib.Algebra.BigOperators.Ring.List
import Mathlib.Tactic.Ring
import Mathlib.Tactic.Linarith

/-!
# Squares of polynomials of a degree have the doubled degree
-/

set_option linter.unusedSectionVars false

namespace FInAT

open Spec

mutual
/-- The doubled degree. -/
def dbl : Degree → Degree
  | .int d => .int (2 * d)
  | .tup ds => .tup (dblL ds)
/-- ... entry by entry. -/
def dblL : List Degree → List Degree
  | [] => []
  | d :: ds => dbl d :: dblL ds
end

theorem dblL_replicate (n : Nat) (d : Degree) : dblL (List.replicate n d) = List.replicate n (dbl d) := by
  induction n with
  | zero => rfl
  | succ n ih => rw [List.replicate_succ, List.replicate_succ, dblL, ih]

theorem dbl_expand (n : Nat) (d : Degree) : (dbl d).expand n = dblL (d.expand n) := by
  cases d with
  | int d => rw [dbl, Degree.expand, Degree.expand, dblL_replicate, dbl]
  | tup ds => rw [dbl, Degree.expand, Degree.expand]

mutual
theorem twice_eq : ∀ t : DegTree, t.twice = dbl (degreeOf t)
  | .leaf n => by rw [DegTree.twice, degreeOf, dbl]
  | .node ts => by rw [DegTree.twice, degreeOf, dbl, twiceL_eq ts]
theorem twiceL_eq : ∀ ts : List DegTree, DegTree.twiceL ts = dblL (degreeOfL ts)
  | [] => by rw [DegTree.twiceL, degreeOfL, dblL]
  | t :: ts => by rw [DegTree.twiceL, degreeOfL, dblL, twice_eq t, twiceL_eq ts]
end

theorem zipWith_sum (α β : List Nat) (h : α.length = β.length) : (List.zipWith (· + ·) α β).sum = α.sum + β.sum := by
  induction α generalizing β with
  | nil => cases β with
    | nil => rfl
    | cons => simp at h
  | cons a α ih => cases β with
    | nil => simp at h
    | cons b β =>
      simp only [List.zipWith_cons_cons, List.sum_cons, ih β (by simpa using h)]
      omega

mutual
theorem within_square : ∀ (c : Cell) (d : Degree) (α β : List Nat), α.length = β.length → Within c d α → Within c d β →
    Within c (dbl d) (List.zipWith (· + ·) α β)
  | .simplex n, .int d, α, β, h, h1, h2 => by
    simp only [dbl, Within, zipWith_sum α β h] at h1 h2 ⊢
    rw [Nat.cast_add]
    linarith
  | .hex, .int d, α, β, h, h1, h2 => by
    simp only [dbl, Within, zipWith_sum α β h] at h1 h2 ⊢
    rw [Nat.cast_add]
    linarith
  | .simplex n, .tup ds, α, β, h, h1, h2 => by simp [Within] at h1
  | .hex, .tup ds, α, β, h, h1, h2 => by simp [Within] at h1
  | .quad, d, α, β, h, h1, h2 => by
    simp only [Within, dbl_expand] at h1 h2 ⊢
    match hd : d.expand 2, α, β, h1, h2 with
    | [.int d, .int e], [a, b], [a', b'], h1, h2 =>
      simp only [dblL, dbl, List.zipWith_cons_cons, List.zipWith_nil_left] at h1 h2 ⊢
      push_cast
      constructor <;> linarith [h1.1, h1.2, h2.1, h2.2]
  | .prod cs, d, α, β, h, h1, h2 => by
    simp only [Within, dbl_expand] at h1 h2 ⊢
    exact within_squareL cs (d.expand cs.length) α β h h1 h2
theorem within_squareL : ∀ (cs : List Cell) (ds : List Degree) (α β : List Nat), α.length = β.length →
    WithinL cs ds α → WithinL cs ds β → WithinL cs (dblL ds) (List.zipWith (· + ·) α β)
  | [], [], α, β, h, h1, h2 => by simp [dblL, WithinL]
  | c :: cs, d :: ds, α, β, h, h1, h2 => by
    simp only [dblL, WithinL, List.take_zipWith, List.drop_zipWith] at h1 h2 ⊢
    exact ⟨within_square c d _ _ (by simp [h]) h1.1 h2.1, within_squareL cs ds _ _ (by simp [h]) h1.2 h2.2⟩
  | [], _ :: _, α, β, h, h1, h2 => by simp [WithinL] at h1
  | _ :: _, [], α, β, h, h1, h2 => by simp [WithinL] at h1
end

variable {K : Type} [Field K]

theorem monoVal_zipWith : ∀ (x : List K) (α β : List Nat), x.length = α.length → x.length = β.length →
    monoVal x (List.zipWith (· + ·) α β) = monoVal x α * monoVal x β
  | [], α, β, h1, h2 => by
    rw [monoVal, monoVal, monoVal, mul_one] <;> simp
  | x :: xs, a :: α, b :: β, h1, h2 => by
    simp only [List.zipWith_cons_cons, monoVal, monoVal_zipWith xs α β (by simpa using h1) (by simpa using h2), pow_add]
    ring
  | x :: xs, [], β, h1, h2 => by simp at h1
  | x :: xs, _ :: _, [], h1, h2 => by simp at h2

/-- The terms of the product of two polynomials. -/
def mulTerms (s t : List (K × List Nat)) : List (K × List Nat) :=
  s.flatMap fun a => t.map fun b => (a.1 * b.1, List.zipWith (· + ·) a.2 b.2)

theorem polyVal_append (s t : List (K × List Nat)) (x : List K) : polyVal (s ++ t) x = polyVal s x + polyVal t x := by
  simp [polyVal]

theorem polyVal_mulTerms (s t : List (K × List Nat)) (x : List K) (hs : ∀ a ∈ s, a.2.length = x.length)
    (ht : ∀ b ∈ t, b.2.length = x.length) : polyVal (mulTerms s t) x = polyVal s x * polyVal t x := by
  induction s with
  | nil => simp [mulTerms, polyVal]
  | cons a s ih =>
    have h1 : polyVal (t.map fun b => (a.1 * b.1, List.zipWith (· + ·) a.2 b.2)) x =
        a.1 * monoVal x a.2 * polyVal t x := by
      simp only [polyVal, List.map_map]
      rw [← List.sum_map_mul_left]
      refine congrArg List.sum (List.map_congr_left fun b hb => ?_)
      simp only [Function.comp, monoVal_zipWith x a.2 b.2 (hs a (by simp)).symm (ht b hb).symm]
      ring
    rw [show mulTerms (a :: s) t = t.map (fun b => (a.1 * b.1, List.zipWith (· + ·) a.2 b.2)) ++ mulTerms s t from rfl,
      polyVal_append, h1, ih fun a ha => hs a (by simp [ha])]
    simp only [polyVal, List.map_cons, List.sum_cons]
    ring

theorem polyVal_flatMap {β : Type} (l : List β) (f : β → List (K × List Nat)) (x : List K) :
    polyVal (l.flatMap f) x = (l.map fun z => polyVal (f z) x).sum := by
  induction l with
  | nil => simp [polyVal]
  | cons a l ih => rw [List.flatMap_cons, polyVal_append, ih, List.map_cons, List.sum_cons]

variable [LinearOrder K]

theorem squarePoly {φ : LeafVals K} {e : Elem} {c : Cell} {t : DegTree} {deg2 : Degree} {sub : Dim → Cell}
    {ps : Dim → Nat → Nat → List Nat → List (K × List Nat)} (h : DegreePoly φ e c t sub ps) (ht : t.double = .ok deg2) :
    SquarePoly φ e c deg2 sub fun dim k j => (ndindex (vshape e)).flatMap fun z => mulTerms (ps dim k j z) (ps dim k j z) where
  within := by
    intro dim n hd k hk j hj t' ht'
    simp only [List.mem_flatMap, mulTerms, List.mem_map] at ht'
    obtain ⟨z, hz, a, ha, b, hb, rfl⟩ := ht'
    obtain ⟨h1, h2⟩ := h.within dim n hd k hk j hj z hz a ha
    obtain ⟨h3, h4⟩ := h.within dim n hd k hk j hj z hz b hb
    simp only [DegTree.double, bind_ok] at ht
    obtain ⟨_, _, hp⟩ := ht
    cases hp
    rw [twice_eq]
    exact ⟨by simp [h1, h3], within_square _ _ _ _ (by rw [h1, h3]) h2 h4⟩
  value := by
    intro dim n hd k hk j hj x hx
    rw [polyVal_flatMap, squareSum]
    refine congrArg List.sum (List.map_congr_left fun z hz => ?_)
    rw [h.value dim n hd k hk j hj z hz x hx, pow_two, polyVal_mulTerms]
    · exact fun a ha => by rw [(h.within dim n hd k hk j hj z hz a ha).1, hx]
    · exact fun a ha => by rw [(h.within dim n hd k hk j hj z hz a ha).1, hx]

end FInAT
