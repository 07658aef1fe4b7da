import Verif.Model.Stress
import Mathlib.Data.List.Perm.Basic
import Mathlib.Data.List.Perm.Subperm
import Mathlib.Data.List.Nodup
import Mathlib.Data.List.Range

/-!
# Renumbered degrees of freedom, shapes of arrays
-/

namespace FInAT.Stress

open FInAT.Zany

/-- Distinct numbers below `m`, `m` of them, are all of them. -/
theorem perm_range_of_lt (l : List Nat) (m : Nat) (hn : l.Nodup) (hl : l.length = m) (hlt : ∀ x ∈ l, x < m) :
    l.Perm (List.range m) := by
  have hs : l.Subperm (List.range m) := hn.subperm fun x hx => List.mem_range.2 (hlt x hx)
  exact hs.perm_of_length_le (by simp [hl])

/-- If the last numbers are dropped, the others are the first ones. -/
theorem perm_drop_last (a b : List Nat) (n : Nat) (h : (a ++ b).Perm (List.range n))
    (hb : ∀ x ∈ b, n - b.length ≤ x) : a.Perm (List.range (n - b.length)) := by
  have hnd : (a ++ b).Nodup := h.nodup_iff.2 List.nodup_range
  have hlen : a.length + b.length = n := by have := h.length_eq; simpa using this
  have hlt : ∀ x ∈ b, x < n := fun x hx => List.mem_range.1 (h.subset (List.mem_append_right a hx))
  refine perm_range_of_lt a _ (List.nodup_append.1 hnd).1 (by omega) fun x hx => ?_
  by_contra hge
  -- the numbers from `n - b.length` on are those of `b`
  have hbp : (List.range' (n - b.length) b.length).Subperm b := by
    refine List.Perm.subperm (List.Perm.symm ?_)
    have hs : b.Subperm (List.range' (n - b.length) b.length) :=
      (List.nodup_append.1 hnd).2.1.subperm fun y hy => by
        rw [List.mem_range'_1]; have := hb y hy; have := hlt y hy; omega
    exact hs.perm_of_length_le (by simp)
  have hxn : x < n := List.mem_range.1 (h.subset (List.mem_append_left b hx))
  have hxb : x ∈ b := hbp.subset (by rw [List.mem_range'_1]; omega)
  exact (List.nodup_append.1 hnd).2.2 x hx x hxb rfl

/-- The degrees of freedom with dimension `k` replaced. -/
theorem set_flatten (d : EntityDofs) (k : Nat) (hk : k < d.length) (F : List (List Nat)) :
    ((d.set k F).flatten.flatten).Perm (F.flatten ++ ((d.take k) ++ (d.drop (k + 1))).flatten.flatten) := by
  rw [List.set_eq_take_append_cons_drop, if_pos hk]
  simp only [List.flatten_append, List.flatten_cons]
  rw [← List.append_assoc, ← List.append_assoc]
  exact List.Perm.append_right _ List.perm_append_comm

theorem self_flatten (d : EntityDofs) (k : Nat) (hk : k < d.length) :
    (d.flatten.flatten).Perm ((d.getD k []).flatten ++ ((d.take k) ++ (d.drop (k + 1))).flatten.flatten) := by
  have := set_flatten d k hk (d.getD k [])
  have hg : List.getD d k [] = d[k] := by rw [List.getD_eq_getElem?_getD, List.getElem?_eq_getElem hk]; rfl
  rw [hg, List.set_getElem_self] at this
  rwa [hg]

/-- Lists with some of their last elements taken off. -/
theorem zip_flatten (F : List (List Nat)) (f : List Nat → List Nat) (g : List Nat → List Nat)
    (h : ∀ l ∈ F, l = f l ++ g l) : F.flatten.Perm ((F.map f).flatten ++ (F.map g).flatten) := by
  induction F with
  | nil => simp
  | cons l F ih =>
    have ih' := ih fun l hl => h l (List.mem_cons_of_mem _ hl)
    simp only [List.flatten_cons, List.map_cons]
    conv_lhs => rw [h l List.mem_cons_self]
    refine (List.Perm.append_left _ ih').trans ?_
    simp only [List.append_assoc]
    refine List.Perm.append_left _ ?_
    rw [← List.append_assoc, ← List.append_assoc]
    exact List.Perm.append_right _ List.perm_append_comm

theorem foldl_drop (F : List (List Nat)) (r : Nat) :
    F.foldl (fun r l => r + (l.drop 1).length) r = r + ((F.map (List.drop 1)).flatten).length := by
  induction F generalizing r with
  | nil => simp
  | cons l F ih => rw [List.foldl_cons, ih]; simp only [List.map_cons, List.flatten_cons, List.length_append]; omega

/-! ### Shapes -/

variable {K : Type} [Field K]

omit [Field K] in
/-- The shape of an array. -/
def Arr.shape (V : Arr K) : Nat × Nat := (V.rows, V.cols)

omit [Field K] in
theorem foldl_shape {α : Type} (f : Arr K → α → Arr K) (h : ∀ V a, Arr.shape (f V a) = Arr.shape V) (l : List α)
    (V : Arr K) : Arr.shape (l.foldl f V) = Arr.shape V := by
  induction l generalizing V with
  | nil => rfl
  | cons a l ih => rw [List.foldl_cons, ih, h]

omit [Field K] in
theorem setIx_shape (V : Arr K) (rs cs : List Nat) (B : Nat → Nat → K) : Arr.shape (setIx V rs cs B) = Arr.shape V := by
  unfold setIx
  refine foldl_shape _ (fun V ri => ?_) _ V
  exact foldl_shape (fun V (cj : Nat × Nat) => V.set ri.1 cj.1 (B ri.2 cj.2)) (fun _ _ => rfl) _ V

omit [Field K] in
theorem undoPiola_shape (sd : Nat) (Finv : Nat → Nat → K) (detJ : K) (deriv : Nat → Bool) (n : Nat) (l : List Nat) (V : Arr K) :
    Arr.shape (undoPiola sd Finv detJ deriv n l V) = Arr.shape V := by
  induction n generalizing l V with
  | zero => rfl
  | succ n ih =>
    cases l with
    | nil => rfl
    | cons cur rest =>
      rw [undoPiola]
      split
      · rw [ih]; rfl
      · rw [ih, setIx_shape]

end FInAT.Stress
