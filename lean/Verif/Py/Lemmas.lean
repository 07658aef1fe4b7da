import Verif.Py.Basic
import Mathlib.Data.List.Basic
import Mathlib.Data.List.Perm.Basic
import Mathlib.Data.List.Nodup
import Mathlib.Algebra.BigOperators.Group.List.Basic
import Mathlib.Tactic.Ring
import Mathlib.Tactic.Linarith

/-!
# Lemmas about the Python primitives
-/

namespace FInAT

variable {α β κ ν : Type _}

/-! ## itertools.product -/

@[simp] theorem product_nil : product ([] : List (List α)) = [[]] := rfl

@[simp] theorem product_cons (l : List α) (ls : List (List α)) :
    product (l :: ls) = l.flatMap fun x => (product ls).map (x :: ·) := rfl

theorem mem_product {ls : List (List α)} {x : List α} :
    x ∈ product ls ↔ List.Forall₂ (fun a l => a ∈ l) x ls := by
  induction ls generalizing x with
  | nil => simp
  | cons l ls ih =>
    simp only [product_cons, List.mem_flatMap, List.mem_map]
    constructor
    · rintro ⟨a, ha, t, ht, rfl⟩
      exact .cons ha (ih.1 ht)
    · intro h
      cases h with
      | cons ha ht => exact ⟨_, ha, _, ih.2 ht, rfl⟩

theorem length_of_mem_product {ls : List (List α)} {x : List α} (h : x ∈ product ls) :
    x.length = ls.length := (mem_product.1 h).length_eq

theorem length_product (ls : List (List α)) :
    (product ls).length = (ls.map List.length).prod := by
  induction ls with
  | nil => rfl
  | cons l ls ih => simp [List.length_flatMap, ih, List.sum_replicate]

theorem product_perm {ls ls' : List (List α)} (h : List.Forall₂ List.Perm ls ls') :
    (product ls).Perm (product ls') := by
  induction h with
  | nil => exact .refl _
  | cons h _ ih =>
    simp only [product_cons]
    refine (List.Perm.flatMap_right _ h).trans ?_
    exact List.Perm.flatMap_left _ fun a _ => ih.map _

theorem product_map (f : α → β) (ls : List (List α)) :
    product (ls.map (List.map f)) = (product ls).map (List.map f) := by
  induction ls with
  | nil => rfl
  | cons l ls ih =>
    simp only [List.map_cons, product_cons, ih, List.flatMap_map, List.map_flatMap, List.map_map]
    rfl

/-- Distributing a product over concatenations. -/
theorem product_flatten (lss : List (List (List α))) :
    (product (lss.map List.flatten)).Perm ((product lss).flatMap product) := by
  induction lss with
  | nil => exact .refl _
  | cons ls lss ih =>
    simp only [List.map_cons, product_cons, List.flatMap_assoc, List.flatMap_map]
    -- left: flatten ls flatMap ; right: ls.flatMap (fun l => (product lss).flatMap ...)
    have h1 : (ls.flatten.flatMap fun x => (product (lss.map List.flatten)).map (x :: ·)) =
        ls.flatMap fun l => l.flatMap fun x => (product (lss.map List.flatten)).map (x :: ·) := by
      induction ls with
      | nil => rfl
      | cons l ls ih => simp [ih]
    rw [h1]
    refine List.Perm.flatMap_left _ fun l hl => ?_
    have h2 : (l.flatMap fun x => (product (lss.map List.flatten)).map (x :: ·)).Perm
        (l.flatMap fun x => ((product lss).flatMap product).map (x :: ·)) :=
      List.Perm.flatMap_left _ fun a _ => ih.map _
    refine h2.trans ?_
    simp only [List.map_flatMap]
    -- swap the two flatMaps
    clear h1 h2 ih hl
    induction l with
    | nil => simp
    | cons x l ih =>
      simp only [List.flatMap_cons]
      refine (List.Perm.append_left _ ih).trans ?_
      clear ih
      generalize product lss = ps
      induction ps with
      | nil => simp
      | cons p ps ih =>
        simp only [List.flatMap_cons]
        refine List.Perm.trans ?_ ((List.Perm.refl _).append ih)
        simp only [List.append_assoc]
        refine List.Perm.append_left _ ?_
        rw [← List.append_assoc, ← List.append_assoc]
        exact List.Perm.append_right _ List.perm_append_comm

theorem nodup_product {ls : List (List α)} (h : ∀ l ∈ ls, l.Nodup) : (product ls).Nodup := by
  induction ls with
  | nil => simp
  | cons l ls ih =>
    simp only [product_cons]
    rw [List.nodup_flatMap]
    refine ⟨fun x _ => (ih fun l hl => h l (by simp [hl])).map (by intro a b; simp), ?_⟩
    refine (h l (by simp)).imp ?_
    intro a b hab
    simp only [Function.onFun, List.disjoint_left, List.mem_map, not_exists, not_and]
    rintro x ⟨t, _, rfl⟩ u _ he
    exact hab (by simpa using (List.cons.inj he).1.symm)

/-! ## ravel and unravel -/

@[simp] theorem ravel_cons (n : Nat) (ns : List Nat) (i : Nat) (is : List Nat) :
    ravel (n :: ns) (i :: is) = i * ns.prod + ravel ns is := rfl

@[simp] theorem ravel_nil (is : List Nat) : ravel [] is = 0 := by cases is <;> rfl
@[simp] theorem ravel_nil' (ns : List Nat) : ravel ns [] = 0 := by cases ns <;> rfl

theorem inBounds_iff {shape idx : List Nat} :
    inBounds shape idx = true ↔ List.Forall₂ (fun i n => i < n) idx shape := by
  induction shape generalizing idx with
  | nil => cases idx <;> simp [inBounds]
  | cons n ns ih => cases idx <;> simp [inBounds, ih]

theorem mem_ndindex {shape idx : List Nat} :
    idx ∈ ndindex shape ↔ List.Forall₂ (fun i n => i < n) idx shape := by
  unfold ndindex
  rw [mem_product]
  simp [List.forall₂_map_right_iff]

theorem ravel_lt {shape idx : List Nat} (h : List.Forall₂ (fun i n => i < n) idx shape) :
    ravel shape idx < shape.prod := by
  induction h with
  | nil => simp
  | @cons i n is ns hi _ ih =>
    simp only [ravel_cons, List.prod_cons]
    calc i * ns.prod + ravel ns is < i * ns.prod + ns.prod := by omega
      _ = (i + 1) * ns.prod := by ring
      _ ≤ n * ns.prod := Nat.mul_le_mul_right _ hi

theorem unravel_ravel {shape idx : List Nat} (h : List.Forall₂ (fun i n => i < n) idx shape) :
    unravel shape (ravel shape idx) = idx := by
  induction h with
  | nil => rfl
  | @cons i n is ns hi hs ih =>
    have hlt := ravel_lt hs
    simp only [ravel_cons, unravel]
    have h1 : (i * ns.prod + ravel ns is) / ns.prod = i := by
      rw [mul_comm, Nat.mul_add_div (by omega), Nat.div_eq_of_lt hlt, add_zero]
    have h2 : (i * ns.prod + ravel ns is) % ns.prod = ravel ns is := by
      rw [mul_comm, Nat.mul_add_mod, Nat.mod_eq_of_lt hlt]
    rw [h1, h2, ih]

theorem unravel_bounds {shape : List Nat} {k : Nat} (h : k < shape.prod) :
    List.Forall₂ (fun i n => i < n) (unravel shape k) shape := by
  induction shape generalizing k with
  | nil => exact .nil
  | cons n ns ih =>
    simp only [List.prod_cons] at h
    have hpos : 0 < ns.prod := by
      rcases Nat.eq_zero_or_pos ns.prod with h0 | h0
      · simp [h0] at h
      · exact h0
    exact .cons ((Nat.div_lt_iff_lt_mul hpos).2 h) (ih (Nat.mod_lt _ hpos))

theorem ravel_unravel {shape : List Nat} {k : Nat} (h : k < shape.prod) :
    ravel shape (unravel shape k) = k := by
  induction shape generalizing k with
  | nil => simp at h; simp [h]
  | cons n ns ih =>
    simp only [List.prod_cons] at h
    have hpos : 0 < ns.prod := by
      rcases Nat.eq_zero_or_pos ns.prod with h0 | h0
      · simp [h0] at h
      · exact h0
    simp only [unravel, ravel_cons, ih (Nat.mod_lt _ hpos)]
    exact Nat.div_add_mod' k ns.prod

theorem range_mul (n m : Nat) :
    (List.range n).flatMap (fun i => (List.range m).map (i * m + ·)) = List.range (n * m) := by
  induction n with
  | zero => simp
  | succ n ih =>
    rw [List.range_succ, List.flatMap_append, ih, Nat.succ_mul, List.range_add]
    simp

/-- Row-major enumeration: `ndindex` lists the multi-indices in the order of their `ravel`. -/
theorem map_ravel_ndindex (shape : List Nat) :
    (ndindex shape).map (ravel shape) = List.range shape.prod := by
  unfold ndindex
  induction shape with
  | nil => rfl
  | cons n ns ih =>
    simp only [List.map_cons, product_cons, List.map_flatMap, List.map_map, List.prod_cons]
    rw [← range_mul]
    congr 1
    funext i
    have : (ravel (n :: ns) ∘ fun x => i :: x) = (i * ns.prod + ·) ∘ ravel ns := by
      funext x; simp
    rw [this, ← List.map_map, ih]

theorem ndindex_eq_map_unravel (shape : List Nat) :
    ndindex shape = (List.range shape.prod).map (unravel shape) := by
  rw [← map_ravel_ndindex, List.map_map]
  conv_lhs => rw [← List.map_id (ndindex shape)]
  refine List.map_congr_left fun x hx => ?_
  simp [unravel_ravel (mem_ndindex.1 hx)]

theorem length_ndindex (shape : List Nat) : (ndindex shape).length = shape.prod := by
  rw [ndindex_eq_map_unravel]; simp

theorem ravel_append {s t i j : List Nat} (h : i.length = s.length) :
    ravel (s ++ t) (i ++ j) = ravel s i * t.prod + ravel t j := by
  induction s generalizing i with
  | nil => cases i with
    | nil => simp
    | cons => simp at h
  | cons n ns ih =>
    cases i with
    | nil => simp at h
    | cons a as =>
      simp only [List.length_cons, Nat.add_right_cancel_iff] at h
      simp only [List.cons_append, ravel_cons, ih h, List.prod_append]
      ring

/-! ## sorting -/

theorem insertBy_perm (le : α → α → Bool) (a : α) (l : List α) :
    (insertBy le a l).Perm (a :: l) := by
  induction l with
  | nil => exact .refl _
  | cons b l ih =>
    simp only [insertBy]
    split
    · exact .refl _
    · exact (ih.cons b).trans (.swap a b l)

theorem sortBy_perm (le : α → α → Bool) (l : List α) : (sortBy le l).Perm l := by
  induction l with
  | nil => exact .refl _
  | cons a l ih => exact (insertBy_perm le a _).trans (ih.cons a)

theorem sortBy_eq_self {le : α → α → Bool} {l : List α}
    (h : l.Pairwise fun a b => le a b = true) : sortBy le l = l := by
  induction l with
  | nil => rfl
  | cons a l ih =>
    rw [List.pairwise_cons] at h
    simp only [sortBy, ih h.2]
    cases l with
    | nil => rfl
    | cons b l => simp [insertBy, h.1 b (by simp)]

theorem insertBy_pairwise {le : α → α → Bool} (tot : ∀ a b, le a b = true ∨ le b a = true)
    (trans : ∀ a b c, le a b = true → le b c = true → le a c = true) (a : α) {l : List α}
    (h : l.Pairwise fun a b => le a b = true) :
    (insertBy le a l).Pairwise fun a b => le a b = true := by
  induction l with
  | nil => simp [insertBy]
  | cons b l ih =>
    rw [List.pairwise_cons] at h
    simp only [insertBy]
    split
    · rename_i hab
      rw [List.pairwise_cons]
      refine ⟨?_, List.pairwise_cons.2 h⟩
      intro c hc
      rcases List.mem_cons.1 hc with rfl | hc
      · exact hab
      · exact trans _ _ _ hab (h.1 c hc)
    · rename_i hab
      rw [List.pairwise_cons]
      refine ⟨?_, ih h.2⟩
      intro c hc
      rcases List.mem_cons.1 ((insertBy_perm le a l).mem_iff.1 hc) with rfl | hc
      · exact (tot b c).resolve_right hab
      · exact h.1 c hc

theorem sortBy_pairwise {le : α → α → Bool} (tot : ∀ a b, le a b = true ∨ le b a = true)
    (trans : ∀ a b c, le a b = true → le b c = true → le a c = true) (l : List α) :
    (sortBy le l).Pairwise fun a b => le a b = true := by
  induction l with
  | nil => exact .nil
  | cons a l ih => exact insertBy_pairwise tot trans a ih

theorem sortNat_perm (l : List Nat) : (sortNat l).Perm l := sortBy_perm _ l

theorem sortNat_pairwise (l : List Nat) : (sortNat l).Pairwise (· ≤ ·) := by
  have := sortBy_pairwise (le := fun a b : Nat => decide (a ≤ b)) (by simp; omega)
    (by simp; omega) l
  simpa [sortNat] using this

theorem sortNat_eq_range {l : List Nat} {n : Nat} (h : l.Perm (List.range n)) :
    sortNat l = List.range n := by
  refine List.Perm.eq_of_pairwise (le := (· ≤ ·)) ?_ (sortNat_pairwise l) ?_ ((sortNat_perm l).trans h)
  · intro a b _ _ h1 h2; omega
  · exact (List.pairwise_lt_range (n := n)).imp (by intro a b h; omega)

theorem lexLe_refl (a : List Nat) : lexLe a a = true := by
  induction a with
  | nil => rfl
  | cons x xs ih => simp [lexLe, ih]

/-- `itertools.product` of increasing lists is already sorted lexicographically. -/
theorem product_pairwise_lex {ls : List (List Nat)} (h : ∀ l ∈ ls, l.Pairwise (· < ·)) :
    (product ls).Pairwise fun a b => lexLe a b = true := by
  induction ls with
  | nil => simp
  | cons l ls ih =>
    simp only [product_cons]
    have hl := h l (by simp)
    have hr := ih fun l hl => h l (by simp [hl])
    clear h ih
    induction l with
    | nil => simp
    | cons x l ih =>
      rw [List.pairwise_cons] at hl
      simp only [List.flatMap_cons]
      rw [List.pairwise_append]
      refine ⟨?_, ih hl.2, ?_⟩
      · rw [List.pairwise_map]
        exact hr.imp (by intro a b hab; simp [lexLe, hab])
      · intro a ha b hb
        simp only [List.mem_map, List.mem_flatMap] at ha hb
        obtain ⟨t, _, rfl⟩ := ha
        obtain ⟨y, hy, u, _, rfl⟩ := hb
        simp [lexLe, hl.1 y hy]

/-! ## cumulative sums -/

theorem cumsum0_go (acc : Nat) (l : List Nat) :
    cumsum0.go acc l = (List.range (l.length + 1)).map fun i => acc + (l.take i).sum := by
  induction l generalizing acc with
  | nil => simp [cumsum0.go]
  | cons n ns ih =>
    rw [cumsum0.go, ih, List.length_cons, List.range_succ_eq_map (n := ns.length + 1)]
    simp [Function.comp_def, add_assoc]

theorem cumsum0_eq (l : List Nat) :
    cumsum0 l = (List.range (l.length + 1)).map fun i => (l.take i).sum := by
  simp [cumsum0, cumsum0_go]

/-! ## enumerate -/

theorem enumFrom_eq (s : Nat) (l : List κ) :
    enumFrom s l = (List.range l.length).attach.map fun i =>
      (s + i.1, l[i.1]'(List.mem_range.1 i.2)) := by
  induction l generalizing s with
  | nil => rfl
  | cons a l ih =>
    apply List.ext_getElem
    · simp [enumFrom, ih]
    · intro i h1 h2
      simp only [enumFrom, ih]
      cases i with
      | zero => simp
      | succ i => simp; omega

theorem enumFrom_keys (s : Nat) (l : List κ) :
    (enumFrom s l).map Prod.fst = (List.range l.length).map (s + ·) := by
  induction l generalizing s with
  | nil => rfl
  | cons a l ih =>
    simp only [enumFrom, List.map_cons, ih, List.length_cons, List.range_succ_eq_map,
      List.map_map, Function.comp_def]
    simp [add_assoc, add_comm 1]

@[simp] theorem enumFrom_values (s : Nat) (l : List κ) : (enumFrom s l).map Prod.snd = l := by
  induction l generalizing s with
  | nil => rfl
  | cons a l ih => simp [enumFrom, ih]

theorem enumFrom_get? (s : Nat) (l : List ν) (k : Nat) :
    Dict.get? (enumFrom s l) (s + k) = l[k]? := by
  induction l generalizing s k with
  | nil => simp [enumFrom, Dict.get?]
  | cons a l ih =>
    cases k with
    | zero => simp [enumFrom, Dict.get?]
    | succ k =>
      have : s ≠ s + (k + 1) := by omega
      simp only [enumFrom, Dict.get?, this, if_false]
      have := ih (s + 1) k
      rw [show s + (k + 1) = s + 1 + k by omega, this]
      simp

theorem enumFrom_zero_get? (l : List ν) (k : Nat) :
    Dict.get? (enumFrom 0 l) k = l[k]? := by
  simpa using enumFrom_get? 0 l k

/-! ## dictionaries -/

section dict
variable {κ ν : Type} [DecidableEq κ]

theorem Dict.get?_eq_some_of_mem {d : Dict κ ν} (hd : d.keys.Nodup) {k : κ} {v : ν}
    (h : (k, v) ∈ d) : d.get? k = some v := by
  induction d with
  | nil => simp at h
  | cons p t ih =>
    obtain ⟨k', v'⟩ := p
    simp only [Dict.keys, List.map_cons, List.nodup_cons] at hd
    simp only [Dict.get?]
    rcases List.mem_cons.1 h with h | h
    · cases h; simp
    · have : k' ≠ k := by
        rintro rfl
        exact hd.1 (List.mem_map_of_mem (f := Prod.fst) h)
      simp [this, ih hd.2 h]

theorem Dict.mem_of_get?_eq_some {d : Dict κ ν} {k : κ} {v : ν}
    (h : d.get? k = some v) : (k, v) ∈ d := by
  induction d with
  | nil => simp [Dict.get?] at h
  | cons p t ih =>
    obtain ⟨k', v'⟩ := p
    simp only [Dict.get?] at h
    split at h
    · rename_i hk; subst hk; simp at h; simp [h]
    · exact List.mem_cons_of_mem _ (ih h)

theorem Dict.get?_isSome_iff {d : Dict κ ν} {k : κ} : (d.get? k).isSome ↔ k ∈ d.keys := by
  induction d with
  | nil => simp [Dict.get?, Dict.keys]
  | cons p t ih =>
    obtain ⟨k', v'⟩ := p
    simp only [Dict.get?, Dict.keys, List.map_cons, List.mem_cons] at *
    split
    · simp_all
    · rename_i h
      rw [ih]
      constructor
      · exact Or.inr
      · rintro (rfl | h')
        · exact absurd rfl h
        · exact h'

theorem Dict.get_eq_ok_iff {d : Dict κ ν} {k : κ} {v : ν} :
    d.get k = .ok v ↔ d.get? k = some v := by
  unfold Dict.get; split <;> simp_all

end dict

end FInAT
