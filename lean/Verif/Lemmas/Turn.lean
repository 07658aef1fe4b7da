import Verif.Spec.Turn
import Verif.Lemmas.Attached2
import Verif.Lemmas.Trace
import Verif.Props.PermTree

/-!
# Lemmas on entity permutations and the functions they permute
-/

namespace FInAT

open FInAT.Spec FInAT.Props

variable {K : Type} [CommRing K]

/-! ### pieces of a component index -/

/-- Consecutive pieces of the given lengths. -/
def cut : List Nat → List Nat → List (List Nat)
  | [], _ => []
  | n :: ns, z => z.take n :: cut ns (z.drop n)

theorem cut_zero : ∀ {ns z : List Nat} {k : Nat}, ns[k]? = some 0 → (cut ns z)[k]? = some []
  | [], _, _, h => by simp at h
  | n :: ns, z, 0, h => by
    simp only [List.getElem?_cons_zero, Option.some.injEq] at h
    simp [cut, h]
  | n :: ns, z, k + 1, h => by
    simp only [List.getElem?_cons_succ] at h
    simp [cut, cut_zero h]

theorem cut_length : ∀ (ns z : List Nat), (cut ns z).length = ns.length
  | [], _ => rfl
  | _ :: ns, z => by simp [cut, cut_length ns]

/-! ### values of products -/

/-- The values of the factors of a product. -/
def factorValues : List (Nat × BFun K) → List (Dim × Nat) → List (List K) → List (List Nat) → List K
  | (sd, g) :: gs, E :: Es, x :: xs, z :: zs => g (List.replicate sd 0) E x z :: factorValues gs Es xs zs
  | _, _, _, _ => []

theorem prodFn_values : ∀ (gs : List ((Nat × Nat) × BFun K)) (Es : List (Dim × Nat)) (xs : List (List K)) (z : List Nat),
    gs.length = Es.length → List.Forall₂ (fun x (E : Dim × Nat) => x.length = E.1.total) xs Es →
    prodFn gs (List.replicate (gs.map fun g => g.1.1).sum 0) Es xs.flatten z =
      (factorValues (gs.map fun g => (g.1.1, g.2)) Es xs (cut (gs.map fun g => g.1.2) z)).prod
  | [], [], _, z, _, h => by cases h; simp [prodFn, factorValues]
  | [], _ :: _, _, _, h, _ => by simp at h
  | _ :: _, [], _, _, h, _ => by simp at h
  | ((sd, vl), g) :: gs, E :: Es, _, z, hl, h => by
    cases h with
    | @cons x _ xs _ hx hr =>
      have ih := prodFn_values gs Es xs (z.drop vl) (by simpa using hl) hr
      simp only [prodFn, List.map_cons, List.sum_cons, List.flatten_cons, factorValues, cut, List.prod_cons, ← ih]
      rw [List.take_left' hx, List.drop_left' hx]
      congr 2
      · simp [List.take_replicate]
      · simp [List.drop_replicate]

theorem factorValues_getElem? : ∀ (gs : List (Nat × BFun K)) (Es : List (Dim × Nat)) (xs : List (List K)) (zs : List (List Nat))
    (k : Nat) (sd : Nat) (g : BFun K) (E : Dim × Nat) (x : List K) (z : List Nat),
    gs[k]? = some (sd, g) → Es[k]? = some E → xs[k]? = some x → zs[k]? = some z →
    (factorValues gs Es xs zs)[k]? = some (g (List.replicate sd 0) E x z)
  | [], _, _, _, k, _, _, _, _, _, h, _, _, _ => by simp at h
  | _ :: _, [], _, _, _, _, _, _, _, _, _, h, _, _ => by simp at h
  | _ :: _, _ :: _, [], _, _, _, _, _, _, _, _, _, h, _ => by simp at h
  | _ :: _, _ :: _, _ :: _, [], _, _, _, _, _, _, _, _, _, h => by simp at h
  | (sd, g) :: gs, E :: Es, x :: xs, z :: zs, 0, _, _, _, _, _, h1, h2, h3, h4 => by
    simp only [List.getElem?_cons_zero, Option.some.injEq, Prod.mk.injEq] at h1 h2 h3 h4
    obtain ⟨rfl, rfl⟩ := h1
    subst h2 h3 h4
    rfl
  | _ :: gs, E :: Es, x :: xs, z :: zs, k + 1, _, _, _, _, _, h1, h2, h3, h4 => by
    simp only [List.getElem?_cons_succ] at h1 h2 h3 h4
    simp only [factorValues, List.getElem?_cons_succ]
    exact factorValues_getElem? gs Es xs zs k _ _ _ _ _ h1 h2 h3 h4

theorem factorValues_length : ∀ (gs : List (Nat × BFun K)) (Es : List (Dim × Nat)) (xs : List (List K)) (zs : List (List Nat)),
    Es.length = gs.length → xs.length = gs.length → zs.length = gs.length → (factorValues gs Es xs zs).length = gs.length
  | [], _, _, _, _, _, _ => by simp [factorValues]
  | _ :: _, [], _, _, h, _, _ => by simp at h
  | _ :: _, _ :: _, [], _, _, h, _ => by simp at h
  | _ :: _, _ :: _, _ :: _, [], _, _, h => by simp at h
  | (sd, g) :: gs, E :: Es, x :: xs, z :: zs, h1, h2, h3 => by
    simp only [List.length_cons, Nat.add_right_cancel_iff] at h1 h2 h3
    simp [factorValues, factorValues_length gs Es xs zs h1 h2 h3]

/-- The product of a list does not depend on the order. -/
theorem prod_reindex {v w : List K} {sigma : List Nat} (hs : sigma.Perm (List.range v.length)) (hl : w.length = v.length)
    (h : ∀ k < v.length, v.getD k 0 = w.getD (sigma.getD k 0) 0) : v.prod = w.prod := by
  have hsl : sigma.length = v.length := by simpa using hs.length_eq
  have h1 : v = sigma.map fun a => w.getD a 0 := by
    apply List.ext_getElem (by simp [hsl])
    intro k h1 h2
    have := h k h1
    rw [List.getD_eq_getElem _ _ h1, List.getD_eq_getElem (l := sigma) _ (by omega)] at this
    simpa using this
  have h2 : w = (List.range v.length).map fun a => w.getD a 0 := by
    apply List.ext_getElem (by simp [hl])
    intro k h1 h2
    simp [List.getElem?_eq_getElem h1]
  rw [h1, (hs.map _).prod_eq, ← h2]

/-! ### list access -/

theorem forall2_getElem? {α β : Type _} {R : α → β → Prop} {l : List α} {r : List β} (h : List.Forall₂ R l r) {k : Nat}
    {a : α} {b : β} (ha : l[k]? = some a) (hb : r[k]? = some b) : R a b := by
  induction h generalizing k with
  | nil => simp at ha
  | cons h _ ih =>
    cases k with
    | zero => simp at ha hb; subst ha hb; exact h
    | succ k => simp only [List.getElem?_cons_succ] at ha hb; exact ih ha hb

theorem exists_getElem? {α : Type _} {l : List α} {k : Nat} (h : k < l.length) : ∃ a, l[k]? = some a :=
  ⟨_, List.getElem?_eq_getElem h⟩

theorem split_lengths : ∀ (Es : List (Dim × Nat)) (x : List K), x.length = (Es.map fun E => E.1.total).sum →
    ∃ xs : List (List K), List.Forall₂ (fun x (E : Dim × Nat) => x.length = E.1.total) xs Es ∧ xs.flatten = x
  | [], x, h => by
    simp only [List.map_nil, List.sum_nil, List.length_eq_zero_iff] at h
    subst h
    exact ⟨[], .nil, rfl⟩
  | E :: Es, x, h => by
    simp only [List.map_cons, List.sum_cons] at h
    obtain ⟨xs, h1, h2⟩ := split_lengths Es (x.drop E.1.total) (by simp; omega)
    exact ⟨x.take E.1.total :: xs, .cons (by simp; omega) h1, by simp [h2]⟩

/-! ### products -/

theorem fnOf_product (φ : LeafVals K) {fs : List Elem} {cs : List Cell} {E : Dim × Nat} {Es : List (Dim × Nat)} {v : List Nat}
    (hcs : Elem.cellL fs = .ok cs) (hE : factorEntity cs (some E) = .ok Es)
    (hv : List.Forall₂ (fun k n => k < n) v (fs.map Elem.spaceDim)) (α : List Nat) (x : List K) (z : List Nat) :
    fnOf φ (.tensorProduct fs) (ravel (fs.map Elem.spaceDim) v) α E x z =
      prodFn ((fs.map fun f => (sdim f, (vshape f).length)).zip (List.zipWith (fun f k => fnOf φ f k) fs v)) α Es x z := by
  have hL : fs.map Elem.spaceDim = Elem.spaceDimL fs := by
    clear * -
    induction fs with
    | nil => rfl
    | cons f fs ih => simp [Elem.spaceDimL, ih]
  rw [hL] at hv ⊢
  have hfe : factorEnts fs E = Es := by simp [factorEnts, hcs, hE, bind, Except.bind]
  have hl : fs.length = v.length := by rw [hv.length_eq, ← hL]; simp
  rw [← prodFn_eq φ fs v hl]
  simp only [fnOf, basisValue, Elem.indexShape, hfe]
  rw [unravel_flatten fs v hv]

end FInAT
