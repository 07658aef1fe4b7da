import Verif.Lemmas.FreeEval
import Verif.Spec.History
import Verif.Model.Dual
import Verif.Model.Support

/-!
# Renaming the indices of expressions

`Eqv t d g x y`: the construction `y`, started after `d` more indices have been created, takes the course of `x`; its
result is the one of `x` after `g`. With `shift t d` for the renaming of indices this holds of every construction and
itself, with renamed arguments.
-/

namespace FInAT

variable {K : Type} {α β γ : Type}

theorem shift_of_lt {t d k : Nat} (h : k < t) : shift t d k = k := by simp [shift, h]

theorem shift_of_le {t d k : Nat} (h : t ≤ k) : shift t d k = k + d := by simp [shift, Nat.not_lt.2 h]

theorem shift_injective (t d : Nat) : Function.Injective (shift t d) := by
  intro a b h
  unfold shift at h
  split at h <;> split at h <;> omega

/-- A table with renamed indices. -/
def Tab.ren (f : Nat → Nat) (T : Tab K) : Tab K := T.map fun p => (p.1, p.2.ren f)

variable {f : Nat → Nat}

@[simp] theorem Index.ren_extent (i : Index) : (i.ren f).extent = i.extent := rfl
@[simp] theorem Index.ren_id (i : Index) : (i.ren f).id = f i.id := rfl
@[simp] theorem map_extent_ren (l : List Index) : (l.map (Index.ren f)).map Index.extent = l.map Index.extent := by
  simp [Function.comp_def]
@[simp] theorem map_free_ren (l : List Index) :
    (l.map (Index.ren f)).map Ix.free = (l.map Ix.free).map (Ix.ren f) := by
  simp [Function.comp_def, Ix.ren]
@[simp] theorem map_fixed_ren (l : List Nat) : (l.map Ix.fixed).map (Ix.ren f) = l.map Ix.fixed := by
  simp [Function.comp_def, Ix.ren]

@[simp] theorem comp_free_ren : Ix.free ∘ Index.ren f = Ix.ren f ∘ Ix.free := rfl

theorem Gem.renL_eq : ∀ es : List (Gem K), Gem.renL f es = es.map (Gem.ren f)
  | [] => rfl
  | e :: es => by rw [Gem.renL, Gem.renL_eq es]; rfl

theorem PSet.renL_eq : ∀ es : List (PSet K), PSet.renL f es = es.map (PSet.ren f)
  | [] => rfl
  | e :: es => by rw [PSet.renL, PSet.renL_eq es]; rfl

mutual
@[simp] theorem Gem.shape_ren : ∀ e : Gem K, (e.ren f).shape = e.shape
  | .literal _ _ => rfl
  | .zero _ => rfl
  | .indexed _ _ => rfl
  | .componentTensor _ ixs => by simp only [Gem.ren, Gem.shape, map_extent_ren]
  | .product _ _ => rfl
  | .delta _ _ => rfl
  | .indexSum _ _ => rfl
  | .listTensor _ _ => rfl
  | .concatenate es => by simp only [Gem.ren, Gem.shape, Gem.sizeSum_ren es]
theorem Gem.sizeSum_ren : ∀ es : List (Gem K), Gem.sizeSum (Gem.renL f es) = Gem.sizeSum es
  | [] => rfl
  | e :: es => by simp only [Gem.renL, Gem.sizeSum, Gem.shape_ren e, Gem.sizeSum_ren es]
end

mutual
@[simp] theorem PSet.pts_ren : ∀ ps : PSet K, (ps.ren f).pts = ps.pts
  | .singleton _ => rfl
  | .points _ _ _ => rfl
  | .unknown _ _ _ => rfl
  | .tensor fs => by simp only [PSet.ren, PSet.pts, PSet.ptsL_ren fs]
theorem PSet.ptsL_ren : ∀ ps : List (PSet K), PSet.ptsL (PSet.renL f ps) = PSet.ptsL ps
  | [] => rfl
  | p :: ps => by simp only [PSet.renL, PSet.ptsL, PSet.pts_ren p, PSet.ptsL_ren ps]
end

mutual
@[simp] theorem PSet.indices_ren : ∀ ps : PSet K, (ps.ren f).indices = ps.indices.map (Index.ren f)
  | .singleton _ => rfl
  | .points _ _ _ => rfl
  | .unknown _ _ _ => rfl
  | .tensor fs => by simp only [PSet.ren, PSet.indices, PSet.indicesL_ren fs]
theorem PSet.indicesL_ren : ∀ ps : List (PSet K), PSet.indicesL (PSet.renL f ps) = (PSet.indicesL ps).map (Index.ren f)
  | [] => rfl
  | p :: ps => by simp only [PSet.renL, PSet.indicesL, PSet.indices_ren p, PSet.indicesL_ren ps, List.map_append]
end

mutual
theorem PSet.pointAt_ren (ρ : Nat → Nat) : ∀ ps : PSet K, (ps.ren f).pointAt ρ = ps.pointAt (ρ ∘ f)
  | .singleton _ => rfl
  | .points _ _ _ => by simp only [PSet.ren, PSet.pointAt, map_extent_ren, List.map_map]; rfl
  | .unknown _ _ _ => rfl
  | .tensor fs => by simp only [PSet.ren, PSet.pointAt, PSet.pointAtL_ren ρ fs]
theorem PSet.pointAtL_ren (ρ : Nat → Nat) : ∀ ps : List (PSet K), PSet.pointAtL ρ (PSet.renL f ps) = PSet.pointAtL (ρ ∘ f) ps
  | [] => rfl
  | p :: ps => by simp only [PSet.renL, PSet.pointAtL, PSet.pointAt_ren ρ p, PSet.pointAtL_ren ρ ps]
end

@[simp] theorem PSet.dimension_ren (ps : PSet K) : (ps.ren f).dimension = ps.dimension := by
  cases ps with
  | unknown _ _ _ => rfl
  | singleton _ => rfl
  | points _ _ _ => rfl
  | tensor fs => simp only [PSet.dimension, PSet.ren, PSet.pts, PSet.ptsL_ren]

/-- All indices of the points have been created before `t`. -/
def PSet.Before (t : Nat) (ps : PSet K) : Prop := ∀ i ∈ ps.indices, i.id < t

theorem map_ren_before {t d : Nat} {l : List Index} (h : ∀ i ∈ l, i.id < t) : l.map (Index.ren (shift t d)) = l := by
  conv_rhs => rw [← List.map_id l]
  apply List.map_congr_left
  intro i hi
  simp [Index.ren, shift_of_lt (h i hi)]

mutual
theorem PSet.ren_before {t d : Nat} : ∀ ps : PSet K, ps.Before t → ps.ren (shift t d) = ps
  | .singleton _, _ => rfl
  | .points _ _ _, h => by rw [PSet.ren, map_ren_before (by simpa [PSet.Before, PSet.indices] using h)]
  | .unknown _ _ i, h => by
    have : i.id < t := by simpa [PSet.Before, PSet.indices] using h
    rw [PSet.ren, Index.ren, shift_of_lt this]
  | .tensor fs, h => by rw [PSet.ren, PSet.renL_before fs (by simpa [PSet.Before, PSet.indices] using h)]
theorem PSet.renL_before {t d : Nat} : ∀ ps : List (PSet K), (∀ i ∈ PSet.indicesL ps, i.id < t) →
    PSet.renL (shift t d) ps = ps
  | [], _ => rfl
  | p :: ps, h => by
    simp only [PSet.indicesL, List.mem_append] at h
    rw [PSet.renL, PSet.ren_before p fun i hi => h i (.inl hi), PSet.renL_before ps fun i hi => h i (.inr hi)]
end

theorem bindIx_ren (hf : Function.Injective f) : ∀ (ixs : List Index) (v : List Nat) (ρ : Nat → Nat),
    bindIx ρ (ixs.map (Index.ren f)) v ∘ f = bindIx (ρ ∘ f) ixs v
  | [], v, ρ => by simp [bindIx]
  | i :: ixs, [], ρ => by simp [bindIx]
  | i :: ixs, k :: v, ρ => by
    simp only [List.map_cons, bindIx]
    rw [bindIx_ren hf ixs v]
    congr 1
    funext x
    by_cases h : x = i.id
    · simp [Function.update, h]
    · simp [Function.update, h, hf.eq_iff]

theorem Ix.val_ren (ρ : Nat → Nat) (i : Ix) : (i.ren f).val ρ = i.val (ρ ∘ f) := by
  cases i <;> rfl

section eval
variable [CommRing K]

mutual
theorem Gem.eval_ren (hf : Function.Injective f) : ∀ (e : Gem K) (ρ : Nat → Nat) (v : List Nat),
    (e.ren f).eval ρ v = e.eval (ρ ∘ f) v
  | .literal _ _, ρ, v => by simp only [Gem.ren, Gem.eval]
  | .zero _, ρ, v => by simp only [Gem.ren, Gem.eval]
  | .indexed e ixs, ρ, v => by
    simp only [Gem.ren, Gem.eval, Gem.eval_ren hf e, List.map_map]
    congr 1
    apply List.map_congr_left
    intro i _
    exact Ix.val_ren ρ i
  | .componentTensor e ixs, ρ, v => by
    simp only [Gem.ren, Gem.eval, Gem.eval_ren hf e, bindIx_ren hf]
  | .product a b, ρ, v => by simp only [Gem.ren, Gem.eval, Gem.eval_ren hf a, Gem.eval_ren hf b]
  | .delta i j, ρ, v => by simp only [Gem.ren, Gem.eval]; rfl
  | .indexSum e ixs, ρ, v => by
    simp only [Gem.ren, Gem.eval, Gem.eval_ren hf e, bindIx_ren hf, map_extent_ren]
  | .listTensor s es, ρ, v => by simp only [Gem.ren, Gem.eval, Gem.evalNth_ren hf es]
  | .concatenate es, ρ, v => by simp only [Gem.ren, Gem.eval, Gem.evalFlat_ren hf es]
theorem Gem.evalNth_ren (hf : Function.Injective f) : ∀ (es : List (Gem K)) (ρ : Nat → Nat) (k : Nat),
    Gem.evalNth ρ (Gem.renL f es) k = Gem.evalNth (ρ ∘ f) es k
  | [], _, _ => by simp only [Gem.renL, Gem.evalNth]
  | e :: es, ρ, 0 => by simp only [Gem.renL, Gem.evalNth, Gem.eval_ren hf e]
  | e :: es, ρ, k + 1 => by simp only [Gem.renL, Gem.evalNth, Gem.evalNth_ren hf es]
theorem Gem.evalFlat_ren (hf : Function.Injective f) : ∀ (es : List (Gem K)) (ρ : Nat → Nat) (k : Nat),
    Gem.evalFlat ρ (Gem.renL f es) k = Gem.evalFlat (ρ ∘ f) es k
  | [], _, _ => by simp only [Gem.renL, Gem.evalFlat]
  | e :: es, ρ, k => by
    simp only [Gem.renL, Gem.evalFlat, Gem.eval_ren hf e, Gem.evalFlat_ren hf es, Gem.shape_ren]
end

end eval

/-! ### Constructions at two moments -/

/-- From `n` on: `y` started `d` later does what `x` does, with the result changed by `g`. -/
def Eqv (t d : Nat) (g : α → α) (x y : M α) : Prop :=
  ∀ n, t ≤ n → y (n + d) = (x n).map (fun p => (g p.1, p.2 + d)) ∧ ∀ a m, x n = .ok (a, m) → n ≤ m

namespace Eqv

variable {t d : Nat}

theorem pure {g : α → α} {a b : α} (h : b = g a) : Eqv t d g (Pure.pure a) (Pure.pure b) := by
  intro n _
  subst h
  exact ⟨rfl, fun _ _ h => by cases h; exact Nat.le_refl _⟩

theorem bindP {g : α → α} {h : β → β} {x y : M α} {k k' : α → M β} {P : α → Prop} (hx : Eqv t d g x y)
    (hP : ∀ n a m, x n = .ok (a, m) → P a) (hk : ∀ a, P a → Eqv t d h (k a) (k' (g a))) :
    Eqv t d h (x >>= k) (y >>= k') := by
  intro n hn
  obtain ⟨h1, h2⟩ := hx n hn
  change (y (n + d) >>= fun p => k' p.1 p.2) = ((x n >>= fun p => k p.1 p.2)).map _ ∧
    ∀ a m, (x n >>= fun p => k p.1 p.2) = _ → _
  rw [h1]
  cases hxn : x n with
  | error e => exact ⟨rfl, fun a m h => by cases h⟩
  | ok r =>
    have hr := h2 r.1 r.2 hxn
    obtain ⟨h3, h4⟩ := hk r.1 (hP n r.1 r.2 hxn) r.2 (Nat.le_trans hn hr)
    exact ⟨h3, fun a m h => Nat.le_trans hr (h4 a m h)⟩

theorem bind {g : α → α} {h : β → β} {x y : M α} {k k' : α → M β} (hx : Eqv t d g x y)
    (hk : ∀ a, Eqv t d h (k a) (k' (g a))) : Eqv t d h (x >>= k) (y >>= k') :=
  bindP (P := fun _ => True) hx (fun _ _ _ _ => trivial) fun a _ => hk a

theorem lift {g : α → α} {x y : Except Err α} (h : y = x.map g) : Eqv t d g (liftE x) (liftE y) := by
  intro n _
  subst h
  cases x with
  | error e => exact ⟨rfl, fun _ _ h => by cases h⟩
  | ok a => exact ⟨rfl, fun _ _ h => by cases h; exact Nat.le_refl _⟩

theorem lift_id {x : Except Err α} : Eqv t d id (liftE x) (liftE x) := lift (by cases x <;> rfl)

theorem raise {g : α → α} {e : Err} : Eqv t d g (liftE (.error e)) (liftE (.error e)) := lift rfl

theorem assert {b b' : Bool} (h : b' = b) : Eqv t d id (assertM b) (assertM b') := by subst h; exact lift_id

theorem fresh (s : List Nat) : Eqv t d (List.map (Index.ren (shift t d))) (freshIndices s) (freshIndices s) := by
  have key : ∀ (s : List Nat) (n : Nat), t ≤ n →
      freshIndices.mk (n + d) s = (freshIndices.mk n s).map (Index.ren (shift t d)) := by
    intro s
    induction s with
    | nil => intro n _; rfl
    | cons x s ih =>
      intro n hn
      simp only [freshIndices.mk, List.map_cons, Index.ren, shift_of_le hn]
      rw [← ih (n + 1) (by omega)]
      congr 2
      omega
  intro n hn
  refine ⟨?_, fun a m h => by cases h; omega⟩
  simp only [freshIndices, Except.map, key s n hn]
  congr 2
  omega

theorem mapM {g : γ → γ} {h : α → β} {x : α → M γ} {y : β → M γ} : ∀ {l : List α}
    (_ : ∀ a ∈ l, Eqv t d g (x a) (y (h a))), Eqv t d (List.map g) (l.mapM x) ((l.map h).mapM y)
  | [], _ => by rw [List.map_nil, List.mapM_nil, List.mapM_nil]; exact pure rfl
  | a :: l, H => by
    rw [List.map_cons, List.mapM_cons, List.mapM_cons]
    exact bind (H a (by simp)) fun b => bind (mapM fun a' ha' => H a' (by simp [ha'])) fun bs => pure rfl

theorem mapM' {g : γ → γ} {x y : α → M γ} {l : List α}
    (H : ∀ a ∈ l, Eqv t d g (x a) (y a)) : Eqv t d (List.map g) (l.mapM x) (l.mapM y) := by
  have := mapM (h := id) (l := l) H
  rwa [List.map_id] at this

theorem foldlM {g : β → β} {h : α → α} {x y : β → α → M β} : ∀ {l : List α} {b : β}
    (_ : ∀ b, ∀ a ∈ l, Eqv t d g (x b a) (y (g b) (h a))), Eqv t d g (l.foldlM x b) ((l.map h).foldlM y (g b))
  | [], b, _ => by rw [List.map_nil, List.foldlM_nil, List.foldlM_nil]; exact pure rfl
  | a :: l, b, H => by
    rw [List.map_cons, List.foldlM_cons, List.foldlM_cons]
    exact bind (H b a (by simp)) fun b' => foldlM fun b a' ha' => H b a' (by simp [ha'])

theorem of_eq {g g' : α → α} {x y y' : M α} (h : Eqv t d g x y) (hy : y' = y) (hg : ∀ a, g' a = g a) :
    Eqv t d g' x y' := by
  subst hy
  have : g' = g := funext hg
  subst this
  exact h

end Eqv

end FInAT
