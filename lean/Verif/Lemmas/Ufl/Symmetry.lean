import Verif.Model.Ufl.Pullback
import Verif.Lemmas.Ufl.Component
import Verif.Lemmas.Monad
import Mathlib.Data.List.Nodup
import Mathlib.Data.List.Range
import Mathlib.Data.List.Flatten

/-!
# Lemmas on the numbering of tensor elements
-/

namespace FInAT.Ufl

/-- The components that are not keys of the dictionary. -/
def freeOf (sym : Symmetry) (is : List (List Nat)) : List (List Nat) :=
  is.filter fun i => (sym.get? i).isNone

theorem freeOf_cons_free {sym : Symmetry} {i : List Nat} {is : List (List Nat)}
    (h : sym.get? i = none) : freeOf sym (i :: is) = i :: freeOf sym is := by
  simp [freeOf, h]

theorem freeOf_cons_key {sym : Symmetry} {i j : List Nat} {is : List (List Nat)}
    (h : sym.get? i = some j) : freeOf sym (i :: is) = freeOf sym is := by
  simp [freeOf, h]

theorem mem_freeOf {sym : Symmetry} {is : List (List Nat)} {x : List Nat} :
    x ∈ freeOf sym is ↔ x ∈ is ∧ sym.get? x = none := by
  simp [freeOf]

theorem numberFree_spec (sym : Symmetry) : ∀ (is : List (List Nat)) (n : Nat)
    (d : Dict (List Nat) Nat), is.Nodup →
    (numberFree sym is n d).2 = n + (freeOf sym is).length ∧
    ∀ x, (numberFree sym is n d).1.get? x =
      if x ∈ freeOf sym is then some (n + (freeOf sym is).idxOf x) else d.get? x
  | [], n, d, _ => by simp [numberFree, freeOf]
  | i :: is, n, d, hnd => by
    have hnd' := (List.nodup_cons.1 hnd).2
    have hi := (List.nodup_cons.1 hnd).1
    cases h : sym.get? i with
    | some j =>
      rw [numberFree, if_pos (by simp [h]), freeOf_cons_key h]
      exact numberFree_spec sym is n d hnd'
    | none =>
      rw [numberFree, if_neg (by simp [h]), freeOf_cons_free h]
      obtain ⟨h1, h2⟩ := numberFree_spec sym is (n + 1) (d.set i n) hnd'
      refine ⟨by rw [h1]; simp; omega, fun x => ?_⟩
      rw [h2, Dict.get?_set]
      have hif : i ∉ freeOf sym is := fun hm => hi (mem_freeOf.1 hm).1
      by_cases hx : x = i
      · subst hx
        simp [hif]
      · by_cases hm : x ∈ freeOf sym is
        · have hne : i ≠ x := fun h => hx h.symm
          rw [if_pos hm, if_pos (List.mem_cons_of_mem _ hm), List.idxOf_cons_ne _ hne]
          congr 1
          omega
        · have hne : ¬ i = x := fun h => hx h.symm
          rw [if_neg hm, if_neg hne, if_neg (by simp [hx, hm])]

theorem numberSym_spec (sym : Symmetry) : ∀ (is : List (List Nat)) (d d' : Dict (List Nat) Nat),
    is.Nodup → (∀ x, (d.get? x).isSome → (sym.get? x).isSome → x ∉ is) →
    numberSym sym is d = .ok d' →
    (∀ x, x ∉ is ∨ sym.get? x = none → d'.get? x = d.get? x) ∧
    (∀ x ∈ is, ∀ j, sym.get? x = some j → d'.get? x = d'.get? j ∧ (d'.get? x).isSome) ∧
    (∀ x n, d'.get? x = some n → ∃ y, d.get? y = some n)
  | [], d, d', _, _, h => by
    rw [numberSym] at h
    cases h
    exact ⟨fun x _ => rfl, fun x hx => by simp at hx, fun x n h => ⟨x, h⟩⟩
  | i :: is, d, d', hnd, hinv, h => by
    have hnd' := (List.nodup_cons.1 hnd).2
    have hi := (List.nodup_cons.1 hnd).1
    rw [numberSym] at h
    cases hs : sym.get? i with
    | none =>
      rw [hs] at h
      obtain ⟨h1, h2, h3⟩ := numberSym_spec sym is d d' hnd'
        (fun x a b c => hinv x a b (List.mem_cons_of_mem _ c)) h
      refine ⟨fun x hx => h1 x ?_, fun x hx j hj => ?_, h3⟩
      · rcases hx with hx | hx
        · exact .inl (fun hm => hx (List.mem_cons_of_mem _ hm))
        · exact .inr hx
      · rcases List.mem_cons.1 hx with rfl | hx
        · rw [hs] at hj; cases hj
        · exact h2 x hx j hj
    | some j =>
      rw [hs] at h
      obtain ⟨n, hn, h⟩ := bind_ok h
      have hjn : d.get? j = some n := by
        unfold Dict.get at hn
        split at hn
        · cases hn; assumption
        · cases hn
      obtain ⟨h1, h2, h3⟩ := numberSym_spec sym is (d.set i n) d' hnd' (by
        intro x hx hk hm
        rw [Dict.get?_set] at hx
        by_cases hxi : x = i
        · subst hxi; exact hi hm
        · rw [if_neg (fun h => hxi h.symm)] at hx
          exact hinv x hx hk (List.mem_cons_of_mem _ hm)) h
      have hii : d'.get? i = some n := by
        rw [h1 i (.inl hi), Dict.get?_set]; simp
      have hjj : d'.get? j = some n := by
        have : j ∉ is ∨ sym.get? j = none := by
          cases hsj : sym.get? j with
          | none => exact .inr rfl
          | some _ => exact .inl (fun hm => hinv j (by simp [hjn]) (by simp [hsj])
              (List.mem_cons_of_mem _ hm))
        rw [h1 j this, Dict.get?_set]
        by_cases hij : i = j
        · simp [hij]
        · rw [if_neg hij, hjn]
      refine ⟨fun x hx => ?_, fun x hx k hk => ?_, fun x m hm => ?_⟩
      · have hxi : x ≠ i := by
          rintro rfl
          rcases hx with hx | hx
          · exact hx List.mem_cons_self
          · rw [hs] at hx; cases hx
        rw [h1 x (hx.imp (fun hx hm => hx (List.mem_cons_of_mem _ hm)) id), Dict.get?_set,
          if_neg (fun h => hxi h.symm)]
      · rcases List.mem_cons.1 hx with rfl | hx
        · rw [hs] at hk
          cases hk
          exact ⟨by rw [hii, hjj], by rw [hii]; rfl⟩
        · exact h2 x hx k hk
      · obtain ⟨y, hy⟩ := h3 x m hm
        rw [Dict.get?_set] at hy
        by_cases hyi : y = i
        · subst hyi
          simp at hy
          exact ⟨j, by rw [hjn, hy]⟩
        · rw [if_neg (fun h => hyi h.symm)] at hy
          exact ⟨y, hy⟩

theorem indicesOf_nodup : ∀ sh : List Nat, (indicesOf sh).Nodup
  | [] => by simp [indicesOf]
  | n :: ns => by
    rw [indicesOf, List.nodup_flatMap]
    refine ⟨fun i _ => (indicesOf_nodup ns).map (fun a b h => by cases h; rfl), ?_⟩
    refine List.Pairwise.imp ?_ List.nodup_range
    intro a b hab x hx hy
    obtain ⟨x', -, rfl⟩ := List.mem_map.1 hx
    obtain ⟨y', -, h⟩ := List.mem_map.1 hy
    cases h
    exact hab rfl

/-- What the constructor of tensor elements establishes. -/
theorem tensor_facts {b : Base} {s : UElem} {shape : List Nat} {sym : Symmetry}
    {number : Dict (List Nat) Nat} {count : Nat} {m : String} {v : Option String}
    (h : Good (.tensor b s shape sym number count m v)) :
    checkSymmetry shape sym = .ok () ∧ count = (freeOf sym (indicesOf shape)).length ∧
    (∃ sh, s.shape = .ok sh ∧
      b.shape = (if sym.isEmpty then shape else [prodNat shape - sym.length]) ++ sh) ∧
    (∀ i, Within i shape → sym.get? i = none →
      number.get? i = some ((freeOf sym (indicesOf shape)).idxOf i)) ∧
    (∀ i j, Within i shape → sym.get? i = some j → number.get? i = number.get? j) ∧
    (∀ i, Within i shape → ∃ n, n < count ∧ number.get? i = some n) := by
  have hf := h.fixed
  unfold Fixed at hf
  rw [reconstruct, (h.sub s (by simp [children])).fixed] at hf
  obtain ⟨b', shape', d, number', count', m', he, -, hc, hn, hs, -, hsh, h1, h2, -⟩ :=
    mkTensorOf_ok (s := s) (shape := some shape) (sym := .dict sym) (v := s.variant)
      (e := .tensor b s shape sym number count m v) hf
  cases he
  have hnd := indicesOf_nodup shape
  obtain ⟨f1, f2⟩ := numberFree_spec sym (indicesOf shape) 0 [] hnd
  obtain ⟨s1, s2, s3⟩ := numberSym_spec sym (indicesOf shape) _ number hnd (by
    intro x hx hk hm
    rw [f2] at hx
    by_cases hfx : x ∈ freeOf sym (indicesOf shape)
    · rw [(mem_freeOf.1 hfx).2] at hk; cases hk
    · rw [if_neg hfx] at hx; simp [Dict.get?] at hx) hs
  have hfree : ∀ i, Within i shape → sym.get? i = none →
      number.get? i = some ((freeOf sym (indicesOf shape)).idxOf i) := by
    intro i hi hk
    rw [s1 i (.inr hk), f2, if_pos (mem_freeOf.2 ⟨mem_indicesOf.2 hi, hk⟩), Nat.zero_add]
  have hcount : count = (freeOf sym (indicesOf shape)).length := by rw [hn, f1, Nat.zero_add]
  refine ⟨hc, hcount, hsh, hfree, fun i j hi hk => (s2 i (mem_indicesOf.2 hi) j hk).1,
    fun i hi => ?_⟩
  have : (number.get? i).isSome := by
    cases hk : sym.get? i with
    | none => rw [hfree i hi hk]; rfl
    | some j => exact (s2 i (mem_indicesOf.2 hi) j hk).2
  obtain ⟨n, hn'⟩ := Option.isSome_iff_exists.1 this
  refine ⟨n, ?_, hn'⟩
  obtain ⟨y, hy⟩ := s3 i n hn'
  rw [f2] at hy
  by_cases hfy : y ∈ freeOf sym (indicesOf shape)
  · rw [if_pos hfy] at hy
    cases hy
    rw [hcount, Nat.zero_add]
    exact List.idxOf_lt_length_of_mem hfy
  · rw [if_neg hfy] at hy; simp [Dict.get?] at hy

/-- The loop of the pullback assigns the same numbers when components are mapped to
earlier ones. -/
theorem pullbackLoop_spec {sym : Symmetry} {number : Dict (List Nat) Nat} :
    ∀ (rest pre : List (List Nat)) (d : Dict (List Nat) Nat), (pre ++ rest).Nodup →
    (∀ i ∈ pre ++ rest, sym.get? i = none →
      number.get? i = some ((freeOf sym (pre ++ rest)).idxOf i)) →
    (∀ i j, i ∈ pre ++ rest → sym.get? i = some j → number.get? i = number.get? j ∧
      (pre ++ rest).idxOf j < (pre ++ rest).idxOf i) →
    (∀ x, d.get? x = if x ∈ pre then number.get? x else none) →
    (∀ x ∈ pre, (number.get? x).isSome) →
    ∃ d', pullbackLoop sym rest (freeOf sym pre).length d =
        .ok (d', (freeOf sym (pre ++ rest)).length) ∧
      ∀ x, d'.get? x = if x ∈ pre ++ rest then number.get? x else none
  | [], pre, d, _, _, _, hd, _ => by
    refine ⟨d, by simp [pullbackLoop], by simpa using hd⟩
  | i :: rest, pre, d, hnd, hfree, hkey, hd, hsome => by
    have hassoc : pre ++ i :: rest = (pre ++ [i]) ++ rest := by simp
    have hip : i ∉ pre := by
      have h := List.nodup_append.1 hnd
      intro hm
      exact h.2.2 i hm i List.mem_cons_self rfl
    have key : ∀ n, number.get? i = some n → ∀ x, (d.set i n).get? x =
        if x ∈ pre ++ [i] then number.get? x else none := by
      intro n hn x
      rw [Dict.get?_set]
      by_cases hx : x = i
      · subst hx; simp [hn]
      · rw [if_neg (fun h => hx h.symm), hd]
        simp [hx]
    have hsome' : (number.get? i).isSome → ∀ x ∈ pre ++ [i], (number.get? x).isSome := by
      intro h x hx
      rcases List.mem_append.1 hx with hx | hx
      · exact hsome x hx
      · simp only [List.mem_singleton] at hx; rw [hx]; exact h
    rw [pullbackLoop]
    cases hs : sym.get? i with
    | none =>
      have hn : number.get? i = some (freeOf sym pre).length := by
        rw [hfree i (by simp) hs]
        congr 1
        have e : freeOf sym (pre ++ i :: rest) = freeOf sym pre ++ i :: freeOf sym rest := by
          have := freeOf_cons_free (is := rest) hs
          unfold freeOf at this ⊢
          rw [List.filter_append, this]
        rw [e, List.idxOf_append, if_neg (fun hm => hip (mem_freeOf.1 hm).1)]
        simp
      have hl : (freeOf sym pre).length + 1 = (freeOf sym (pre ++ [i])).length := by
        unfold freeOf
        rw [List.filter_append]
        simp [hs]
      obtain ⟨d', h1, h2⟩ := pullbackLoop_spec rest (pre ++ [i])
        (d.set i (freeOf sym pre).length) (hassoc ▸ hnd) (hassoc ▸ hfree) (hassoc ▸ hkey)
        (key _ hn) (hsome' (by rw [hn]; rfl))
      rw [hassoc]
      exact ⟨d', by simp only [hl, h1], h2⟩
    | some j =>
      obtain ⟨hij, hlt⟩ := hkey i j (by simp) hs
      have hjp : j ∈ pre := by
        by_contra hj
        rw [List.idxOf_append, List.idxOf_append, if_neg hj, if_neg hip] at hlt
        simp at hlt
      obtain ⟨n, hn⟩ := Option.isSome_iff_exists.1 (hsome j hjp)
      have hdj : d.get? j = some n := by rw [hd, if_pos hjp, hn]
      have hl : (freeOf sym pre).length = (freeOf sym (pre ++ [i])).length := by
        unfold freeOf
        rw [List.filter_append]
        simp [hs]
      obtain ⟨d', h1, h2⟩ := pullbackLoop_spec rest (pre ++ [i])
        (d.set i n) (hassoc ▸ hnd) (hassoc ▸ hfree) (hassoc ▸ hkey)
        (key n (by rw [hij, hn])) (hsome' (by rw [hij, hn]; rfl))
      rw [hassoc]
      exact ⟨d', by simp only [hdj, hl, h1], h2⟩

theorem rowMajor_inj {sh c c' : List Nat} (h : Within c sh) (h' : Within c' sh)
    (he : rowMajor sh c = rowMajor sh c') : c = c' := by
  rw [← unflatten_rowMajor h, ← unflatten_rowMajor h', he]

theorem indicesOf_idxOf {sh c : List Nat} (h : Within c sh) :
    (indicesOf sh).idxOf c = rowMajor sh c := by
  have hlt := rowMajor_lt h
  have hg := indicesOf_get sh _ hlt
  rw [unflatten_rowMajor h] at hg
  obtain ⟨hl, he⟩ := List.getElem?_eq_some_iff.1 hg
  have := (indicesOf_nodup sh).idxOf_getElem (rowMajor sh c) hl
  rw [he] at this
  exact this

end FInAT.Ufl
