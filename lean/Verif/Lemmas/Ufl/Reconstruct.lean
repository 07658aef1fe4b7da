import Verif.Model.Ufl.Elem
import Verif.Props.UflList
import Mathlib.Tactic.Tauto

/-!
# Lemmas on `reconstruct`
-/

namespace FInAT.Ufl

open UElem

/-- An element that is returned by its own `reconstruct()`. -/
def Fixed (e : UElem) : Prop := reconstruct e = .ok e

/-- The elements an element is made of. -/
def children : UElem → List UElem
  | .fe .. => []
  | .mixed _ subs => subs
  | .vector _ e _ _ => [e]
  | .tensor _ e _ _ _ _ _ _ => [e]
  | .product _ subs => subs
  | .enriched _ _ subs => subs
  | .hdiv _ e => [e]
  | .hcurl _ e => [e]
  | .withMapping e _ => [e]
  | .restricted _ e _ => [e]
  | .broken _ e => [e]

/-- Every element of the tree is returned by its own `reconstruct()`. -/
inductive Good : UElem → Prop
  | intro {e : UElem} (fixed : Fixed e) (sub : ∀ s ∈ children e, Good s) : Good e

theorem Good.fixed {e : UElem} (h : Good e) : Fixed e := by
  cases h; assumption

theorem Good.sub {e : UElem} (h : Good e) : ∀ s ∈ children e, Good s := by
  cases h; assumption

theorem reconstructs_fixed : ∀ {subs : List UElem}, (∀ s ∈ subs, Fixed s) →
    reconstructs subs = .ok subs
  | [], _ => by rw [reconstructs]
  | e :: es, h => by
    rw [reconstructs, h e List.mem_cons_self,
      reconstructs_fixed (fun s hs => h s (List.mem_cons_of_mem _ hs))]
    rfl

theorem bind_ok {α β : Type} {x : Except Err α} {f : α → Except Err β} {b : β}
    (h : x >>= f = .ok b) : ∃ a, x = .ok a ∧ f a = .ok b := by
  cases x with
  | error e => cases h
  | ok a => exact ⟨a, rfl, h⟩

theorem mkFe_ok {f : String} {c : Option UCell} {o : Order} {k : Option Int}
    {q v : Option String} {e : UElem} (h : mkFe f c o k q v = .ok e) :
    ∃ d, canonicalElementDescription f c o k = .ok d ∧
      e = .fe ⟨d.family, c, d.order.toDeg, q, d.shape⟩ d.order d.sobolev d.mapping v
        d.embedded := by
  obtain ⟨d, hd, h⟩ := bind_ok h
  cases h
  exact ⟨d, hd, rfl⟩

/-- Describing the canonical data again builds the same element. -/
theorem mkFe_again {f : String} {c : Option UCell} {o : Order} {k : Option Int}
    {q v : Option String} {d : Desc} (hd : canonicalElementDescription f c o k = .ok d) :
    mkFe d.family c d.order none q v =
      .ok (.fe ⟨d.family, c, d.order.toDeg, q, d.shape⟩ d.order d.sobolev d.mapping v
        d.embedded) := by
  obtain ⟨d', hd', h1, h2, h3, h4, h5, h6⟩ := Props.C49_idempotent hd none (.inl rfl)
  unfold mkFe
  rw [hd']
  simp only [bind, Except.bind, h1, h2, h3, h4, h5, h6]

theorem mkFe_named_fixed {f : String} {n : CellName} {o : Order} {k : Option Int}
    {q v : Option String} {e : UElem} (h : mkFe f (some (.named n)) o k q v = .ok e) :
    Fixed e := by
  obtain ⟨d, hd, rfl⟩ := mkFe_ok h
  unfold Fixed
  rw [reconstruct, newFe, newFeOn]
  exact mkFe_again hd

theorem mkProduct_ok {subs : List UElem} {c : Option UCell} {e : UElem}
    (h : mkProduct subs c = .ok e) :
    ∃ c' ss, e = .product ⟨"TensorProductElement", some c', .tuple (subs.map UElem.degree),
      none, ss.flatten⟩ subs ∧ mkProduct subs (some c') = .ok e ∧ subs ≠ [] ∧
      shapes subs = .ok ss ∧ ss.flatten.length ≤ 1 ∧
      (∀ c0, c = some c0 → c' = c0) ∧ (c = none → ∃ cs, cellsOf subs = .ok cs ∧ c' = .tensor cs) := by
  unfold mkProduct at h ⊢
  by_cases he : subs.isEmpty = true
  · rw [if_pos he] at h; cases h
  · rw [if_neg he] at h
    obtain ⟨c', hc', h⟩ := bind_ok h
    obtain ⟨ss, hss, h⟩ := bind_ok h
    by_cases hl : ss.flatten.length > 1
    · simp only [if_pos hl] at h; cases h
    · simp only [if_neg hl] at h
      cases h
      refine ⟨c', ss, rfl, ?_, by simpa using he, hss, by omega, ?_, ?_⟩
      · rw [if_neg he, hss]
        simp only [bind, Except.bind, if_neg hl]
      · rintro c0 rfl; cases hc'; rfl
      · rintro rfl
        obtain ⟨cs, hcs, h⟩ := bind_ok hc'
        cases h
        exact ⟨cs, hcs, rfl⟩

theorem mkProduct_fixed {subs : List UElem} {c : Option UCell} {e : UElem}
    (hs : ∀ s ∈ subs, Fixed s) (h : mkProduct subs c = .ok e) : Fixed e := by
  obtain ⟨c', ss, he, h', -⟩ := mkProduct_ok h
  unfold Fixed
  rw [he, reconstruct, reconstructs_fixed hs]
  rw [he] at h'
  exact h'

theorem mkEnriched_ok {n : Bool} {subs : List UElem} {e : UElem}
    (h : mkEnriched n subs = .ok e) :
    ∃ e0 es b, subs = e0 :: es ∧ e = .enriched b n subs ∧ (∀ x ∈ es, x.cell = e0.cell) ∧
      b.cell = e0.cell ∧ enrichedDegree (subs.map UElem.degree) = .ok b.degree ∧
      e0.shape = .ok b.shape ∧ shapes es = .ok (es.map fun _ => b.shape) := by
  cases subs with
  | nil => cases h
  | cons e0 es =>
    unfold mkEnriched at h
    simp only at h
    by_cases hc : es.all (fun x => x.cell == e0.cell) = true
    · rw [if_neg (by simp [hc])] at h
      obtain ⟨d, hd, h⟩ := bind_ok h
      split at h
      · cases h
      · obtain ⟨s, hs, h⟩ := bind_ok h
        obtain ⟨ss, hss, h⟩ := bind_ok h
        by_cases hq : ss.all (· == s) = true
        · simp only [hq] at h
          cases h
          refine ⟨e0, es, _, rfl, rfl, ?_, rfl, hd, hs, ?_⟩
          · simpa using hc
          · have hlen : ∀ {es : List UElem} {ss : List (List Nat)}, shapes es = .ok ss →
                ss.length = es.length := by
              intro es
              induction es with
              | nil => intro ss h; rw [shapes] at h; cases h; rfl
              | cons x xs ih =>
                intro ss h
                rw [shapes] at h
                obtain ⟨a, -, h⟩ := bind_ok h
                obtain ⟨b, hb, h⟩ := bind_ok h
                cases h
                simp [ih hb]
            have h1 : ss = es.map fun _ => s := by
              have h2 : ∀ x ∈ ss, x = s := by simpa using hq
              rw [List.eq_replicate_of_mem h2, hlen hss, List.map_const']
            rw [hss, h1]
        · simp [hq] at h
    · rw [if_pos (by simpa using hc)] at h; cases h

theorem mkEnriched_fixed {n : Bool} {subs : List UElem} {e : UElem}
    (hs : ∀ s ∈ subs, Fixed s) (h : mkEnriched n subs = .ok e) : Fixed e := by
  obtain ⟨e0, es, b, -, he, -⟩ := mkEnriched_ok h
  unfold Fixed
  rw [he, reconstruct, reconstructs_fixed hs]
  rw [he] at h
  exact h

theorem mkMixed_ok {subs : List UElem} {e : UElem} (h : mkMixed subs = .ok e) :
    ∃ b, mixedBase subs none = .ok b ∧ e = .mixed b subs := by
  obtain ⟨b, hb, h⟩ := bind_ok h
  cases h
  exact ⟨b, hb, rfl⟩

theorem mkMixed_fixed {subs : List UElem} {e : UElem}
    (hs : ∀ s ∈ subs, Fixed s) (h : mkMixed subs = .ok e) : Fixed e := by
  obtain ⟨b, -, he⟩ := mkMixed_ok h
  unfold Fixed
  rw [he, reconstruct, reconstructs_fixed hs]
  rw [he] at h
  exact h

theorem mkVectorOf_ok {s : UElem} {dim : Option Nat} {v : Option String} {e : UElem}
    (h : mkVectorOf s dim v = .ok e) :
    ∃ n sh, e = .vector ⟨s.family, s.cell, s.degree, s.quadScheme, n :: sh⟩ s n v ∧
      mkVectorOf s (some n) v = .ok e ∧ s.shape = .ok sh ∧ (∀ d, dim = some d → n = d) := by
  unfold mkVectorOf at h ⊢
  obtain ⟨n, hn, h⟩ := bind_ok h
  obtain ⟨sh, hsh, h⟩ := bind_ok h
  obtain ⟨b, hb, h⟩ := bind_ok h
  cases h
  refine ⟨n, sh, rfl, ?_, hsh, ?_⟩
  · simp only [hsh, hb, bind, Except.bind]
  · rintro d rfl
    simp only at hn
    cases hn
    rfl

theorem mkVectorOf_fixed {s : UElem} {dim : Option Nat} {e : UElem}
    (hs : Fixed s) (h : mkVectorOf s dim s.variant = .ok e) : Fixed e := by
  obtain ⟨n, sh, he, h', -⟩ := mkVectorOf_ok h
  unfold Fixed
  rw [he, reconstruct, hs]
  rw [he] at h'
  exact h'

theorem full_ok : ∀ {shape : List Nat} {d : Symmetry},
    (match shape with
      | [m, n] => if m = n then .ok (fullSymmetry m) else .error .valueError
      | _ => .error .valueError : Except Err Symmetry) = .ok d →
    ∃ n, shape = [n, n] ∧ d = fullSymmetry n
  | [], _, h => by cases h
  | [_], _, h => by cases h
  | [m, n], d, h => by
    simp only at h
    by_cases e : m = n
    · subst e
      rw [if_pos rfl] at h
      cases h
      exact ⟨m, rfl, rfl⟩
    · rw [if_neg e] at h; cases h
  | _ :: _ :: _ :: _, _, h => by cases h

theorem mkTensorOf_ok {s : UElem} {shape : Option (List Nat)} {sym : SymArg}
    {v : Option String} {e : UElem} (h : mkTensorOf s shape sym v = .ok e) :
    ∃ b shape' d number count m, e = .tensor b s shape' d number count m v ∧
      mkTensorOf s (some shape') (.dict d) v = .ok e ∧
      checkSymmetry shape' d = .ok () ∧
      count = (numberFree d (indicesOf shape') 0 []).2 ∧
      numberSym d (indicesOf shape') (numberFree d (indicesOf shape') 0 []).1 = .ok number ∧
      (∃ l, (indicesOf shape').mapM number.get = .ok l) ∧
      (∃ sh, s.shape = .ok sh ∧
        b.shape = (if d.isEmpty then shape' else [prodNat shape' - d.length]) ++ sh) ∧
      (∀ sh, shape = some sh → shape' = sh) ∧
      (∀ d', sym = .dict d' → d = d') ∧ (sym = .none → d = []) ∧
      (sym = .full → ∃ n, shape' = [n, n] ∧ d = fullSymmetry n) ∧
      (∃ b', mixedBase (List.replicate count s) (some b.shape) = .ok b' ∧
        b.cell = b'.cell) ∧ b.degree = s.degree := by
  unfold mkTensorOf at h ⊢
  obtain ⟨shape', hshape, h⟩ := bind_ok h
  obtain ⟨d, hd, h⟩ := bind_ok h
  obtain ⟨u, hu, h⟩ := bind_ok h
  simp only at h
  obtain ⟨number, hn, h⟩ := bind_ok h
  obtain ⟨l, hl, h⟩ := bind_ok h
  obtain ⟨sh, hsh, h⟩ := bind_ok h
  obtain ⟨b, hb, h⟩ := bind_ok h
  cases h
  refine ⟨_, shape', d, number, _, _, rfl, ?_, hu, rfl, hn, ⟨l, hl⟩, ⟨sh, hsh, rfl⟩,
    ?_, ?_, ?_, ?_, ⟨b, hb, rfl⟩, rfl⟩
  · simp only [hu, hn, hl, hsh, hb, bind, Except.bind]
  · rintro sh' rfl; cases hshape; rfl
  · rintro d' rfl; cases hd; rfl
  · rintro rfl; cases hd; rfl
  · rintro rfl
    exact full_ok hd

theorem mkTensorOf_fixed {s : UElem} {shape : Option (List Nat)} {sym : SymArg} {e : UElem}
    (hs : Fixed s) (h : mkTensorOf s shape sym s.variant = .ok e) : Fixed e := by
  obtain ⟨b, shape', d, number, count, m, he, h', -⟩ := mkTensorOf_ok h
  unfold Fixed
  rw [he, reconstruct, hs]
  rw [he] at h'
  exact h'

theorem mkHDiv_ok {s e : UElem} (h : mkHDiv s = .ok e) :
    ∃ b, wrapBase s = .ok b ∧ e = .hdiv b s := by
  obtain ⟨b, hb, h⟩ := bind_ok h
  cases h
  exact ⟨b, hb, rfl⟩

theorem mkHDiv_fixed {s e : UElem} (hs : Fixed s) (h : mkHDiv s = .ok e) : Fixed e := by
  obtain ⟨b, -, he⟩ := mkHDiv_ok h
  unfold Fixed
  rw [he, reconstruct, hs]
  rw [he] at h
  exact h

theorem mkHCurl_ok {s e : UElem} (h : mkHCurl s = .ok e) :
    ∃ b, wrapBase s = .ok b ∧ e = .hcurl b s := by
  obtain ⟨b, hb, h⟩ := bind_ok h
  cases h
  exact ⟨b, hb, rfl⟩

theorem mkHCurl_fixed {s e : UElem} (hs : Fixed s) (h : mkHCurl s = .ok e) : Fixed e := by
  obtain ⟨b, -, he⟩ := mkHCurl_ok h
  unfold Fixed
  rw [he, reconstruct, hs]
  rw [he] at h
  exact h

theorem mkWithMapping_ok {s e : UElem} {m : String} (h : mkWithMapping s m = .ok e) :
    m ≠ "symmetries" ∧ e = .withMapping s m := by
  unfold mkWithMapping at h
  split at h
  · cases h
  · next hm => cases h; exact ⟨hm, rfl⟩

theorem mkWithMapping_fixed {s e : UElem} {m : String} (hs : Fixed s)
    (h : mkWithMapping s m = .ok e) : Fixed e := by
  obtain ⟨-, he⟩ := mkWithMapping_ok h
  unfold Fixed
  rw [he, reconstruct, hs]
  rw [he] at h
  exact h

theorem mkRestricted_ok {s e : UElem} {d : String} (h : mkRestricted s d = .ok e) :
    d ∈ restrictionDomains ∧ ∃ sh, s.shape = .ok sh ∧
      e = .restricted ⟨"RestrictedElement", s.cell, s.degree, s.quadScheme, sh⟩ s d := by
  unfold mkRestricted at h
  by_cases hd : restrictionDomains.contains d = true
  · simp only [hd, Bool.not_true, Bool.false_eq_true, if_false] at h
    obtain ⟨sh, hsh, h⟩ := bind_ok h
    cases h
    exact ⟨by simpa using hd, sh, hsh, rfl⟩
  · simp only [Bool.not_eq_true] at hd
    simp only [hd, Bool.not_false, if_true] at h
    cases h

theorem mkRestricted_fixed {s e : UElem} {d : String} (hs : Fixed s)
    (h : mkRestricted s d = .ok e) : Fixed e := by
  obtain ⟨-, sh, -, he⟩ := mkRestricted_ok h
  unfold Fixed
  rw [he, reconstruct, hs]
  rw [he] at h
  exact h

theorem mkBroken_ok {s e : UElem} (h : mkBroken s = .ok e) :
    ∃ sh, s.shape = .ok sh ∧
      e = .broken ⟨"BrokenElement", s.cell, s.degree, s.quadScheme, sh⟩ s := by
  obtain ⟨sh, hsh, h⟩ := bind_ok h
  cases h
  exact ⟨sh, hsh, rfl⟩

theorem mkBroken_fixed {s e : UElem} (hs : Fixed s) (h : mkBroken s = .ok e) : Fixed e := by
  obtain ⟨sh, -, he⟩ := mkBroken_ok h
  unfold Fixed
  rw [he, reconstruct, hs]
  rw [he] at h
  exact h

/-! ## Every element of the tree -/

theorem mkMixed_good {subs : List UElem} {e : UElem}
    (hs : ∀ s ∈ subs, Good s) (h : mkMixed subs = .ok e) : Good e := by
  refine ⟨mkMixed_fixed (fun s m => (hs s m).fixed) h, ?_⟩
  obtain ⟨b, -, he⟩ := mkMixed_ok h
  rw [he]; exact hs

theorem mkProduct_good {subs : List UElem} {c : Option UCell} {e : UElem}
    (hs : ∀ s ∈ subs, Good s) (h : mkProduct subs c = .ok e) : Good e := by
  refine ⟨mkProduct_fixed (fun s m => (hs s m).fixed) h, ?_⟩
  obtain ⟨c', ss, he, -⟩ := mkProduct_ok h
  rw [he]; exact hs

theorem mkEnriched_good {n : Bool} {subs : List UElem} {e : UElem}
    (hs : ∀ s ∈ subs, Good s) (h : mkEnriched n subs = .ok e) : Good e := by
  refine ⟨mkEnriched_fixed (fun s m => (hs s m).fixed) h, ?_⟩
  obtain ⟨e0, es, b, -, he, -⟩ := mkEnriched_ok h
  rw [he]; exact hs

theorem good_single {e : UElem} (h : Good e) : ∀ s ∈ [e], Good s := by
  intro s hs
  rw [List.mem_singleton.1 hs]
  exact h

theorem mkVectorOf_good {s : UElem} {dim : Option Nat} {e : UElem}
    (hs : Good s) (h : mkVectorOf s dim s.variant = .ok e) : Good e := by
  refine ⟨mkVectorOf_fixed hs.fixed h, ?_⟩
  obtain ⟨n, sh, he, -⟩ := mkVectorOf_ok h
  rw [he]; exact good_single hs

theorem mkTensorOf_good {s : UElem} {shape : Option (List Nat)} {sym : SymArg} {e : UElem}
    (hs : Good s) (h : mkTensorOf s shape sym s.variant = .ok e) : Good e := by
  refine ⟨mkTensorOf_fixed hs.fixed h, ?_⟩
  obtain ⟨b, shape', d, number, count, m, he, -⟩ := mkTensorOf_ok h
  rw [he]; exact good_single hs

theorem mkHDiv_good {s e : UElem} (hs : Good s) (h : mkHDiv s = .ok e) : Good e := by
  refine ⟨mkHDiv_fixed hs.fixed h, ?_⟩
  obtain ⟨b, -, he⟩ := mkHDiv_ok h
  rw [he]; exact good_single hs

theorem mkHCurl_good {s e : UElem} (hs : Good s) (h : mkHCurl s = .ok e) : Good e := by
  refine ⟨mkHCurl_fixed hs.fixed h, ?_⟩
  obtain ⟨b, -, he⟩ := mkHCurl_ok h
  rw [he]; exact good_single hs

theorem mkWithMapping_good {s e : UElem} {m : String} (hs : Good s)
    (h : mkWithMapping s m = .ok e) : Good e := by
  refine ⟨mkWithMapping_fixed hs.fixed h, ?_⟩
  obtain ⟨-, he⟩ := mkWithMapping_ok h
  rw [he]; exact good_single hs

theorem mkRestricted_good {s e : UElem} {d : String} (hs : Good s)
    (h : mkRestricted s d = .ok e) : Good e := by
  refine ⟨mkRestricted_fixed hs.fixed h, ?_⟩
  obtain ⟨-, sh, -, he⟩ := mkRestricted_ok h
  rw [he]; exact good_single hs

theorem mkBroken_good {s e : UElem} (hs : Good s) (h : mkBroken s = .ok e) : Good e := by
  refine ⟨mkBroken_fixed hs.fixed h, ?_⟩
  obtain ⟨sh, -, he⟩ := mkBroken_ok h
  rw [he]; exact good_single hs

theorem fe_good {b : Base} {o : Order} {so : Sobolev} {m : String} {v : Option String}
    {em : Order} (h : Fixed (.fe b o so m v em)) : Good (.fe b o so m v em) :=
  ⟨h, by intro s hs; cases hs⟩

/-! ## Finite elements on product cells -/

/-- What holds of every element built from a family name: it is returned by its own
`reconstruct()` and carries the variant it was given. -/
def Plain (v : Option String) (e : UElem) : Prop := Good e ∧ e.variant = v

theorem mkFe_named_plain {f : String} {n : CellName} {o : Order} {k : Option Int}
    {q v : Option String} {e : UElem} (h : mkFe f (some (.named n)) o k q v = .ok e) :
    Plain v e := by
  have hf := mkFe_named_fixed h
  obtain ⟨d, -, rfl⟩ := mkFe_ok h
  exact ⟨fe_good hf, by rw [variant]⟩

theorem variants_eq {v : Option String} : ∀ {subs : List UElem},
    (∀ s ∈ subs, s.variant = v) → variants subs = subs.map fun _ => v
  | [], _ => by rw [variants]; rfl
  | e :: es, h => by
    rw [variants, h e List.mem_cons_self,
      variants_eq (fun s hs => h s (List.mem_cons_of_mem _ hs))]
    rfl

theorem commonVariant_const {v : Option String} {subs : List UElem} (hne : subs ≠ []) :
    commonVariant (subs.map fun _ => v) = v := by
  cases subs with
  | nil => exact absurd rfl hne
  | cons e es => simp [commonVariant]

theorem mkProduct_plain {v : Option String} {subs : List UElem} {c : Option UCell} {e : UElem}
    (hs : ∀ s ∈ subs, Plain v s) (h : mkProduct subs c = .ok e) : Plain v e := by
  refine ⟨mkProduct_good (fun s m => (hs s m).1) h, ?_⟩
  obtain ⟨c', ss, he, -, hne, -⟩ := mkProduct_ok h
  rw [he, variant, variants_eq (fun s m => (hs s m).2), commonVariant_const hne]

theorem mkEnriched_plain {v : Option String} {n : Bool} {subs : List UElem} {e : UElem}
    (hs : ∀ s ∈ subs, Plain v s) (h : mkEnriched n subs = .ok e) : Plain v e := by
  refine ⟨mkEnriched_good (fun s m => (hs s m).1) h, ?_⟩
  obtain ⟨e0, es, b, hsub, he, -⟩ := mkEnriched_ok h
  rw [he, variant, variants_eq (fun s m => (hs s m).2), commonVariant_const (by simp [hsub])]

theorem mkHDiv_plain {v : Option String} {s e : UElem} (hs : Plain v s)
    (h : mkHDiv s = .ok e) : Plain v e := by
  refine ⟨mkHDiv_good hs.1 h, ?_⟩
  obtain ⟨b, -, he⟩ := mkHDiv_ok h
  rw [he, variant, hs.2]

theorem mkHCurl_plain {v : Option String} {s e : UElem} (hs : Plain v s)
    (h : mkHCurl s = .ok e) : Plain v e := by
  refine ⟨mkHCurl_good hs.1 h, ?_⟩
  obtain ⟨b, -, he⟩ := mkHCurl_ok h
  rw [he, variant, hs.2]

theorem plain_pair {v : Option String} {a b : UElem} (ha : Plain v a) (hb : Plain v b) :
    ∀ s ∈ [a, b], Plain v s := by
  intro s hs
  simp only [List.mem_cons, List.not_mem_nil, or_false] at hs
  rcases hs with rfl | rfl
  · exact ha
  · exact hb

theorem expandRT_plain {wrap : UElem → Except Err UElem}
    (hw : ∀ {v s e}, Plain v s → wrap s = .ok e → Plain v e)
    {cs : List UCell} {o : Order} {v : Option String} {e : UElem}
    (h : expandRT wrap cs o v = .ok e) : Plain v e := by
  unfold expandRT at h
  obtain ⟨_, -, h⟩ := bind_ok h
  obtain ⟨c, hc, h⟩ := bind_ok h
  obtain ⟨low, -, h⟩ := bind_ok h
  obtain ⟨d, hd, h⟩ := bind_ok h
  obtain ⟨cd, hcd, h⟩ := bind_ok h
  obtain ⟨dc, hdc, h⟩ := bind_ok h
  obtain ⟨w1, hw1, h⟩ := bind_ok h
  obtain ⟨w2, hw2, h⟩ := bind_ok h
  have pc := mkFe_named_plain hc
  have pd := mkFe_named_plain hd
  have p1 := hw (mkProduct_plain (plain_pair pc pd) hcd) hw1
  have p2 := hw (mkProduct_plain (plain_pair pd pc) hdc) hw2
  exact mkEnriched_plain (plain_pair p1 p2) h

theorem expandNC_plain {wrap : UElem → Except Err UElem}
    (hw : ∀ {v s e}, Plain v s → wrap s = .ok e → Plain v e)
    {f1 f2 : String} {l1 l2 : Bool}
    {cs : List UCell} {o : Order} {v : Option String} {e : UElem}
    (h : expandNC wrap f1 f2 l1 l2 cs o v = .ok e) : Plain v e := by
  unfold expandNC at h
  obtain ⟨_, -, h⟩ := bind_ok h
  obtain ⟨low, -, h⟩ := bind_ok h
  obtain ⟨q1, hq1, h⟩ := bind_ok h
  obtain ⟨q2, hq2, h⟩ := bind_ok h
  obtain ⟨d, hd, h⟩ := bind_ok h
  obtain ⟨c, hc, h⟩ := bind_ok h
  obtain ⟨p1, hp1, h⟩ := bind_ok h
  obtain ⟨p2, hp2, h⟩ := bind_ok h
  obtain ⟨w1, hw1, h⟩ := bind_ok h
  obtain ⟨w2, hw2, h⟩ := bind_ok h
  have pq1 := mkFe_named_plain hq1
  have pq2 := mkFe_named_plain hq2
  have pc := mkFe_named_plain hc
  have pd := mkFe_named_plain hd
  have r1 := hw (mkProduct_plain (plain_pair pq1 pd) hp1) hw1
  have r2 := hw (mkProduct_plain (plain_pair pq2 pc) hp2) hw2
  exact mkEnriched_plain (plain_pair r1 r2) h

/-- The families that are expanded on product cells. -/
def expanded : List String := ["RTCF", "RTCE", "NCF", "NCE", "Q", "DQ", "DQ L2"]

/-- A family that is not expanded is described as it is. -/
theorem newFeOn_other {f : String} {o : Order} {k : Option Int} {q v : Option String}
    {cs : List UCell} {d : Desc}
    (hd : canonicalElementDescription f (some (.tensor cs)) o k = .ok d)
    (hf : d.family ∉ expanded) :
    newFeOn f o k q v (.tensor cs) = mkFe f (some (.tensor cs)) o k q v := by
  simp only [expanded, List.mem_cons, List.not_mem_nil, or_false, not_or] at hf
  obtain ⟨h1, h2, h3, h4, h5, h6, h7⟩ := hf
  rw [newFeOn, hd]
  simp only [h1, h2, h3, h4, h5, h6, h7, if_false]

mutual
theorem newFeOn_plain {f : String} {o : Order} {k : Option Int} {q v : Option String} :
    ∀ {c : UCell} {e : UElem}, newFeOn f o k q v c = .ok e → Plain v e
  | .named n, e, h => by
    rw [newFeOn] at h
    exact mkFe_named_plain h
  | .tensor cs, e, h => by
    cases hd : canonicalElementDescription f (some (.tensor cs)) o k with
    | error x => rw [newFeOn, hd] at h; cases h
    | ok d =>
      by_cases hf : d.family ∈ expanded
      · rw [newFeOn, hd] at h
        simp only at h
        split at h
        · exact expandRT_plain mkHDiv_plain h
        · split at h
          · exact expandRT_plain mkHCurl_plain h
          · split at h
            · exact expandNC_plain mkHDiv_plain h
            · split at h
              · exact expandNC_plain mkHCurl_plain h
              · split at h
                · split at h
                  · cases h
                  · next subs hs => exact mkProduct_plain (newFes_plain hs) h
                · split at h
                  · split at h
                    · cases h
                    · next subs hs => exact mkProduct_plain (newFes_plain hs) h
                  · split at h
                    · split at h
                      · cases h
                      · next subs hs => exact mkProduct_plain (newFes_plain hs) h
                    · exfalso
                      simp [expanded] at hf
                      tauto
      · rw [newFeOn_other hd hf] at h
        obtain ⟨d', hd', rfl⟩ := mkFe_ok h
        rw [hd] at hd'
        cases hd'
        refine ⟨fe_good ?_, by rw [variant]⟩
        unfold Fixed
        rw [reconstruct, newFe]
        obtain ⟨d2, hd2, hsame⟩ := Props.C49_idempotent hd none (.inl rfl)
        show newFeOn d.family d.order none q v (.tensor cs) = _
        rw [newFeOn_other hd2 (by rw [hsame.1]; exact hf)]
        exact mkFe_again hd
theorem newFes_plain {s t : String} {o : Order} {v : Option String} :
    ∀ {cs : List UCell} {es : List UElem}, newFes s t o v cs = .ok es → ∀ e ∈ es, Plain v e
  | [], es, h => by
    rw [newFes] at h; cases h; simp
  | c :: cs, es, h => by
    rw [newFes] at h
    split at h
    · cases h
    · next e he =>
      split at h
      · cases h
      · next es' hes =>
        cases h
        intro x hx
        rcases List.mem_cons.1 hx with rfl | hx
        · exact newFeOn_plain he
        · exact newFes_plain hes x hx
end

theorem newFe_plain {f : String} {o : Order} {k : Option Int} {q v : Option String}
    {c : Option UCell} {e : UElem} (h : newFe f o k q v c = .ok e) : Plain v e := by
  cases c with
  | none =>
    rw [newFe] at h
    obtain ⟨d, hd, rfl⟩ := mkFe_ok h
    refine ⟨fe_good ?_, by rw [variant]⟩
    unfold Fixed
    rw [reconstruct, newFe]
    exact mkFe_again hd
  | some c =>
    rw [newFe] at h
    exact newFeOn_plain h

/-- Every tree that the constructors can build is good. -/
theorem Built.good {e : UElem} (h : Built e) : Good e := by
  induction h with
  | fe h => exact (newFe_plain h).1
  | mixed _ h ih => exact mkMixed_good ih h
  | vector _ h ih => exact mkVectorOf_good ih h
  | newVector h =>
    obtain ⟨s, hs, h⟩ := bind_ok h
    obtain ⟨_, _, h⟩ := bind_ok h
    have hp := newFe_plain hs
    exact mkVectorOf_good hp.1 (by rw [hp.2]; exact h)
  | tensor _ h ih => exact mkTensorOf_good ih h
  | newTensor h =>
    obtain ⟨s, hs, h⟩ := bind_ok h
    obtain ⟨_, _, h⟩ := bind_ok h
    have hp := newFe_plain hs
    exact mkTensorOf_good hp.1 (by rw [hp.2]; exact h)
  | product _ h ih => exact mkProduct_good ih h
  | enriched _ h ih => exact mkEnriched_good ih h
  | hdiv _ h ih => exact mkHDiv_good ih h
  | hcurl _ h ih => exact mkHCurl_good ih h
  | withMapping _ h ih => exact mkWithMapping_good ih h
  | restricted _ h ih => exact mkRestricted_good ih h
  | broken _ h ih => exact mkBroken_good ih h

end FInAT.Ufl
