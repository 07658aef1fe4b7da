import Verif.Lemmas.Ufl.Reconstruct
import Verif.Spec.UflTree

/-!
# Lemmas on degrees and embedded degrees
-/

namespace FInAT.Ufl

open UElem

mutual
theorem Deg.eq_of_beq : ∀ {a b : Deg}, a.beq b = true → a = b
  | .none, .none, _ => rfl
  | .int a, .int b, h => by simp only [Deg.beq, beq_iff_eq] at h; rw [h]
  | .tuple as, .tuple bs, h => by
    simp only [Deg.beq] at h; rw [Deg.eqs_of_beqs h]
  | .none, .int _, h => by simp [Deg.beq] at h
  | .none, .tuple _, h => by simp [Deg.beq] at h
  | .int _, .none, h => by simp [Deg.beq] at h
  | .int _, .tuple _, h => by simp [Deg.beq] at h
  | .tuple _, .none, h => by simp [Deg.beq] at h
  | .tuple _, .int _, h => by simp [Deg.beq] at h
theorem Deg.eqs_of_beqs : ∀ {as bs : List Deg}, Deg.beqs as bs = true → as = bs
  | [], [], _ => rfl
  | a :: as, b :: bs, h => by
    simp only [Deg.beqs, Bool.and_eq_true] at h
    rw [Deg.eq_of_beq h.1, Deg.eqs_of_beqs h.2]
  | [], _ :: _, h => by simp [Deg.beqs] at h
  | _ :: _, [], h => by simp [Deg.beqs] at h
end

mutual
theorem Deg.beq_refl : ∀ a : Deg, a.beq a = true
  | .none => rfl
  | .int a => by simp [Deg.beq]
  | .tuple as => by simp only [Deg.beq]; exact Deg.beqs_refl as
theorem Deg.beqs_refl : ∀ as : List Deg, Deg.beqs as as = true
  | [] => rfl
  | a :: as => by simp only [Deg.beqs, Deg.beq_refl a, Deg.beqs_refl as, Bool.and_self]
end

theorem Deg.beq_iff {a b : Deg} : a.beq b = true ↔ a = b :=
  ⟨Deg.eq_of_beq, fun h => h ▸ Deg.beq_refl a⟩

mutual
theorem Deg.lt_flip : ∀ {a b : Deg}, a.lt b = .ok false → b = a ∨ b.lt a = .ok true
  | .int a, .int b, h => by
    simp only [Deg.lt, Except.ok.injEq, decide_eq_false_iff_not] at h
    by_cases he : b = a
    · left; rw [he]
    · right; simp only [Deg.lt, Except.ok.injEq, decide_eq_true_eq]; omega
  | .tuple as, .tuple bs, h => by
    simp only [Deg.lt] at h
    rcases Deg.lts_flip h with h | h
    · left; rw [h]
    · right; simpa only [Deg.lt] using h
  | .none, _, h => by simp [Deg.lt] at h
  | .int _, .none, h => by simp [Deg.lt] at h
  | .int _, .tuple _, h => by simp [Deg.lt] at h
  | .tuple _, .none, h => by simp [Deg.lt] at h
  | .tuple _, .int _, h => by simp [Deg.lt] at h
theorem Deg.lts_flip : ∀ {as bs : List Deg}, Deg.lts as bs = .ok false →
    bs = as ∨ Deg.lts bs as = .ok true
  | [], [], _ => .inl rfl
  | [], _ :: _, h => by simp [Deg.lts] at h
  | _ :: _, [], _ => .inr rfl
  | a :: as, b :: bs, h => by
    rw [Deg.lts] at h
    by_cases hab : a.beq b = true
    · rw [if_pos hab] at h
      have e := Deg.eq_of_beq hab
      subst e
      rcases Deg.lts_flip h with h | h
      · left; rw [h]
      · right; rw [Deg.lts, if_pos (Deg.beq_refl a)]; exact h
    · rw [if_neg hab] at h
      rcases Deg.lt_flip h with h | h
      · exact absurd (Deg.beq_iff.2 h.symm) hab
      · right
        rw [Deg.lts, if_neg (fun hc => hab (Deg.beq_iff.2 (Deg.eq_of_beq hc).symm))]
        exact h
end

mutual
theorem Deg.lt_trans : ∀ {a b c : Deg}, a.lt b = .ok true → b.lt c = .ok true →
    a.lt c = .ok true
  | .int a, .int b, .int c, h, h' => by
    simp only [Deg.lt, Except.ok.injEq, decide_eq_true_eq] at h h' ⊢; omega
  | .tuple as, .tuple bs, .tuple cs, h, h' => by
    simp only [Deg.lt] at h h' ⊢; exact Deg.lts_trans h h'
  | .none, _, _, h, _ => by simp [Deg.lt] at h
  | .int _, .none, _, h, _ => by simp [Deg.lt] at h
  | .int _, .tuple _, _, h, _ => by simp [Deg.lt] at h
  | .tuple _, .none, _, h, _ => by simp [Deg.lt] at h
  | .tuple _, .int _, _, h, _ => by simp [Deg.lt] at h
  | .int _, .int _, .none, _, h => by simp [Deg.lt] at h
  | .int _, .int _, .tuple _, _, h => by simp [Deg.lt] at h
  | .tuple _, .tuple _, .none, _, h => by simp [Deg.lt] at h
  | .tuple _, .tuple _, .int _, _, h => by simp [Deg.lt] at h
theorem Deg.lts_trans : ∀ {as bs cs : List Deg}, Deg.lts as bs = .ok true →
    Deg.lts bs cs = .ok true → Deg.lts as cs = .ok true
  | [], [], _, h, _ => by simp [Deg.lts] at h
  | [], _ :: _, [], _, h => by simp [Deg.lts] at h
  | [], _ :: _, _ :: _, _, _ => rfl
  | _ :: _, [], _, h, _ => by simp [Deg.lts] at h
  | _ :: _, _ :: _, [], _, h => by simp [Deg.lts] at h
  | a :: as, b :: bs, c :: cs, h, h' => by
    rw [Deg.lts] at h h' ⊢
    by_cases hab : a.beq b = true
    · rw [if_pos hab] at h
      have e := Deg.eq_of_beq hab
      subst e
      by_cases hac : a.beq c = true
      · rw [if_pos hac] at h' ⊢
        exact Deg.lts_trans h h'
      · rw [if_neg hac] at h' ⊢
        exact h'
    · rw [if_neg hab] at h
      by_cases hbc : b.beq c = true
      · have e := Deg.eq_of_beq hbc
        subst e
        rw [if_neg hab]
        exact h
      · rw [if_neg hbc] at h'
        have := Deg.lt_trans h h'
        by_cases hac : a.beq c = true
        · have e := Deg.eq_of_beq hac
          subst e
          rcases Deg.lt_irrefl a with h0 | ⟨x, h0⟩
          · rw [h0] at this; cases this
          · rw [h0] at this; cases this
        · rw [if_neg hac]; exact this
theorem Deg.lt_irrefl : ∀ a : Deg, a.lt a = .ok false ∨ ∃ e, a.lt a = .error e
  | .none => .inr ⟨_, rfl⟩
  | .int a => .inl (by simp [Deg.lt])
  | .tuple as => by
    left
    simp only [Deg.lt]
    exact Deg.lts_irrefl as
theorem Deg.lts_irrefl : ∀ as : List Deg, Deg.lts as as = .ok false
  | [] => rfl
  | a :: as => by rw [Deg.lts, if_pos (Deg.beq_refl a)]; exact Deg.lts_irrefl as
end

theorem Deg.le_trans {a b c : Deg} (h : a.le b) (h' : b.le c) : a.le c := by
  rcases h with rfl | h
  · exact h'
  · rcases h' with rfl | h'
    · exact .inr h
    · exact .inr (Deg.lt_trans h h')

theorem Deg.le_int {a b : Int} : (Deg.int a).le (.int b) ↔ a ≤ b := by
  unfold Deg.le
  simp only [Deg.int.injEq, Deg.lt, Except.ok.injEq, decide_eq_true_eq]
  omega

theorem pyMinFrom_le : ∀ {xs : List Deg} {m r : Deg}, pyMinFrom m xs = .ok r →
    r.le m ∧ ∀ x ∈ xs, r.le x
  | [], m, r, h => by
    rw [pyMinFrom] at h; cases h; exact ⟨.inl rfl, by simp⟩
  | x :: xs, m, r, h => by
    rw [pyMinFrom] at h
    obtain ⟨b, hb, h⟩ := bind_ok h
    obtain ⟨h1, h2⟩ := pyMinFrom_le h
    cases b with
    | true =>
      rw [if_pos rfl] at h1
      refine ⟨Deg.le_trans h1 (.inr hb), fun y hy => ?_⟩
      rcases List.mem_cons.1 hy with rfl | hy
      · exact h1
      · exact h2 y hy
    | false =>
      rw [if_neg (by simp)] at h1
      refine ⟨h1, fun y hy => ?_⟩
      rcases List.mem_cons.1 hy with rfl | hy
      · exact Deg.le_trans h1 (Deg.lt_flip hb)
      · exact h2 y hy

theorem pyMin_le {xs : List Deg} {r : Deg} (h : pyMin xs = .ok r) : ∀ x ∈ xs, r.le x := by
  cases xs with
  | nil => simp [pyMin] at h
  | cons x xs =>
    obtain ⟨h1, h2⟩ := pyMinFrom_le h
    intro y hy
    rcases List.mem_cons.1 hy with rfl | hy
    · exact h1
    · exact h2 y hy

theorem le_pyMaxFrom : ∀ {xs : List Deg} {m r : Deg}, pyMaxFrom m xs = .ok r →
    m.le r ∧ (∀ x ∈ xs, x.le r) ∧ r ∈ m :: xs
  | [], m, r, h => by
    rw [pyMaxFrom] at h; cases h; exact ⟨.inl rfl, by simp, by simp⟩
  | x :: xs, m, r, h => by
    rw [pyMaxFrom] at h
    obtain ⟨b, hb, h⟩ := bind_ok h
    obtain ⟨h1, h2, h3⟩ := le_pyMaxFrom h
    cases b with
    | true =>
      rw [if_pos rfl] at h1 h3
      refine ⟨Deg.le_trans (.inr hb) h1, fun y hy => ?_, List.mem_cons_of_mem _ h3⟩
      rcases List.mem_cons.1 hy with rfl | hy
      · exact h1
      · exact h2 y hy
    | false =>
      rw [if_neg (by simp)] at h1 h3
      refine ⟨h1, fun y hy => ?_, ?_⟩
      · rcases List.mem_cons.1 hy with rfl | hy
        · exact Deg.le_trans (Deg.lt_flip hb) h1
        · exact h2 y hy
      · rcases List.mem_cons.1 h3 with rfl | h3
        · simp
        · simp [h3]

theorem le_pyMax {xs : List Deg} {r : Deg} (h : pyMax xs = .ok r) :
    (∀ x ∈ xs, x.le r) ∧ r ∈ xs := by
  cases xs with
  | nil => simp [pyMax] at h
  | cons x xs =>
    obtain ⟨h1, h2, h3⟩ := le_pyMaxFrom h
    refine ⟨fun y hy => ?_, h3⟩
    rcases List.mem_cons.1 hy with rfl | hy
    · exact h1
    · exact h2 y hy

theorem newFe_fe {f : String} {o : Order} {k : Option Int} {q v : Option String}
    {c : Option UCell} {b : Base} {o' : Order} {so : Sobolev} {m : String}
    {v' : Option String} {emb : Order}
    (h : newFe f o k q v c = .ok (.fe b o' so m v' emb)) :
    ∃ d, canonicalElementDescription f c o k = .ok d ∧
      UElem.fe b o' so m v' emb = .fe ⟨d.family, c, d.order.toDeg, q, d.shape⟩ d.order
        d.sobolev d.mapping v d.embedded := by
  cases c with
  | none => rw [newFe] at h; exact mkFe_ok h
  | some c =>
    rw [newFe] at h
    cases c with
    | named n => rw [newFeOn] at h; exact mkFe_ok h
    | tensor cs =>
      rw [newFeOn] at h
      have hE : ∀ {wrap : UElem → Except Err UElem} {cs : List UCell} {o : Order}
          {v : Option String}, expandRT wrap cs o v ≠ .ok (.fe b o' so m v' emb) := by
        intro wrap cs o v h
        unfold expandRT at h
        obtain ⟨_, -, h⟩ := bind_ok h
        obtain ⟨_, -, h⟩ := bind_ok h
        obtain ⟨_, -, h⟩ := bind_ok h
        obtain ⟨_, -, h⟩ := bind_ok h
        obtain ⟨_, -, h⟩ := bind_ok h
        obtain ⟨_, -, h⟩ := bind_ok h
        obtain ⟨_, -, h⟩ := bind_ok h
        obtain ⟨_, -, h⟩ := bind_ok h
        obtain ⟨_, _, _, _, he, -⟩ := mkEnriched_ok h
        cases he
      have hN : ∀ {wrap : UElem → Except Err UElem} {f1 f2 : String} {l1 l2 : Bool}
          {cs : List UCell} {o : Order}
          {v : Option String}, expandNC wrap f1 f2 l1 l2 cs o v ≠ .ok (.fe b o' so m v' emb) := by
        intro wrap f1 f2 l1 l2 cs o v h
        unfold expandNC at h
        obtain ⟨_, -, h⟩ := bind_ok h
        obtain ⟨_, -, h⟩ := bind_ok h
        obtain ⟨_, -, h⟩ := bind_ok h
        obtain ⟨_, -, h⟩ := bind_ok h
        obtain ⟨_, -, h⟩ := bind_ok h
        obtain ⟨_, -, h⟩ := bind_ok h
        obtain ⟨_, -, h⟩ := bind_ok h
        obtain ⟨_, -, h⟩ := bind_ok h
        obtain ⟨_, -, h⟩ := bind_ok h
        obtain ⟨_, -, h⟩ := bind_ok h
        obtain ⟨_, _, _, _, he, -⟩ := mkEnriched_ok h
        cases he
      have hP : ∀ {x : Except Err (List UElem)} {c : Option UCell},
          (match x with
            | .error e => .error e
            | .ok subs => mkProduct subs c : Except Err UElem) ≠ .ok (.fe b o' so m v' emb) := by
        intro x c h
        cases x with
        | error e => cases h
        | ok subs =>
          obtain ⟨_, _, he, -⟩ := mkProduct_ok h
          cases he
      split at h
      · cases h
      · split at h
        · exact absurd h hE
        · split at h
          · exact absurd h hE
          · split at h
            · exact absurd h hN
            · split at h
              · exact absurd h hN
              · split at h
                · exact absurd h hP
                · split at h
                  · exact absurd h hP
                  · split at h
                    · exact absurd h hP
                    · exact mkFe_ok h

theorem scalar_kmin : ∀ e ∈ registrations, e.valueRank = 0 →
    (match e.kmin with | some k => decide (0 ≤ k) | none => false) = true := by
  decide +kernel

theorem fe_nonneg {b : Base} {o : Order} {so : Sobolev} {m : String} {v : Option String}
    {emb : Order} (h : Good (.fe b o so m v emb)) (hs : b.shape = []) {r : Int}
    (hd : b.degree = .int r) : 0 ≤ r := by
  have hf := h.fixed
  unfold Fixed at hf
  rw [reconstruct] at hf
  obtain ⟨d, hd', he⟩ := newFe_fe hf
  obtain ⟨e, hreg, -, -, hrange, hsh1, hsh2, -⟩ := Props.C50_sound hd'
  have hb : b = ⟨d.family, b.cell, d.order.toDeg, b.quadScheme, d.shape⟩ :=
    (UElem.fe.inj he).1
  rw [hb] at hs hd
  simp only at hs hd
  have hrank : e.valueRank = 0 := by
    cases hc : b.cell with
    | none => exact (hsh2 hc).1
    | some c =>
      have := hsh1 c hc
      rw [hs] at this
      have := congrArg List.length this
      simpa using this.symm
  have hk := scalar_kmin e hreg hrank
  have ho : d.order = .int r := by
    cases hdo : d.order with
    | none => rw [hdo] at hd; cases hd
    | int x => rw [hdo] at hd; cases hd; rfl
    | tuple xs => rw [hdo] at hd; cases hd
  split at hk
  · next k hkm =>
    have := (hrange r (by rw [ho]; simp [Order.parts])).1 k hkm
    have h0 : 0 ≤ k := by simpa using hk
    omega
  · cases hk

theorem enriched_facts {b : Base} {nodal : Bool} {subs : List UElem}
    (h : Good (.enriched b nodal subs)) : ∃ e0 es, subs = e0 :: es ∧
      (∀ x ∈ es, x.cell = e0.cell) ∧ b.cell = e0.cell ∧
      enrichedDegree (subs.map UElem.degree) = .ok b.degree ∧
      e0.shape = .ok b.shape ∧ shapes es = .ok (es.map fun _ => b.shape) := by
  have hf := h.fixed
  unfold Fixed at hf
  rw [reconstruct, reconstructs_fixed (fun s hs => (h.sub s (by simpa [children] using hs)).fixed)]
    at hf
  obtain ⟨e0, es, b', h1, h2, h3⟩ :=
    mkEnriched_ok (n := nodal) (subs := subs) (e := .enriched b nodal subs) hf
  cases h2
  exact ⟨e0, es, h1, h3⟩

theorem product_facts {b : Base} {subs : List UElem} (h : Good (.product b subs)) :
    b.degree = .tuple (subs.map UElem.degree) ∧ subs ≠ [] ∧
      ∃ ss, shapes subs = .ok ss ∧ ss.flatten.length ≤ 1 ∧ b.shape = ss.flatten := by
  have hf := h.fixed
  unfold Fixed at hf
  rw [reconstruct, reconstructs_fixed (fun s hs => (h.sub s (by simpa [children] using hs)).fixed)]
    at hf
  obtain ⟨c', ss, he, -, hne, hss, hl, -⟩ :=
    mkProduct_ok (subs := subs) (c := b.cell) (e := .product b subs) hf
  have hb : b = ⟨"TensorProductElement", some c', .tuple (subs.map UElem.degree), none,
      ss.flatten⟩ := (UElem.product.inj he).1
  exact ⟨by rw [hb], hne, ss, hss, hl, by rw [hb]⟩

theorem shapes_mem : ∀ {subs : List UElem} {ss : List (List Nat)}, shapes subs = .ok ss →
    ∀ e ∈ subs, ∃ sh ∈ ss, e.shape = .ok sh
  | [], ss, _, e, he => by simp at he
  | x :: xs, ss, h, e, he => by
    rw [shapes] at h
    obtain ⟨s, hs, h⟩ := bind_ok h
    obtain ⟨ss', hss, h⟩ := bind_ok h
    cases h
    rcases List.mem_cons.1 he with rfl | he
    · exact ⟨s, by simp, hs⟩
    · obtain ⟨sh, h1, h2⟩ := shapes_mem hss e he
      exact ⟨sh, by simp [h1], h2⟩

theorem shape_stored {e : UElem} (h : ∀ e' m, e ≠ .withMapping e' m) :
    e.shape = .ok e.base.shape := by
  rw [UElem.shape]
  exact fun e' m => h e' m

theorem wrapped_shape {b : Base} {s : UElem}
    (h : wrapBase s = .ok b) : b.shape ≠ [] := by
  unfold wrapBase at h
  split at h
  · cases h
  · cases h; simp

/-- Scalar elements with a number as degree have a degree of at least zero. -/
theorem scalar_nonneg {e : UElem} (h : Good e) : e.shape = .ok [] → ∀ {r : Int},
    e.degree = .int r → 0 ≤ r := by
  induction h with
  | @intro e fixed sub ih =>
  have hg : Good e := .intro fixed sub
  intro hs r hd
  match e, hg, ih, hs, hd with
  | .fe b o so m v emb, hg, ih, hs, hd =>
    rw [shape_stored (by simp)] at hs
    exact fe_nonneg hg (Except.ok.inj hs) hd
  | .mixed b subs, hg, ih, hs, hd =>
    rw [shape_stored (by simp)] at hs
    have hf := hg.fixed
    unfold Fixed at hf
    rw [reconstruct, reconstructs_fixed
      (fun s hs => (hg.sub s (by simpa [children] using hs)).fixed)] at hf
    obtain ⟨b', hb, he⟩ := mkMixed_ok (subs := subs) (e := .mixed b subs) hf
    cases he
    unfold mixedBase at hb
    obtain ⟨_, -, hb⟩ := bind_ok hb
    obtain ⟨_, -, hb⟩ := bind_ok hb
    obtain ⟨ss, hss, hb⟩ := bind_ok hb
    obtain ⟨_, -, hb⟩ := bind_ok hb
    cases hb
    have := Except.ok.inj hs
    simp [UElem.base] at this
  | .vector b s dim v, hg, ih, hs, hd =>
    rw [shape_stored (by simp)] at hs
    have hf := hg.fixed
    unfold Fixed at hf
    rw [reconstruct, (hg.sub s (by simp [children])).fixed] at hf
    obtain ⟨n, sh, he, -⟩ := mkVectorOf_ok (s := s) (dim := some dim) (v := s.variant)
      (e := .vector b s dim v) hf
    cases he
    have := Except.ok.inj hs
    simp [UElem.base] at this
  | .tensor b s shape sym number count m v, hg, ih, hs, hd =>
    rw [shape_stored (by simp)] at hs
    have hf := hg.fixed
    have hgs := hg.sub s (by simp [children])
    unfold Fixed at hf
    rw [reconstruct, hgs.fixed] at hf
    obtain ⟨b', shape', d, number', count', m', he, -, -, -, -, -, ⟨sh, hsh, hb⟩, -, -, -, -, -,
      hdeg⟩ := mkTensorOf_ok (s := s) (shape := some shape) (sym := .dict sym) (v := s.variant)
        (e := .tensor b s shape sym number count m v) hf
    cases he
    have h0 : b.shape = [] := Except.ok.inj hs
    rw [hb] at h0
    have hsh0 := (List.append_eq_nil_iff.1 h0).2
    rw [hsh0] at hsh
    exact ih s (by simp [children]) hsh (by rw [← hdeg]; exact hd)
  | .product b subs, hg, ih, _, hd =>
    have := (product_facts hg).1
    rw [UElem.degree, UElem.base, this] at hd
    cases hd
  | .enriched b nodal subs, hg, ih, hs, hd =>
    rw [shape_stored (by simp)] at hs
    have hs0 : b.shape = [] := Except.ok.inj hs
    obtain ⟨e0, es, rfl, -, -, hdeg, hsh0, hshs⟩ := enriched_facts hg
    have hd' : b.degree = .int r := hd
    rw [hd'] at hdeg
    have hmem : Deg.int r ∈ (e0 :: es).map UElem.degree := by
      unfold enrichedDegree at hdeg
      split at hdeg
      · split at hdeg
        · cases hdeg
        · have hm := (le_pyMax hdeg).2
          exact (List.mem_filter.1 hm).1
      · obtain ⟨x, -, hdeg⟩ := bind_ok hdeg
        obtain ⟨y, -, hdeg⟩ := bind_ok hdeg
        cases hdeg
    obtain ⟨x, hx, hxd⟩ := List.mem_map.1 hmem
    have hxs : x.shape = .ok [] := by
      rcases List.mem_cons.1 hx with rfl | hx'
      · rw [hsh0, hs0]
      · obtain ⟨sh, h1, h2⟩ := shapes_mem hshs x hx'
        obtain ⟨_, -, rfl⟩ := List.mem_map.1 h1
        rw [h2, hs0]
    exact ih x (by simpa [children] using hx) hxs hxd
  | .hdiv b s, hg, ih, hs, hd =>
    rw [shape_stored (by simp)] at hs
    have hf := hg.fixed
    unfold Fixed at hf
    rw [reconstruct, (hg.sub s (by simp [children])).fixed] at hf
    obtain ⟨b', hb, he⟩ := mkHDiv_ok (s := s) (e := .hdiv b s) hf
    cases he
    exact absurd (Except.ok.inj hs) (wrapped_shape hb)
  | .hcurl b s, hg, ih, hs, hd =>
    rw [shape_stored (by simp)] at hs
    have hf := hg.fixed
    unfold Fixed at hf
    rw [reconstruct, (hg.sub s (by simp [children])).fixed] at hf
    obtain ⟨b', hb, he⟩ := mkHCurl_ok (s := s) (e := .hcurl b s) hf
    cases he
    exact absurd (Except.ok.inj hs) (wrapped_shape hb)
  | .withMapping s m, hg, ih, hs, hd =>
    rw [UElem.shape] at hs
    split at hs
    · cases hs
    · split at hs
      · cases hs
      · split at hs
        · cases hs
        · exact ih s (by simp [children]) hs hd
  | .restricted b s dom, hg, ih, hs, hd =>
    rw [shape_stored (by simp)] at hs
    have hf := hg.fixed
    have hgs := hg.sub s (by simp [children])
    unfold Fixed at hf
    rw [reconstruct, hgs.fixed] at hf
    obtain ⟨-, sh, hsh, he⟩ := mkRestricted_ok (s := s) (d := dom) (e := .restricted b s dom) hf
    cases he
    exact ih s (by simp [children]) (by rw [hsh]; exact hs) hd
  | .broken b s, hg, ih, hs, hd =>
    rw [shape_stored (by simp)] at hs
    have hf := hg.fixed
    have hgs := hg.sub s (by simp [children])
    unfold Fixed at hf
    rw [reconstruct, hgs.fixed] at hf
    obtain ⟨sh, hsh, he⟩ := mkBroken_ok (s := s) (e := .broken b s) hf
    cases he
    exact ih s (by simp [children]) (by rw [hsh]; exact hs) hd

theorem pySum_ok : ∀ {ds : List Deg} {b : Deg}, pySum ds = .ok b →
    ∃ rs : List Int, ds = rs.map .int ∧ b = .int rs.sum
  | [], b, h => by rw [pySum] at h; cases h; exact ⟨[], rfl, rfl⟩
  | d :: ds, b, h => by
    rw [pySum] at h
    obtain ⟨c, hc, h⟩ := bind_ok h
    obtain ⟨rs, hrs, rfl⟩ := pySum_ok hc
    cases d with
    | int r => simp only at h; cases h; exact ⟨r :: rs, by rw [hrs]; rfl, by simp⟩
    | none => cases h
    | tuple _ => cases h

theorem scalars_nonneg : ∀ {subs : List UElem} {ss : List (List Nat)} {rs : List Int},
    (∀ s ∈ subs, Good s) → shapes subs = .ok ss → ss.flatten = [] →
    subs.map UElem.degree = rs.map .int → 0 ≤ rs.sum
  | [], ss, rs, _, _, _, hr => by
    have : rs = [] := by simpa using hr.symm
    subst this; simp
  | x :: xs, ss, [], _, _, _, hr => by simp at hr
  | x :: xs, ss, r :: rs, hg, hss, hf, hr => by
    rw [shapes] at hss
    obtain ⟨sh, hsh, hss⟩ := bind_ok hss
    obtain ⟨ss', hss', hss⟩ := bind_ok hss
    cases hss
    simp only [List.map_cons, List.cons.injEq] at hr
    rw [List.flatten_cons, List.append_eq_nil_iff] at hf
    rw [hf.1] at hsh
    have h1 := scalar_nonneg (hg x List.mem_cons_self) hsh hr.1
    have h2 := scalars_nonneg (fun s hs => hg s (List.mem_cons_of_mem _ hs)) hss' hf.2 hr.2
    simp only [List.sum_cons]; omega

/-- A bound below all degrees of a product is below their sum. -/
theorem product_le : ∀ {subs : List UElem} {ss : List (List Nat)} {rs : List Int} {m : Int},
    (∀ s ∈ subs, Good s) → shapes subs = .ok ss → ss.flatten.length ≤ 1 →
    subs.map UElem.degree = rs.map .int → rs ≠ [] → (∀ r ∈ rs, m ≤ r) → m ≤ rs.sum
  | _, _, [], _, _, _, _, _, hne, _ => absurd rfl hne
  | [], ss, r :: rs, m, _, _, _, hr, _, _ => by simp at hr
  | x :: xs, ss, r :: rs, m, hg, hss, hf, hr, _, hm => by
    rw [shapes] at hss
    obtain ⟨sh, hsh, hss⟩ := bind_ok hss
    obtain ⟨ss', hss', hss⟩ := bind_ok hss
    cases hss
    simp only [List.map_cons, List.cons.injEq] at hr
    rw [List.flatten_cons, List.length_append] at hf
    have hmr := hm r List.mem_cons_self
    simp only [List.sum_cons]
    have hg' : ∀ s ∈ xs, Good s := fun s hs => hg s (List.mem_cons_of_mem _ hs)
    by_cases h0 : sh = []
    · rw [h0] at hsh hf
      have h1 := scalar_nonneg (hg x List.mem_cons_self) hsh hr.1
      by_cases hrs : rs = []
      · subst hrs; simp; exact hmr
      · have := product_le hg' hss' (by simpa using hf) hr.2 hrs
          (fun r' h' => hm r' (List.mem_cons_of_mem _ h'))
        omega
    · have hl : 0 < sh.length := List.length_pos_iff.2 h0
      have : ss'.flatten = [] := List.length_eq_zero_iff.1 (by omega)
      have := scalars_nonneg hg' hss' this hr.2
      omega

theorem embeddedSubs_mem : ∀ {subs : List UElem} {ds : List Deg}, embeddedSubs subs = .ok ds →
    ∀ s ∈ subs, ∃ d ∈ ds, embeddedSub s = .ok d
  | [], _, _, s, hs => by simp at hs
  | x :: xs, ds, h, s, hs => by
    rw [embeddedSubs] at h
    obtain ⟨d, hd, h⟩ := bind_ok h
    obtain ⟨ds', hds, h⟩ := bind_ok h
    cases h
    rcases List.mem_cons.1 hs with rfl | hs
    · exact ⟨d, by simp, hd⟩
    · obtain ⟨d', h1, h2⟩ := embeddedSubs_mem hds s hs
      exact ⟨d', by simp [h1], h2⟩

theorem embeddedSupers_mem : ∀ {subs : List UElem} {ds : List Deg},
    embeddedSupers subs = .ok ds → ∀ s ∈ subs, ∃ d ∈ ds, embeddedSuper s = .ok d
  | [], _, _, s, hs => by simp at hs
  | x :: xs, ds, h, s, hs => by
    rw [embeddedSupers] at h
    obtain ⟨d, hd, h⟩ := bind_ok h
    obtain ⟨ds', hds, h⟩ := bind_ok h
    cases h
    rcases List.mem_cons.1 hs with rfl | hs
    · exact ⟨d, by simp, hd⟩
    · obtain ⟨d', h1, h2⟩ := embeddedSupers_mem hds s hs
      exact ⟨d', by simp [h1], h2⟩

/-- Elements for which the embedded degrees are ordered. -/
def Ordered (e : UElem) : Prop :=
  ∀ a b, embeddedSub e = .ok a → embeddedSuper e = .ok b → a.le b

theorem list_ordered {subs : List UElem} (ih : ∀ s ∈ subs, Ordered s) {a b : Deg}
    (ha' : (do pyMin (← embeddedSubs subs)) = .ok a)
    (hb' : (do pyMax (← embeddedSupers subs)) = .ok b) : a.le b := by
  obtain ⟨ds, hds, ha⟩ := bind_ok ha'
  obtain ⟨es, hes, hb⟩ := bind_ok hb'
  clear ha' hb'
  cases subs with
  | nil => rw [embeddedSubs] at hds; cases hds; simp [pyMin] at ha
  | cons x xs =>
    obtain ⟨d, hd, hxd⟩ := embeddedSubs_mem hds x List.mem_cons_self
    obtain ⟨f, hf, hxf⟩ := embeddedSupers_mem hes x List.mem_cons_self
    exact Deg.le_trans (pyMin_le ha d hd)
      (Deg.le_trans (ih x List.mem_cons_self d f hxd hxf) ((le_pyMax hb).1 f hf))

theorem repeated_ordered {s : UElem} (ih : Ordered s) {n : Nat} {a b : Deg}
    (ha : (do pyMin (← (if n = 0 then .ok [] else do
      .ok (List.replicate n (← embeddedSub s)) : Except Err (List Deg)))) = .ok a)
    (hb : (do pyMax (← (if n = 0 then .ok [] else do
      .ok (List.replicate n (← embeddedSuper s)) : Except Err (List Deg)))) = .ok b) : a.le b := by
  by_cases h0 : n = 0
  · rw [if_pos h0] at ha
    cases ha
  · rw [if_neg h0] at ha hb
    obtain ⟨ds, hds, ha⟩ := bind_ok ha
    obtain ⟨es, hes, hb⟩ := bind_ok hb
    obtain ⟨d, hd, hds⟩ := bind_ok hds
    obtain ⟨f, hf, hes⟩ := bind_ok hes
    cases hds
    cases hes
    exact Deg.le_trans (pyMin_le ha d (by simp [h0]))
      (Deg.le_trans (ih d f hd hf) ((le_pyMax hb).1 f (by simp [h0])))

theorem fe_ordered {b : Base} {o : Order} {so : Sobolev} {m : String} {v : Option String}
    {emb : Order} : Ordered (.fe b o so m v emb) := by
  intro a c ha hc
  unfold embeddedSub at ha
  unfold embeddedSuper at hc
  obtain ⟨r, hr, ha⟩ := bind_ok ha
  obtain ⟨t, ht, hc⟩ := bind_ok hc
  have hrt : r.le t := by
    cases o with
    | none => cases hr
    | int x => cases hr; cases ht; exact .inl rfl
    | tuple xs =>
      simp only at hr ht
      cases xs with
      | nil => simp [pyMin] at hr
      | cons x xs =>
        exact Deg.le_trans (pyMin_le hr (.int x) (by simp)) ((le_pyMax ht).1 (.int x) (by simp))
  cases emb with
  | none => cases ha; cases hc; exact hrt
  | tuple _ => cases ha; cases hc; exact hrt
  | int z =>
    simp only at ha hc
    exact Deg.le_trans (pyMin_le ha r (by simp))
      (Deg.le_trans hrt ((le_pyMax hc).1 t (by simp)))

theorem Good.ordered' {e : UElem} (h : Good e) :
    Ordered e ∧ ∀ s ∈ children e, Ordered s := by
  induction h with
  | @intro e fixed sub ih' =>
  have hg : Good e := .intro fixed sub
  have ih : ∀ s ∈ children e, Ordered s := fun s hs => (ih' s hs).1
  refine ⟨?_, ih⟩
  match e, hg, ih, ih' with
  | .fe .., _, _, _ => exact fe_ordered
  | .mixed b subs, hg, ih, ih' =>
    intro a c ha hc
    rw [embeddedSub] at ha
    rw [embeddedSuper] at hc
    exact list_ordered (fun s hs => ih s (by simpa [children] using hs)) ha hc
  | .vector b s n v, hg, ih, ih' =>
    intro a c ha hc
    rw [embeddedSub] at ha
    rw [embeddedSuper] at hc
    exact repeated_ordered (ih s (by simp [children])) ha hc
  | .tensor b s _ _ _ n _ _, hg, ih, ih' =>
    intro a c ha hc
    rw [embeddedSub] at ha
    rw [embeddedSuper] at hc
    exact repeated_ordered (ih s (by simp [children])) ha hc
  | .product b subs, hg, ih, ih' =>
    intro a c ha hc
    obtain ⟨hd, hne, ss, hss, hl, -⟩ := product_facts hg
    rw [embeddedSub, hd] at ha
    rw [embeddedSuper, hd] at hc
    simp only at ha hc
    obtain ⟨rs, hrs, rfl⟩ := pySum_ok hc
    have hle := pyMin_le ha
    have hrne : rs ≠ [] := by
      rintro rfl
      simp at hrs
      exact hne hrs
    have : ∃ m, a = .int m := by
      cases rs with
      | nil => exact absurd rfl hrne
      | cons r rs =>
        have := hle (.int r) (by rw [hrs]; simp)
        cases a with
        | int m => exact ⟨m, rfl⟩
        | none => rcases this with h | h <;> cases h
        | tuple _ => rcases this with h | h <;> cases h
    obtain ⟨m, rfl⟩ := this
    rw [Deg.le_int]
    refine product_le (fun s hs => hg.sub s (by simpa [children] using hs)) hss hl hrs hrne ?_
    intro r hr
    exact Deg.le_int.1 (hle (.int r) (by rw [hrs]; exact List.mem_map_of_mem hr))
  | .enriched b n subs, hg, ih, ih' =>
    intro a c ha hc
    rw [embeddedSub] at ha
    rw [embeddedSuper] at hc
    exact list_ordered (fun s hs => ih s (by simpa [children] using hs)) ha hc
  | .hdiv b s, hg, ih, ih' =>
    intro a c ha hc
    rw [embeddedSub] at ha
    rw [embeddedSuper] at hc
    exact ih s (by simp [children]) a c ha hc
  | .hcurl b s, hg, ih, ih' =>
    intro a c ha hc
    rw [embeddedSub] at ha
    rw [embeddedSuper] at hc
    exact ih s (by simp [children]) a c ha hc
  | .broken b s, hg, ih, ih' =>
    intro a c ha hc
    rw [embeddedSub] at ha
    rw [embeddedSuper] at hc
    exact ih s (by simp [children]) a c ha hc
  | .restricted b s d, hg, ih, ih' =>
    intro a c ha hc
    rw [embeddedSub] at ha
    rw [embeddedSuper] at hc
    cases ha
    cases hc
    exact .inl rfl
  | .withMapping s m, hg, ih, ih' =>
    intro a c ha hc
    have hs := ih s (by simp [children])
    have hgs := hg.sub s (by simp [children])
    cases s with
    | restricted b' s' d' =>
      rw [embeddedSub] at ha
      rw [embeddedSuper] at hc
      exact (ih' (.restricted b' s' d') (by simp [children])).2 s' (by simp [children]) a c ha hc
    | _ =>
      rw [embeddedSub] at ha <;> try simp
      rw [embeddedSuper] at hc <;> try simp
      exact hs a c ha hc

theorem Good.ordered {e : UElem} (h : Good e) : Ordered e := h.ordered'.1

end FInAT.Ufl
