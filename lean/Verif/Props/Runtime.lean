import Verif.Lemmas.Runtime

/-!
# C47: names of runtime tabulations

A runtime tabulated element refers to its tables through variables whose values are supplied
to the kernel by name.
-/

namespace FInAT.Props

open FInAT.Runtime

/-- **C47.** Two entries of the tables of two runtime tabulated elements carry the same variable
name exactly if the elements have the same degree, variant string, first axis, restriction and
continuity and the entries belong to the same derivative. Neither the points nor the orders
of the two requests matter. -/
theorem C47_names {line line' : Bool} {degree degree' shift shift' : Int}
    {variant variant' restriction restriction' : Option (List Char)} {cont cont' : Bool}
    {e e' : Element}
    (he : init line degree variant shift restriction cont = .ok e)
    (he' : init line' degree' variant' shift' restriction' cont' = .ok e')
    {order order' : Nat} {extents extents' ix ix' : List Nat} {d d' : Dict (List Nat) Entry}
    (hd : e.basisEvaluation order extents ix = .ok d)
    (hd' : e'.basisEvaluation order' extents' ix' = .ok d')
    {α α' : List Nat} {x x' : Entry} (hx : d.get? α = some x) (hx' : d'.get? α' = some x') :
    x.name = x'.name ↔ degree = degree' ∧ variant = variant' ∧ shift = shift' ∧
      restriction = restriction' ∧ cont = cont' ∧ α = α' := by
  obtain ⟨-, -, hr, e1, e2, e3, e4, e5⟩ := init_ok he
  obtain ⟨-, -, hr', e1', e2', e3', e4', e5'⟩ := init_ok he'
  obtain ⟨D, hD, h1, h2⟩ := table (e4 ▸ hr) order extents ix
  obtain ⟨D', hD', h1', h2'⟩ := table (e4' ▸ hr') order' extents' ix'
  obtain rfl := Except.ok.inj (hD.symm.trans hd)
  obtain rfl := Except.ok.inj (hD'.symm.trans hd')
  have hk : ∃ k ≤ order, α = [k] := by
    by_contra hc
    rw [h2 α (fun k hk hα => hc ⟨k, hk, hα⟩)] at hx
    cases hx
  have hk' : ∃ k ≤ order', α' = [k] := by
    by_contra hc
    rw [h2' α' (fun k hk hα => hc ⟨k, hk, hα⟩)] at hx'
    cases hx'
  obtain ⟨k, hk, rfl⟩ := hk
  obtain ⟨k', hk', rfl⟩ := hk'
  obtain ⟨n, hn, hg⟩ := h1 k hk
  obtain ⟨n', hn', hg'⟩ := h1' k' hk'
  obtain rfl := Option.some.inj (hg.symm.trans hx)
  obtain rfl := Option.some.inj (hg'.symm.trans hx')
  constructor
  · intro h
    obtain rfl : n = n' := h
    obtain ⟨rfl, rfl⟩ := name_inj hn hn'
    exact ⟨e1.symm.trans e1', e2.trans e2'.symm, e3.symm.trans e3', e4.symm.trans e4',
      e5.symm.trans e5', rfl⟩
  · rintro ⟨a1, a2, a3, a4, a5, a6⟩
    have : e = e' := by
      subst a1 a2 a3 a4 a5
      cases e; cases e'
      simp only at *
      have : (some _ : Option (List Char)) = some _ := e2.symm.trans e2'
      simp only [Element.mk.injEq]
      exact ⟨e1.trans e1'.symm, Option.some.inj this, by omega, e4.trans e4'.symm,
        e5.trans e5'.symm⟩
    subst this
    obtain rfl : k = k' := by simpa using a6
    exact Except.ok.inj (hn.symm.trans hn')

/-- **C47.** The tables exist and hold exactly the derivatives up to the requested order; the
variable has one axis per point index followed by one of extent `degree + 1`. -/
theorem C47_table {line : Bool} {degree shift : Int} {variant restriction : Option (List Char)}
    {cont : Bool} {e : Element} (he : init line degree variant shift restriction cont = .ok e)
    (order : Nat) (extents ix : List Nat) :
    ∃ d, e.basisEvaluation order extents ix = .ok d ∧
      ∀ α, ((∃ x, d.get? α = some x) ↔ ∃ k ≤ order, α = [k]) ∧
        ∀ x, d.get? α = some x →
          x.shape = extents.map Int.ofNat ++ [degree + 1] ∧ x.indices = ix := by
  obtain ⟨-, -, hr, e1, e2, e3, e4, e5⟩ := init_ok he
  obtain ⟨d, hd, h1, h2⟩ := table (e4 ▸ hr) order extents ix
  have hk : ∀ α x, d.get? α = some x → ∃ k ≤ order, α = [k] := by
    intro α x hx
    by_contra hc
    rw [h2 α (fun k hk hα => hc ⟨k, hk, hα⟩)] at hx
    cases hx
  refine ⟨d, hd, fun α => ⟨⟨fun ⟨x, hx⟩ => hk α x hx, ?_⟩, fun x hx => ?_⟩⟩
  · rintro ⟨k, hk, rfl⟩
    obtain ⟨n, -, hg⟩ := h1 k hk
    exact ⟨_, hg⟩
  · obtain ⟨k, hk, rfl⟩ := hk α x hx
    obtain ⟨n, -, hg⟩ := h1 k hk
    obtain rfl := Option.some.inj (hg.symm.trans hx)
    exact ⟨by rw [e1], rfl⟩

/-- **C47.** The constructor accepts exactly the documented arguments, on intervals only. -/
theorem C47_init (line : Bool) (degree shift : Int) (variant restriction : Option (List Char))
    (cont : Bool) :
    (∃ e, init line degree variant shift restriction cont = .ok e) ↔
      line = true ∧ variant ≠ none ∧ 0 ≤ shift ∧
        (restriction = none ∨ restriction = some ['+'] ∨ restriction = some ['-']) := by
  constructor
  · rintro ⟨e, he⟩
    obtain ⟨h1, h2, h3, -, h4, -⟩ := init_ok he
    exact ⟨h1, by rw [h4]; simp, h2, by simpa using h3⟩
  · rintro ⟨rfl, hv, hs, hr⟩
    cases variant with
    | none => exact absurd rfl hv
    | some v =>
      refine ⟨⟨degree, v, shift.toNat, restriction, cont⟩, ?_⟩
      unfold init
      have : restriction ∈ [none, some ['+'], some ['-']] := by simpa using hr
      simp [hs, this]

/-- A finding: the point set is no part of the name, so that two requests with different numbers
of points declare variables of one name and different shapes. -/
theorem C47_shapes_differ : ∃ (e : Element) (d d' : Dict (List Nat) Entry) (x x' : Entry),
    init true 1 (some ['m']) 0 none true = .ok e ∧ e.basisEvaluation 0 [2] [0] = .ok d ∧
      e.basisEvaluation 0 [3] [1] = .ok d' ∧ d.get? [0] = some x ∧ d'.get? [0] = some x' ∧
      x.name = x'.name ∧ x.shape ≠ x'.shape := by
  have he : init true 1 (some ['m']) 0 none true = .ok ⟨1, ['m'], 0, none, true⟩ := by decide +kernel
  obtain ⟨d, hd, h⟩ := C47_table he 0 [2] [0]
  obtain ⟨d', hd', h'⟩ := C47_table he 0 [3] [1]
  obtain ⟨x, hx⟩ := (h [0]).1.2 ⟨0, by omega, rfl⟩
  obtain ⟨x', hx'⟩ := (h' [0]).1.2 ⟨0, by omega, rfl⟩
  refine ⟨_, d, d', x, x', he, hd, hd', hx, hx',
    (C47_names he he hd hd' hx hx').2 ⟨rfl, rfl, rfl, rfl, rfl, rfl⟩, ?_⟩
  rw [((h [0]).2 x hx).1, ((h' [0]).2 x' hx').1]; decide

/-! A variant that itself ends like a name with other parameters. -/

example : ∃ e, init true 12 (some "a_1".toList) 3 (some ['+']) false = .ok e ∧
    e.name [2] = .ok "rt_a_1_12_2_3_d_p".toList :=
  ⟨⟨12, "a_1".toList, 3, some ['+'], false⟩, by decide +kernel, by decide +kernel⟩

example : ∃ e, init true 2 (some "a".toList) 0 none true = .ok e ∧
    e.name [10] = .ok "rt_a_2_10_0_c_".toList :=
  ⟨⟨2, "a".toList, 0, none, true⟩, by decide +kernel, by decide +kernel⟩

end FInAT.Props
