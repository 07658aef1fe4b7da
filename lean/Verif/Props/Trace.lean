import Verif.Lemmas.Trace
import Verif.Lemmas.LSum
import Verif.Lemmas.Mapping
import Verif.Props.Closure

/-!
# C83: functions of conforming elements are continuous in the sense of their space

The trace of a basis function on an entity vanishes unless its dof is in the closure of the entity; so the trace
of a function on an entity is determined by its coefficients in the closure dofs of the entity, and functions on
neighbouring cells that share these agree.
-/

namespace FInAT.Spec

open FInAT

variable {K : Type} [CommRing K]

/-- The function of the element with the coefficients `u`. -/
def combination (φ : LeafVals K) (e : Elem) (u : Nat → K) : BFun K := fun α ent x z =>
  ((List.range e.spaceDim).map fun j => u j * fnOf φ e j α ent x z).sum

end FInAT.Spec

namespace FInAT.Props

open FInAT FInAT.Spec

variable {K : Type} [CommRing K]

/-- **C83**, one basis function: on every element tree built conformingly, the trace of a basis function on an
entity `E` is zero unless the entity its dof is on is a sub-entity of `E`. -/
theorem C83_trace (φ : LeafVals K) (G : Frame K) (s : Space) (e : Elem) (c : Cell) (d : EntityDofs)
    (h : Conforms φ G s e) (hg : Good e) (hc : e.cell = .ok c) (hd : e.entityDofs = .ok d)
    (E' E : Dim × Nat) (hE' : E' ∈ entities c) (hE : E ∈ entities c) (hs : ¬ G.sub c E' E)
    (k : Nat) (hk : k ∈ dofsOn d E'.1 E'.2) (L : BFun K → K) (hL : IsTrace G s e c E L) :
    L (fnOf φ e k) = 0 := by
  refine conforms_local φ G h hg c hc (E', fnOf φ e k) ?_ E hE hs L hL
  rw [attached_eq hc hd]
  exact List.mem_flatMap.2 ⟨E', hE', List.mem_map.2 ⟨k, hk, rfl⟩⟩

/-- **C83**, in terms of `entity_closure_dofs()`: with the sub-entities of the cell listed by FIAT, the trace on
an entity of a basis function whose number is not among the closure dofs of the entity is zero. -/
theorem C83_closure (φ : LeafVals K) (G : Frame K) (s : Space) (fiat : Leaf → EntityDofs)
    (subs : Cell → EntityMap (List (Dim × Nat))) (e : Elem) (c : Cell)
    (h : Conforms φ G s e) (hg : Good e) (hc : e.cell = .ok c) (hs : SubEntitiesOK (subs c) c.topology)
    (hf : ∀ l, closureLeaf e = some l → fiat l = l.dofs)
    (hsub : ∀ E' E, G.sub c E' E → E' ∈ subsOf (subs c) E.1 E.2) (cl : EntityDofs)
    (hcl : closureDofs fiat subs e = .ok cl) (E : Dim × Nat) (hE : E ∈ entities c)
    (hEl : ∃ ents l, (subs c).get? E.1 = some ents ∧ ents.get? E.2 = some l)
    (k : Nat) (hk : k < e.spaceDim) (hn : k ∉ dofsOn cl E.1 E.2) (L : BFun K → K) (hL : IsTrace G s e c E L) :
    L (fnOf φ e k) = 0 := by
  obtain ⟨d, cl', hd, hcl', _, hh⟩ := C69_closure_partial fiat subs e c hg hc hs hf
  rw [hcl] at hcl'
  cases hcl'
  obtain ⟨d', hd', hcov, hpart⟩ := dofsOK e hg c hc
  rw [hd] at hd'
  cases hd'
  obtain ⟨ents, l, h1, h2⟩ := hEl
  have hmem : k ∈ List.range e.spaceDim := List.mem_range.2 hk
  have hall := (allDofs_perm_top hcov c.topology_nodup).symm.trans hpart
  obtain ⟨p, hp, hk1⟩ := List.mem_flatMap.1 (hall.mem_iff.2 hmem)
  obtain ⟨n, hnn, hk2⟩ := List.mem_flatMap.1 hk1
  have hE' : (p.1, n) ∈ entities c := mem_entities.2 ⟨p.2, hp, List.mem_range.1 hnn⟩
  refine C83_trace φ G s e c d h hg hc hd (p.1, n) E hE' hE (fun hGs => hn ?_) k hk2 L hL
  refine ((hh _ _ _ _ h1 h2).2 k).2 ⟨(p.1, n), ?_, hk2⟩
  have := hsub _ _ hGs
  simpa [subsOf, h1, h2] using this

theorem inner_sum (v : List K) (l : List Nat) (f : Nat → Nat → K) :
    inner v (fun j => (l.map fun k => f k j).sum) = (l.map fun k => inner v (f k)).sum := by
  induction v generalizing f with
  | nil => simp [inner]
  | cons a v ih =>
    have h1 := lsum_mul_left a l fun k => f k 0
    have h2 := lsum_add l (fun k => a * f k 0) (fun k => inner v fun j => f k (j + 1))
    unfold lsum at h1 h2
    simp only [inner]
    rw [ih fun k j => f k (j + 1), h2, h1]

theorem inner_smul (v : List K) (b : K) (f : Nat → K) : inner v (fun j => b * f j) = b * inner v f := by
  induction v generalizing f with
  | nil => simp [inner]
  | cons a v ih =>
    simp only [inner, ih]
    ring

/-- Traces are linear. -/
theorem trace_linear (φ : LeafVals K) {G : Frame K} {s : Space} {e : Elem} {c : Cell} {E : Dim × Nat}
    {L : BFun K → K} (hL : IsTrace G s e c E L) (u : Nat → K) :
    L (combination φ e u) = ((List.range e.spaceDim).map fun j => u j * L (fnOf φ e j)).sum := by
  cases s with
  | h1 =>
    obtain ⟨x, z, _, _, rfl⟩ := hL
    rfl
  | hdiv =>
    obtain ⟨x, n, _, _, rfl⟩ := hL
    simp only [combination]
    rw [inner_sum]
    simp only [inner_smul]
  | hcurl =>
    obtain ⟨x, n, _, _, rfl⟩ := hL
    simp only [combination]
    rw [inner_sum]
    simp only [inner_smul]

/-- **C83**, continuity: two functions of a conforming element whose coefficients agree in the closure dofs of
an entity have the same trace there: the same values (H1), the same normal components (H(div)), the same
tangential components (H(curl)). -/
theorem C83_agree (φ : LeafVals K) (G : Frame K) (s : Space) (fiat : Leaf → EntityDofs)
    (subs : Cell → EntityMap (List (Dim × Nat))) (e : Elem) (c : Cell)
    (h : Conforms φ G s e) (hg : Good e) (hc : e.cell = .ok c) (hs : SubEntitiesOK (subs c) c.topology)
    (hf : ∀ l, closureLeaf e = some l → fiat l = l.dofs)
    (hsub : ∀ E' E, G.sub c E' E → E' ∈ subsOf (subs c) E.1 E.2) (cl : EntityDofs)
    (hcl : closureDofs fiat subs e = .ok cl) (E : Dim × Nat) (hE : E ∈ entities c)
    (hEl : ∃ ents l, (subs c).get? E.1 = some ents ∧ ents.get? E.2 = some l)
    (u v : Nat → K) (huv : ∀ k ∈ dofsOn cl E.1 E.2, u k = v k) (L : BFun K → K) (hL : IsTrace G s e c E L) :
    L (combination φ e u) = L (combination φ e v) := by
  rw [trace_linear φ hL, trace_linear φ hL]
  congr 1
  apply List.map_congr_left
  intro k hk
  by_cases hkc : k ∈ dofsOn cl E.1 E.2
  · rw [huv k hkc]
  · rw [C83_closure φ G s fiat subs e c h hg hc hs hf hsub cl hcl E hE hEl k (List.mem_range.1 hk) hkc L hL,
      mul_zero, mul_zero]

/-- **C83**, why `DiscontinuousElement` is not conforming: its dofs are all on the cell, so as soon as one basis
function has a trace on an entity that does not have the cell as a sub-entity, the trace is not that of
closure dofs. -/
theorem C83_discontinuous (φ : LeafVals K) (G : Frame K) (s : Space) (e : Elem) (c : Cell)
    (hc : e.cell = .ok c) (E : Dim × Nat) (hE : E ∈ entities c)
    (hs : ¬ G.sub c (c.dimension, 0) E) (k : Nat) (hk : k < e.spaceDim) (L : BFun K → K)
    (hL : IsTrace G s (.discontinuous e) c E L) (hne : L (fnOf φ e k) ≠ 0) :
    ¬ LocalTraces φ G s (.discontinuous e) := by
  intro hl
  apply hne
  obtain ⟨d, hd, _, h1, _⟩ := C09_discontinuous_dofs e c hc
  refine hl c hc ((c.dimension, 0), fnOf φ e k) ?_ E hE hs L hL
  rw [attached_eq (e := .discontinuous e) hc hd]
  refine List.mem_flatMap.2 ⟨(c.dimension, 0), mem_entities.2 ⟨1, c.dimension_mem, Nat.one_pos⟩, ?_⟩
  refine List.mem_map.2 ⟨k, by rw [h1]; exact List.mem_range.2 hk, ?_⟩
  rfl

/-! ### Example: `Q1`, `RTCF1` and `RTCE1` on the quadrilateral -/

namespace TraceEx

/-- Two intervals. -/
def two : List Cell := [.simplex 1, .simplex 1]

/-- Sub-entities of the interval. -/
def subI (E' E : Dim × Nat) : Bool := decide (E' = E) || decide (E = (.int 1, 0))

/-- Sub-entities of the product of two intervals. -/
def subP (E' E : Dim × Nat) : Bool := match factorEntity two (some E'), factorEntity two (some E) with
  | .ok Es', .ok Es => (Es'.zip Es).all fun t => subI t.1 t.2
  | _, _ => false

/-- Sub-entities of the quadrilateral. -/
def subQ (E' E : Dim × Nat) : Bool := match E', E with
  | (.int t', k'), (.int t, k) =>
    match flattenedEntity (.prod two) (some (t', k')), flattenedEntity (.prod two) (some (t, k)) with
    | .ok X', .ok X => subP X' X
    | _, _ => false
  | _, _ => false

/-- Tangents of the interval and its vertices. -/
def tangI (E : Dim × Nat) (t : List ℚ) : Prop := E = (.int 1, 0) ∧ t.length = 1

/-- Normals of the vertices of the interval. -/
def normI (E : Dim × Nat) (n : List ℚ) : Prop := E ≠ (.int 1, 0) ∧ n.length = 1

/-- Tangents on the product of two intervals. -/
def tangP (E : Dim × Nat) (t : List ℚ) : Prop := ∃ Ea Eb ta tb, factorEntity two (some E) = .ok [Ea, Eb] ∧
  t = ta ++ tb ∧ ta.length = 1 ∧ tb.length = 1 ∧ (tangI Ea ta ∨ ∀ y ∈ ta, y = 0) ∧ (tangI Eb tb ∨ ∀ y ∈ tb, y = 0)

/-- Normals on the product of two intervals. -/
def normP (E : Dim × Nat) (n : List ℚ) : Prop := ∃ Ea Eb na nb, factorEntity two (some E) = .ok [Ea, Eb] ∧
  n = na ++ nb ∧ na.length = 1 ∧ nb.length = 1 ∧
    ((normI Ea na ∧ Eb = (.int 1, 0) ∧ ∀ y ∈ nb, y = 0) ∨ (normI Eb nb ∧ Ea = (.int 1, 0) ∧ ∀ y ∈ na, y = 0))

/-- The geometry of the interval, the product of two intervals and the quadrilateral. -/
def frame : Frame ℚ where
  sub c E' E := match c with
    | .simplex _ => subI E' E = true
    | .prod _ => subP E' E = true
    | .quad => subQ E' E = true
    | .hex => False
  tang c E t := match c with
    | .simplex _ => tangI E t
    | .prod _ => tangP E t
    | .quad => ∃ d k X, E = (.int d, k) ∧ flattenedEntity (.prod two) (some (d, k)) = .ok X ∧ tangP X t
    | .hex => False
  norm c E n := match c with
    | .simplex _ => normI E n
    | .prod _ => normP E n
    | .quad => ∃ d k X, E = (.int d, k) ∧ flattenedEntity (.prod two) (some (d, k)) = .ok X ∧ normP X n
    | .hex => False

theorem product_two : frame.Product two := by
  intro E' E Es' Es h1 h2 h
  have hl' := factorEntity_length h1
  have hl := factorEntity_length h2
  obtain ⟨a', b', rfl⟩ := List.length_eq_two.1 hl'
  obtain ⟨a, b, rfl⟩ := List.length_eq_two.1 hl
  have ha := h (.simplex 1, a', a) (by simp [two])
  have hb := h (.simplex 1, b', b) (by simp [two])
  show subP E' E = true
  simp only [subP, h1, h2]
  simp only [frame] at ha hb
  simp [ha, hb]

theorem extruded : frame.Extruded (.simplex 1) (.simplex 1) where
  product := product_two
  wholeA E _ := by simp [frame, subI, Cell.dimension]
  wholeB E _ := by simp [frame, subI, Cell.dimension]
  tang E Ea Eb t h ht := by
    obtain ⟨Ea', Eb', ta, tb, h1, h2, h3, h4, h5, h6⟩ := ht
    rw [show two = [.simplex 1, .simplex 1] from rfl, h] at h1
    simp only [Except.ok.injEq, List.cons.injEq, and_true] at h1
    obtain ⟨rfl, rfl⟩ := h1
    exact ⟨ta, tb, h2, h3, h4, h5, h6⟩
  norm E Ea Eb t h ht := by
    obtain ⟨Ea', Eb', ta, tb, h1, h2, h3, h4, h5⟩ := ht
    rw [show two = [.simplex 1, .simplex 1] from rfl, h] at h1
    simp only [Except.ok.injEq, List.cons.injEq, and_true] at h1
    obtain ⟨rfl, rfl⟩ := h1
    exact ⟨ta, tb, h2, h3, h4, h5⟩
  lineA _ E t h := h.1
  lineB _ E t h := h.1
  turnNorm h := absurd h (by decide)
  turnTang h := absurd h (by decide)

theorem flat_quad : frame.Flat (.prod two) .quad where
  sub t' k' E' t k E h1 h2 h := by
    show subQ _ _ = true
    simp only [subQ, h1, h2]
    exact h
  tang t k E v h ht := by
    obtain ⟨_, _, X, h1, h2, h3⟩ := ht
    cases h1
    rw [h] at h2
    cases h2
    exact h3
  norm t k E v h ht := by
    obtain ⟨_, _, X, h1, h2, h3⟩ := ht
    cases h1
    rw [h] at h2
    cases h2
    exact h3

/-- Linear functions (leaf 0) and constants on the interval. -/
def vals : LeafVals ℚ where
  leaf l α ent x i _ :=
    if l.id = 0 then
      match α, ent with
      | [0], (.int 0, v) => if i.headD 0 = v then 1 else 0
      | [0], _ => if i.headD 0 = 0 then 1 - x.headD 0 else x.headD 0
      | [1], (.int 1, _) => if i.headD 0 = 0 then -1 else 1
      | _, _ => 0
    else if α = [0] then 1 else 0
  quad _ _ _ _ _ := 0

theorem attached_cg1 : attached vals (.leaf cg1) =
    [((.int 0, 0), fnOf vals (.leaf cg1) 0), ((.int 0, 1), fnOf vals (.leaf cg1) 1)] := by
  rw [attached_eq (c := .simplex 1) (d := cg1.dofs) rfl rfl]
  have : entities (.simplex 1) = [(.int 0, 0), (.int 0, 1), (.int 1, 0)] := by decide
  rw [this]
  rfl

theorem local_cg1 : LocalTraces vals frame .h1 (.leaf cg1) := by
  intro c hc y hy E hE hs L hL
  cases hc
  have hEnt : entities cg1.cell = [(.int 0, 0), (.int 0, 1), (.int 1, 0)] := by decide
  rw [hEnt] at hE
  rw [attached_cg1] at hy
  obtain ⟨x, z, _, _, rfl⟩ := hL
  simp only [List.mem_cons, List.not_mem_nil, or_false] at hE hy
  rcases hy with rfl | rfl <;> rcases hE with rfl | rfl | rfl <;>
    first
    | exact absurd (by decide : subI _ _ = true) hs
    | rfl

/-- `Q1`. -/
def q1 : Elem := .flattened (.tensorProduct [.leaf cg1, .leaf cg1])

/-- The lowest order H(div) element on the quadrilateral. -/
def rtcf1 : Elem := .flattened (.enriched [.hdiv (.tensorProduct [.leaf cg1, .leaf dg0]),
  .hdiv (.tensorProduct [.leaf dg0, .leaf cg1])])

/-- The lowest order H(curl) element on the quadrilateral. -/
def rtce1 : Elem := .flattened (.enriched [.hcurl (.tensorProduct [.leaf dg0, .leaf cg1]),
  .hcurl (.tensorProduct [.leaf cg1, .leaf dg0])])

theorem flat_of {p : Elem} (hp : p.cell = .ok (.prod two)) :
    ∀ c cf, p.cell = .ok c → (Elem.flattened p).cell = .ok cf → frame.Flat c cf := by
  intro c cf h1 h2
  rw [hp] at h1
  cases h1
  simp only [Elem.cell, hp, bind, Except.bind] at h2
  cases h2
  exact flat_quad

theorem extruded_of {a b : Elem} (ha : a.cell = .ok (.simplex 1)) (hb : b.cell = .ok (.simplex 1)) :
    ∀ ca cb, a.cell = .ok ca → b.cell = .ok cb → frame.Extruded ca cb := by
  intro ca cb h1 h2
  rw [ha] at h1
  rw [hb] at h2
  cases h1
  cases h2
  exact extruded

theorem conforms_q1 : Conforms vals frame .h1 q1 := by
  refine .flattened (.product (vs := []) ?_ ?_ rfl) (flat_of rfl)
  · intro f hf
    simp only [List.mem_cons, List.not_mem_nil, or_false, or_self] at hf
    subst hf
    exact .leaf local_cg1
  · intro cs hcs
    cases hcs
    exact product_two

theorem conforms_rtcf1 : Conforms vals frame .hdiv rtcf1 := by
  refine .flattened (.enriched (vs := [2]) ?_ rfl) (flat_of rfl)
  intro f hf
  simp only [List.mem_cons, List.not_mem_nil, or_false] at hf
  rcases hf with rfl | rfl
  · exact .hdivFirst rfl (extruded_of rfl rfl) rfl rfl rfl rfl (.leaf local_cg1)
  · exact .hdivLast rfl (extruded_of rfl rfl) rfl rfl rfl (.leaf local_cg1)

theorem conforms_rtce1 : Conforms vals frame .hcurl rtce1 := by
  refine .flattened (.enriched (vs := [2]) ?_ rfl) (flat_of rfl)
  intro f hf
  simp only [List.mem_cons, List.not_mem_nil, or_false] at hf
  rcases hf with rfl | rfl
  · refine .hcurlFirst rfl (fun ca cb h1 h2 => ⟨extruded_of rfl rfl ca cb h1 h2, ?_⟩) rfl rfl rfl rfl rfl (.leaf local_cg1)
    cases h1
    rfl
  · exact .hcurlLast rfl (extruded_of rfl rfl) rfl rfl rfl rfl rfl (.leaf local_cg1)

/-- Sub-entities of the quadrilateral as FIAT lists them. -/
def quadSubs : EntityMap (List (Dim × Nat)) :=
  [(.int 0, [(0, [(.int 0, 0)]), (1, [(.int 0, 1)]), (2, [(.int 0, 2)]), (3, [(.int 0, 3)])]),
   (.int 1, [(0, [(.int 0, 0), (.int 0, 1), (.int 1, 0)]), (1, [(.int 0, 2), (.int 0, 3), (.int 1, 1)]),
             (2, [(.int 0, 0), (.int 0, 2), (.int 1, 2)]), (3, [(.int 0, 1), (.int 0, 3), (.int 1, 3)])]),
   (.int 2, [(0, [(.int 0, 0), (.int 0, 1), (.int 0, 2), (.int 0, 3), (.int 1, 0), (.int 1, 1), (.int 1, 2),
                  (.int 1, 3), (.int 2, 0)])])]

theorem quad_ok : SubEntitiesOK quadSubs (Cell.quad).topology := by
  rw [show (Cell.quad).topology = [(.int 0, 4), (.int 1, 4), (.int 2, 1)] by decide +kernel]
  have h : ∀ p ∈ quadSubs, p.2.keys.Nodup ∧ ∀ q ∈ p.2, q.2.Nodup ∧ ∀ x ∈ q.2,
      (([(.int 0, 4), (.int 1, 4), (.int 2, 1)] : List (Dim × Nat)).any
        fun y => decide (y.1 = x.1) && decide (x.2 < y.2)) = true := by decide +kernel
  refine ⟨by decide, fun p hp => ⟨(h p hp).1, fun q hq => ⟨((h p hp).2 q hq).1, fun x hx => ?_⟩⟩⟩
  obtain ⟨y, hy, hyx⟩ := List.any_eq_true.1 (((h p hp).2 q hq).2 x hx)
  simp only [Bool.and_eq_true, decide_eq_true_eq] at hyx
  exact ⟨y.2, by rw [← hyx.1]; exact hy, hyx.2⟩

/-- The entities of the quadrilateral. -/
def quadEnts : List (Nat × Nat) := [(0, 0), (0, 1), (0, 2), (0, 3), (1, 0), (1, 1), (1, 2), (1, 3), (2, 0)]

theorem flat_mem {t k : Nat} {X : Dim × Nat} (h : flattenedEntity (.prod two) (some (t, k)) = .ok X) :
    (t, k) ∈ quadEnts := by
  simp only [flattenedEntity, Option.getD_some] at h
  have hm := Dict.mem_of_get?_eq_some (Dict.get_eq_ok_iff.1 h)
  have hk : ∀ p ∈ computeUnflatteningMap ((Cell.prod two).topology.map fun p =>
      (p.1, enumFrom 0 (List.replicate p.2 ()))), p.1 ∈ quadEnts := by decide +kernel
  exact hk _ hm

theorem quad_sub (E' E : Dim × Nat) (h : frame.sub .quad E' E) : E' ∈ subsOf quadSubs E.1 E.2 := by
  have h' : subQ E' E = true := h
  obtain ⟨D', k'⟩ := E'
  obtain ⟨D, k⟩ := E
  unfold subQ at h'
  split at h'
  · rename_i t' k'' t k''' h1 h2
    cases h1
    cases h2
    split at h'
    · rename_i X' X h3 h4
      have hall : ∀ p ∈ quadEnts, ∀ q ∈ quadEnts, subQ (.int p.1, p.2) (.int q.1, q.2) = true →
          ((Dim.int p.1, p.2) : Dim × Nat) ∈ subsOf quadSubs (.int q.1) q.2 := by decide +kernel
      exact hall _ (flat_mem h3) _ (flat_mem h4) h
    · cases h'
  · cases h'

theorem cube_two : ∀ {p : Elem}, p.cell = .ok (.prod two) → ∀ c, p.cell = .ok c → IsCube c := by
  intro p hp c hc
  rw [hp] at hc
  cases hc
  exact ⟨Nat.le_refl 1, Nat.le_refl 1, trivial⟩

theorem good_q1 : Good q1 := ⟨⟨good_cg1, good_cg1, trivial⟩, cube_two rfl⟩

theorem good_rtcf1 : Good rtcf1 :=
  ⟨⟨⟨good_cg1, good_dg0, trivial⟩, ⟨good_dg0, good_cg1, trivial⟩, trivial⟩, cube_two rfl⟩

theorem good_rtce1 : Good rtce1 :=
  ⟨⟨⟨good_dg0, good_cg1, trivial⟩, ⟨good_cg1, good_dg0, trivial⟩, trivial⟩, cube_two rfl⟩

/-- Two functions of `Q1` with the same coefficients at the ends of an edge agree along the edge. -/
example (u v : Nat → ℚ) (h0 : u 0 = v 0) (h1 : u 1 = v 1) (s : ℚ) :
    combination vals q1 u [0, 0] (.int 1, 0) [s] [] = combination vals q1 v [0, 0] (.int 1, 0) [s] [] := by
  have hcl : closureDofs (fun l => l.dofs) (fun _ => quadSubs) q1 = .ok
      [(.int 0, [(0, [0]), (1, [1]), (2, [2]), (3, [3])]),
       (.int 1, [(0, [0, 1]), (1, [2, 3]), (2, [0, 2]), (3, [1, 3])]), (.int 2, [(0, [0, 1, 2, 3])])] := by
    decide +kernel
  exact C83_agree vals frame .h1 (fun l => l.dofs) (fun _ => quadSubs) q1 .quad conforms_q1 good_q1 rfl quad_ok
    (fun l h => rfl) quad_sub _ hcl (.int 1, 0) (by decide +kernel) ⟨_, _, rfl, rfl⟩ u v
    (by
      intro k hk
      have : k ∈ [0, 1] := hk
      simp only [List.mem_cons, List.not_mem_nil, or_false] at this
      rcases this with rfl | rfl
      · exact h0
      · exact h1) _ ⟨[s], [], rfl, .nil, rfl⟩

/-- Two functions of `RTCF1` with the same coefficient on a facet have the same normal component there. -/
example (u v : Nat → ℚ) (h0 : u 0 = v 0) (s : ℚ) :
    combination vals rtcf1 u [0, 0] (.int 1, 0) [s] [0] = combination vals rtcf1 v [0, 0] (.int 1, 0) [s] [0] := by
  have hcl : closureDofs (fun l => l.dofs) (fun _ => quadSubs) rtcf1 = .ok
      [(.int 0, [(0, []), (1, []), (2, []), (3, [])]),
       (.int 1, [(0, [0]), (1, [1]), (2, [2]), (3, [3])]), (.int 2, [(0, [0, 1, 2, 3])])] := by
    decide +kernel
  have h := C83_agree vals frame .hdiv (fun l => l.dofs) (fun _ => quadSubs) rtcf1 .quad conforms_rtcf1 good_rtcf1
    rfl quad_ok (fun l h => rfl) quad_sub _ hcl (.int 1, 0) (by decide +kernel) ⟨_, _, rfl, rfl⟩ u v
    (by
      intro k hk
      have : k ∈ [0] := hk
      simp only [List.mem_singleton] at this
      rw [this, h0]) _
    ⟨[s], [1, 0], rfl, ⟨1, 0, (.tup [.int 0, .int 1], 0), rfl, by decide +kernel, (.int 0, 0), (.int 1, 0), [1], [0],
      by decide +kernel, rfl, rfl, rfl, .inl ⟨⟨by decide, rfl⟩, rfl, by simp⟩⟩, rfl⟩
  simpa [inner, Cell.spatialDim, List.replicate] using h

/-- The tangential component on that facet is not determined: the function of the second part that is one in the
first coordinate direction along edge 2 does not vanish on edge 0. -/
example : combination vals rtcf1 (fun k => if k = 2 then 1 else 0) [0, 0] (.int 1, 0) [0] [1] ≠
    combination vals rtcf1 (fun _ => 0) [0, 0] (.int 1, 0) [0] [1] := by
  decide +kernel

/-- Two functions of `RTCE1` with the same coefficient on a facet have the same tangential component there. -/
example (u v : Nat → ℚ) (h0 : u 2 = v 2) (s : ℚ) :
    combination vals rtce1 u [0, 0] (.int 1, 0) [s] [1] = combination vals rtce1 v [0, 0] (.int 1, 0) [s] [1] := by
  have hcl : closureDofs (fun l => l.dofs) (fun _ => quadSubs) rtce1 = .ok
      [(.int 0, [(0, []), (1, []), (2, []), (3, [])]),
       (.int 1, [(0, [2]), (1, [3]), (2, [0]), (3, [1])]), (.int 2, [(0, [0, 1, 2, 3])])] := by
    decide +kernel
  have h := C83_agree vals frame .hcurl (fun l => l.dofs) (fun _ => quadSubs) rtce1 .quad conforms_rtce1 good_rtce1
    rfl quad_ok (fun l h => rfl) quad_sub _ hcl (.int 1, 0) (by decide +kernel) ⟨_, _, rfl, rfl⟩ u v
    (by
      intro k hk
      have : k ∈ [2] := hk
      simp only [List.mem_singleton] at this
      rw [this, h0]) _
    ⟨[s], [0, 1], rfl, ⟨1, 0, (.tup [.int 0, .int 1], 0), rfl, by decide +kernel, (.int 0, 0), (.int 1, 0), [0], [1],
      by decide +kernel, rfl, rfl, rfl, .inr (by simp), .inl ⟨rfl, rfl⟩⟩, rfl⟩
  simpa [inner, Cell.spatialDim, List.replicate] using h

/-- The discontinuous variant of linear Lagrange on the interval is not conforming. -/
example : ¬ LocalTraces vals frame .h1 (.discontinuous (.leaf cg1)) :=
  C83_discontinuous vals frame .h1 (.leaf cg1) (.simplex 1) rfl (.int 0, 0) (by decide)
    (by show ¬ subI _ _ = true; decide) 0 (by decide) _ ⟨[], [], rfl, .nil, rfl⟩ (by decide +kernel)

end TraceEx

/-! ### Example: the lowest order Raviart-Thomas element on the triangle, extruded -/

namespace TracePrism

open TraceEx (subI tangI normI)

/-- The triangle and the interval. -/
def two : List Cell := [.simplex 2, .simplex 1]

/-- Vertices on the edges of the triangle; an edge is opposite the vertex of its number. -/
def subT (E' E : Dim × Nat) : Bool := decide (E' = E) || decide (E = (.int 2, 0)) ||
  (decide (E'.1 = .int 0) && decide (E.1 = .int 1) && decide (E'.2 ≠ E.2))

/-- Sub-entities of the prism. -/
def subP (E' E : Dim × Nat) : Bool := match factorEntity two (some E'), factorEntity two (some E) with
  | .ok [a', b'], .ok [a, b] => subT a' a && subI b' b
  | _, _ => false

/-- Normals of the edges of the triangle. -/
def normT (E : Dim × Nat) (n : List ℚ) : Prop := ∃ r, (E = (.int 1, 0) ∧ n = [r, r]) ∨
  (E = (.int 1, 1) ∧ n = [r, 0]) ∨ (E = (.int 1, 2) ∧ n = [0, r])

/-- Tangents of the triangle and its edges. -/
def tangT (E : Dim × Nat) (t : List ℚ) : Prop := ∃ t0 t1, t = [t0, t1] ∧ (E = (.int 2, 0) ∨ normT E [t1, -t0])

/-- Tangents on the prism. -/
def tangP (E : Dim × Nat) (t : List ℚ) : Prop := ∃ Ea Eb ta tb, factorEntity two (some E) = .ok [Ea, Eb] ∧
  t = ta ++ tb ∧ ta.length = 2 ∧ tb.length = 1 ∧ (tangT Ea ta ∨ ∀ y ∈ ta, y = 0) ∧ (tangI Eb tb ∨ ∀ y ∈ tb, y = 0)

/-- Normals on the prism. -/
def normP (E : Dim × Nat) (n : List ℚ) : Prop := ∃ Ea Eb na nb, factorEntity two (some E) = .ok [Ea, Eb] ∧
  n = na ++ nb ∧ na.length = 2 ∧ nb.length = 1 ∧
    ((normT Ea na ∧ Eb = (.int 1, 0) ∧ ∀ y ∈ nb, y = 0) ∨ (normI Eb nb ∧ Ea = (.int 2, 0) ∧ ∀ y ∈ na, y = 0))

/-- The geometry of the interval, the triangle and the prism. -/
def frame : Frame ℚ where
  sub c E' E := match c with
    | .simplex 1 => subI E' E = true
    | .simplex 2 => subT E' E = true
    | .prod _ => subP E' E = true
    | _ => False
  tang c E t := match c with
    | .simplex 1 => tangI E t
    | .simplex 2 => tangT E t
    | .prod _ => tangP E t
    | _ => False
  norm c E n := match c with
    | .simplex 1 => normI E n
    | .simplex 2 => normT E n
    | .prod _ => normP E n
    | _ => False

theorem extruded : frame.Extruded (.simplex 2) (.simplex 1) where
  product := by
    intro E' E Es' Es h1 h2 h
    have hl' := factorEntity_length h1
    have hl := factorEntity_length h2
    obtain ⟨a', b', rfl⟩ := List.length_eq_two.1 hl'
    obtain ⟨a, b, rfl⟩ := List.length_eq_two.1 hl
    have ha : subT a' a = true := h (.simplex 2, a', a) (by simp)
    have hb : subI b' b = true := h (.simplex 1, b', b) (by simp)
    show subP E' E = true
    simp only [subP, two, h1, h2, ha, hb, Bool.and_self]
  wholeA E _ := by simp [frame, subT, Cell.dimension]
  wholeB E _ := by simp [frame, subI, Cell.dimension]
  tang E Ea Eb t h ht := by
    obtain ⟨Ea', Eb', ta, tb, h1, h2, h3, h4, h5, h6⟩ := ht
    rw [show two = [.simplex 2, .simplex 1] from rfl, h] at h1
    simp only [Except.ok.injEq, List.cons.injEq, and_true] at h1
    obtain ⟨rfl, rfl⟩ := h1
    exact ⟨ta, tb, h2, h3, h4, h5, h6⟩
  norm E Ea Eb t h ht := by
    obtain ⟨Ea', Eb', ta, tb, h1, h2, h3, h4, h5⟩ := ht
    rw [show two = [.simplex 2, .simplex 1] from rfl, h] at h1
    simp only [Except.ok.injEq, List.cons.injEq, and_true] at h1
    obtain ⟨rfl, rfl⟩ := h1
    exact ⟨ta, tb, h2, h3, h4, h5⟩
  lineA h := absurd h (by decide)
  lineB _ E t h := h.1
  turnNorm _ E n0 n1 h := ⟨-n1, n0, rfl, .inr (by rw [neg_neg]; exact h)⟩
  turnTang _ E t0 t1 h := by
    obtain ⟨a, b, h1, h2⟩ := h
    simp only [List.cons.injEq, and_true] at h1
    obtain ⟨rfl, rfl⟩ := h1
    exact h2

/-- The lowest order Raviart-Thomas element on the triangle (mapping `contravariant piola`) and, turned, the
lowest order Nédélec element (mapping `covariant piola`). -/
def edge (m : Mapping) (id : Nat) : Leaf where
  id := id
  kind := .fiat
  cell := .simplex 2
  formdegree := some 1
  valueShape := [2]
  mapping := some m
  degree := 1
  fns := [0, 1, 2]
  dofs := [(.int 0, [(0, []), (1, []), (2, [])]), (.int 1, [(0, [0]), (1, [1]), (2, [2])]), (.int 2, [(0, [])])]

theorem good_edge (m : Mapping) (id : Nat) : GoodLeaf (edge m id) := by
  have h1 : ([.int 0, .int 1, .int 2] : List Dim).Perm ((Cell.simplex 2).topology.map Prod.fst) := by decide
  have h2 : Partition (edge .affine 0).dofs 3 := by decide
  refine ⟨⟨h1, ?_⟩, h2⟩
  simp only [edge, show (Cell.simplex 2).topology = [(.int 0, 3), (.int 1, 3), (.int 2, 1)] by decide]
  simp only [List.mem_cons, List.not_mem_nil, or_false, forall_eq_or_imp, forall_eq]
  exact ⟨⟨_, .inl rfl, by decide⟩, ⟨_, .inr (.inl rfl), by decide⟩, ⟨_, .inr (.inr rfl), by decide⟩⟩

/-- The point of the triangle for a point of one of its entities. -/
def toTri : Dim × Nat → List ℚ → ℚ × ℚ
  | (.int 1, 0), x => (1 - x.headD 0, x.headD 0)
  | (.int 1, 1), x => (0, x.headD 0)
  | (.int 1, 2), x => (x.headD 0, 0)
  | (.int 0, 1), _ => (1, 0)
  | (.int 0, 2), _ => (0, 1)
  | (.int 0, 0), _ => (0, 0)
  | _, x => (x.headD 0, x.tail.headD 0)

/-- Values (no derivatives) of the functions `x - v`, `v` the vertices of the triangle (leaf 0), of these turned
by a right angle (leaf 3), and on the interval as in `TraceEx` (leaf 2: constants; others: linear). -/
def vals : LeafVals ℚ where
  leaf l α ent x i z :=
    let p := toTri ent x
    let q := toTri (.int 0, i.headD 0) []
    if l.id = 0 ∧ l.cell = .simplex 2 then (if z.headD 0 = 0 then p.1 - q.1 else p.2 - q.2)
    else if l.id = 3 then (if z.headD 0 = 0 then -(p.2 - q.2) else p.1 - q.1)
    else TraceEx.vals.leaf l α ent x i z
  quad _ _ _ _ _ := 0

theorem attached_edge (m : Mapping) (id : Nat) : attached vals (.leaf (edge m id)) =
    [((.int 1, 0), fnOf vals (.leaf (edge m id)) 0), ((.int 1, 1), fnOf vals (.leaf (edge m id)) 1),
      ((.int 1, 2), fnOf vals (.leaf (edge m id)) 2)] := by
  rw [attached_eq (c := .simplex 2) (d := (edge m id).dofs) rfl rfl]
  have : entities (.simplex 2) = [(.int 0, 0), (.int 0, 1), (.int 0, 2), (.int 1, 0), (.int 1, 1), (.int 1, 2),
    (.int 2, 0)] := by decide
  rw [this]
  rfl

theorem local_rt : LocalTraces vals frame .hdiv (.leaf (edge .contravariantPiola 0)) := by
  intro c hc y hy E hE hs L hL
  cases hc
  rw [attached_edge] at hy
  obtain ⟨x, n, _, hn, rfl⟩ := hL
  obtain ⟨r, hn⟩ : normT E n := hn
  simp only [List.mem_cons, List.not_mem_nil, or_false] at hy
  rcases hy with rfl | rfl | rfl <;> rcases hn with ⟨rfl, rfl⟩ | ⟨rfl, rfl⟩ | ⟨rfl, rfl⟩ <;>
    first
    | exact absurd (by decide : subT _ _ = true) hs
    | (simp only [inner, fnOf, basisValue, vals, edge, Elem.indexShape, unravel, toTri]
       simp
       try ring)

theorem local_ned : LocalTraces vals frame .hcurl (.leaf (edge .covariantPiola 3)) := by
  intro c hc y hy E hE hs L hL
  cases hc
  rw [attached_edge] at hy
  obtain ⟨x, n, _, hn, rfl⟩ := hL
  obtain ⟨t0, t1, rfl, hn⟩ : tangT E n := hn
  rcases hn with rfl | ⟨r, hn⟩
  · exact absurd (by show subT _ _ = true; simp [subT]) hs
  simp only [List.mem_cons, List.not_mem_nil, or_false] at hy
  rcases hy with rfl | rfl | rfl <;> rcases hn with ⟨rfl, hn⟩ | ⟨rfl, hn⟩ | ⟨rfl, hn⟩ <;>
    first
    | exact absurd (by decide : subT _ _ = true) hs
    | (simp only [List.cons.injEq, and_true, neg_eq_iff_eq_neg] at hn
       obtain ⟨rfl, rfl⟩ := hn
       simp only [inner, fnOf, basisValue, vals, edge, Elem.indexShape, unravel, toTri]
       simp
       try ring)

/-- Raviart-Thomas on the triangle times constants, as H(div) element on the prism. -/
example : Conforms vals frame .hdiv
    (.hdiv (.tensorProduct [.leaf (edge .contravariantPiola 0), .leaf dg0])) := by
  refine .hdivContra rfl ?_ rfl rfl rfl rfl rfl (.leaf local_rt)
  intro ca cb h1 h2
  cases h1
  cases h2
  exact extruded

/-- Nédélec on the triangle times constants, as H(div) element on the prism. -/
example : Conforms vals frame .hdiv
    (.hdiv (.tensorProduct [.leaf (edge .covariantPiola 3), .leaf dg0])) := by
  refine .hdivCo rfl ?_ rfl rfl rfl rfl rfl (.leaf local_ned)
  intro ca cb h1 h2
  cases h1
  cases h2
  exact extruded

theorem local_cg1 : LocalTraces vals frame .h1 (.leaf cg1) := by
  intro c hc y hy E hE hs L hL
  cases hc
  obtain ⟨x, z, hx, hz, rfl⟩ := hL
  have hat : attached vals (.leaf cg1) = attached TraceEx.vals (.leaf cg1) := rfl
  rw [hat] at hy
  exact TraceEx.local_cg1 (.simplex 1) rfl y hy E hE hs _ ⟨x, z, hx, hz, rfl⟩

/-- Nédélec and Raviart-Thomas on the triangle times linears, as H(curl) elements on the prism. -/
example : Conforms vals frame .hcurl
      (.hcurl (.tensorProduct [.leaf (edge .covariantPiola 3), .leaf cg1])) ∧
    Conforms vals frame .hcurl
      (.hcurl (.tensorProduct [.leaf (edge .contravariantPiola 0), .leaf cg1])) := by
  constructor
  · refine .hcurlCo rfl ?_ rfl rfl rfl (.leaf local_ned) (.leaf local_cg1)
    intro ca cb h1 h2
    cases h1
    cases h2
    exact ⟨extruded, rfl⟩
  · refine .hcurlContra rfl ?_ rfl rfl rfl (.leaf local_rt) (.leaf local_cg1)
    intro ca cb h1 h2
    cases h1
    cases h2
    exact ⟨extruded, rfl⟩

end TracePrism

end FInAT.Props
