import Verif.Lemmas.FormDegree

/-!
# C78: form degrees
-/

namespace FInAT.Props

open FInAT Spec Elem

/-- **C78.** An element of form degree `k` has no degrees of freedom on entities of dimension less than `k` (no vertex
values for `k = 1`, none outside the interior for `k` the dimension of the cell), and `k` is at most the dimension of the
cell. Missing for the full claim: sums of elements with different form degrees, where it is false
(`C78_mixed_sum`). -/
theorem C78_dofs_partial (e : Elem) (c : Cell) (k : Nat) (hg : Good e) (hf : Forms e) (hc : e.cell = .ok c)
    (hk : e.formdegree = .ok (some k)) :
    k ≤ c.spatialDim ∧ ∃ d, e.entityDofs = .ok d ∧ NoneBelow d c k := by
  obtain ⟨d, hd, _⟩ := C01_entity_dofs_partition e c hg hc
  have := forms_below e c k d hg hf hc hk hd
  exact ⟨this.1, d, hd, this.2⟩

/-- **C78**: an element whose form degree is the dimension of its cell has all degrees of freedom in the interior. -/
theorem C78_interior (e : Elem) (c : Cell) (hg : Good e) (hf : Forms e) (hc : e.cell = .ok c)
    (hk : e.formdegree = .ok (some c.spatialDim)) :
    ∃ d, e.entityDofs = .ok d ∧ ∀ dim n, (dim, n) ∈ c.topology → ∀ i < n, dim ≠ c.dimension → dofsOn d dim i = [] := by
  obtain ⟨_, d, hd, h⟩ := C78_dofs_partial e c _ hg hf hc hk
  refine ⟨d, hd, fun dim n hdim i hi hne => h dim n hdim i hi ?_⟩
  have := Cell.total_le c dim n hdim
  exact lt_of_le_of_ne this.1 fun heq => hne (this.2 heq)

/-- **C78**: the form degree of an H(div) wrapper (dimension minus one) is the form degree of the element it
accepted. -/
theorem C78_hdiv (w e : Elem) (h : mkHDiv w = .ok e) : e.formdegree = w.formdegree := (mkHDiv_formdegree h).2

/-- **C78**: the form degree of an H(curl) wrapper (one) is the form degree of the element it accepted. -/
theorem C78_hcurl (w e : Elem) (h : mkHCurl w = .ok e) : e.formdegree = w.formdegree := (mkHCurl_formdegree h).2

/-- **C78** is false of sums with different form degrees: CG1 + DG0 on the interval has form degree one and degrees of
freedom on the vertices. -/
theorem C78_mixed_sum : ∃ (e : Elem) (d : EntityDofs), mkEnriched [.leaf cg1, .leaf dg0] = e ∧ Good e ∧
    e.cell = .ok (.simplex 1) ∧ e.formdegree = .ok (some 1) ∧ e.entityDofs = .ok d ∧
    dofsOn d (.int 0) 0 = [0] := by
  refine ⟨_, _, rfl, ⟨good_cg1, good_dg0, trivial⟩, by decide, by decide, rfl, by decide⟩

/-! ### Examples -/

namespace FormExample

theorem form_cg1 : LeafForm cg1 := by
  intro k hk
  cases hk
  exact ⟨Nat.zero_le _, fun _ _ _ _ _ h => absurd h (Nat.not_lt_zero _)⟩

theorem form_dg0 : LeafForm dg0 := by
  intro k hk
  cases hk
  refine ⟨by decide, ?_⟩
  have hq : dg0.cell.topology = [(.int 0, 2), (.int 1, 1)] := by decide
  intro dim n hd i hi hlt
  rw [hq] at hd
  simp only [List.mem_cons, Prod.mk.injEq, List.not_mem_nil, or_false] at hd
  rcases hd with ⟨rfl, rfl⟩ | ⟨rfl, rfl⟩
  · match i, hi with
    | 0, _ => decide
    | 1, _ => decide
  · exact absurd hlt (by decide)

/-- Raviart-Thomas on a product of intervals. -/
def rt : Elem := .enriched [.hdiv (.tensorProduct [.leaf cg1, .leaf dg0]), .hdiv (.tensorProduct [.leaf dg0, .leaf cg1])]

/-- The hypotheses are met: form degree one, in two dimensions. -/
example : Good rt ∧ Forms rt ∧ rt.cell = .ok (.prod [.simplex 1, .simplex 1]) ∧ rt.formdegree = .ok (some 1) := by
  refine ⟨⟨⟨good_cg1, good_dg0, trivial⟩, ⟨good_dg0, good_cg1, trivial⟩, trivial⟩, ⟨⟨⟨⟨form_cg1, form_dg0, trivial⟩, ?_⟩,
    ⟨⟨form_dg0, form_cg1, trivial⟩, ?_⟩, trivial⟩, some 1, ?_⟩, by rfl, by rfl⟩
  · rfl
  · rfl
  · intro e he
    rcases List.mem_cons.1 he with rfl | he
    · rfl
    · rcases List.mem_cons.1 he with rfl | he
      · rfl
      · cases he

/-- A broken sum is in the interior. -/
example : Forms (.discontinuous (.leaf cg1)) ∧ (Elem.discontinuous (.leaf cg1)).formdegree = .ok (some 1) :=
  ⟨form_cg1, rfl⟩

end FormExample

end FInAT.Props
