import Verif.Lemmas.Ufl.Product

/-!
# C59: cube families on products of cells
-/

namespace FInAT.Props

open FInAT.Ufl UElem

/-- **C59** (Q). On every product cell, however nested, the continuous family of degree
`r >= 1`, under any of its names, is the product of the continuous elements of degree `r` on
the factors. -/
theorem C59_continuous {name : String} (hn : name = "CG" ∨ name = "Lagrange" ∨ name = "Q")
    {r : Int} (hr : 1 ≤ r) (k : Option Int) (q v : Option String) {cs : List UCell}
    (hc : (UCell.tensor cs).Leaves fun _ => true) :
    newFe name (.int r) k q v (some (.tensor cs)) =
      .ok (scalarTree continuousFamily r v (.tensor cs)) := by
  have hsame : ∀ c, dqFamily "CG" "CG" c = "CG" := by
    intro c; cases c <;> simp [dqFamily]
  have hl := hc
  rw [UCell.Leaves] at hl
  rw [newFe, q_on_product hn hr, trees_of (f := continuousFamily) (p := fun _ => true)
    (fun n _ => by rw [hsame]; exact cg_named hr none v n)
    (q_on_product (.inl rfl) hr none none v) cs hl.2]
  exact product_of_trees _ _ _ hl.1

/-- **C59** (DQ). The discontinuous family of degree `r >= 0` on every product of simplices
and cubes, however nested. -/
theorem C59_discontinuous_partial {name : String} (hn : name = "DG" ∨ name = "DQ")
    {r : Int} (hr : 0 ≤ r) (k : Option Int) (q v : Option String) {cs : List UCell}
    (hc : (UCell.tensor cs).Leaves CellName.isSimplexOrCube) :
    newFe name (.int r) k q v (some (.tensor cs)) =
      .ok (scalarTree discontinuousFamily r v (.tensor cs)) := by
  have hl := hc
  rw [UCell.Leaves] at hl
  rw [newFe, dq_on_product hn hr, trees_of (f := discontinuousFamily) (p := CellName.isSimplexOrCube)
    (fun n hp => by
      rw [dqFamily_named hp]
      cases hcube : n.isCube with
      | true => exact dq_named hr none v n hcube
      | false => exact dg_named hr none v n hcube)
    (dq_on_product (.inr rfl) hr none none v) cs hl.2]
  exact product_of_trees _ _ _ hl.1

/-- **C59** (DQ L2). The same for densities. -/
theorem C59_density_partial {name : String} (hn : name = "DG L2" ∨ name = "DQ L2")
    {r : Int} (hr : 0 ≤ r) (k : Option Int) (q v : Option String) {cs : List UCell}
    (hc : (UCell.tensor cs).Leaves CellName.isSimplexOrCube) :
    newFe name (.int r) k q v (some (.tensor cs)) =
      .ok (scalarTree densityFamily r v (.tensor cs)) := by
  have hl := hc
  rw [UCell.Leaves] at hl
  rw [newFe, dql2_on_product hn hr, trees_of (f := densityFamily) (p := CellName.isSimplexOrCube)
    (fun n hp => by
      rw [dqFamily_named hp]
      cases hcube : n.isCube with
      | true => exact dql2_named hr none v n hcube
      | false => exact dgl2_named hr none v n hcube)
    (dql2_on_product (.inr rfl) hr none none v) cs hl.2]
  exact product_of_trees _ _ _ hl.1

/-- **C59** (RTCF). -/
theorem C59_rtcf {r : Int} (hr : 1 ≤ r) (k : Option Int) (q v : Option String) :
    newFe "RTCF" (.int r) k q v (some (.tensor [.named .interval, .named .interval])) =
      .ok (rtcf r v) := by
  obtain ⟨d, hd, hf, ho⟩ := vector_desc (p := ("RTCF", "RTCF", 1, .hDiv, "contravariant Piola", 1))
    (by simp) hr k [.named .interval, .named .interval]
  rw [newFe, newFeOn, hd]
  simp only [hf, ho, if_pos]
  rw [expandRT]
  simp only [needCells, Order.pred, bind, Except.bind, cg_line hr,
    dg_line (show 0 ≤ r - 1 by omega), and_self, if_pos]
  rw [two_product (da := r) (db := r - 1) (sa := []) (sb := []) rfl rfl rfl rfl (by simp),
    two_product (da := r - 1) (db := r) (sa := []) (sb := []) rfl rfl rfl rfl (by simp)]
  simp only [hdiv_two]
  exact sum_two (r := r) rfl rfl (by simp) (by simp) (by omega) (by omega)

/-- **C59** (RTCE). -/
theorem C59_rtce {r : Int} (hr : 1 ≤ r) (k : Option Int) (q v : Option String) :
    newFe "RTCE" (.int r) k q v (some (.tensor [.named .interval, .named .interval])) =
      .ok (rtce r v) := by
  obtain ⟨d, hd, hf, ho⟩ := vector_desc (p := ("RTCE", "RTCE", 1, .hCurl, "covariant Piola", 1))
    (by simp) hr k [.named .interval, .named .interval]
  rw [newFe, newFeOn, hd]
  simp only [hf, ho]
  rw [if_neg (by decide), if_pos trivial, expandRT]
  simp only [needCells, Order.pred, bind, Except.bind, cg_line hr,
    dg_line (show 0 ≤ r - 1 by omega), and_self, if_pos]
  rw [two_product (da := r) (db := r - 1) (sa := []) (sb := []) rfl rfl rfl rfl (by simp),
    two_product (da := r - 1) (db := r) (sa := []) (sb := []) rfl rfl rfl rfl (by simp)]
  simp only [hcurl_two]
  exact sum_two (r := r) rfl rfl (by simp) (by simp) (by omega) (by omega)

/-- **C59** (NCF). -/
theorem C59_ncf {r : Int} (hr : 1 ≤ r) (k : Option Int) (q v : Option String) :
    newFe "NCF" (.int r) k q v (some (.tensor [.named .quadrilateral, .named .interval])) =
      .ok (ncf r v) := by
  obtain ⟨d, hd, hf, ho⟩ := vector_desc (p := ("NCF", "NCF", 1, .hDiv, "contravariant Piola", 1))
    (by simp) hr k [.named .quadrilateral, .named .interval]
  rw [newFe, newFeOn, hd]
  simp only [hf, ho]
  rw [if_neg (by decide), if_neg (by decide), if_pos trivial, expandNC]
  simp only [needCells, Order.pred, bind, Except.bind, cg_line hr, rtcf_quad hr,
    dq_quad (show 0 ≤ r - 1 by omega),
    dg_line (show 0 ≤ r - 1 by omega), and_self, if_pos, Bool.false_eq_true, if_false]
  rw [two_product (da := r) (db := r - 1) (sa := [2]) (sb := []) rfl rfl rfl rfl (by simp),
    two_product (da := r - 1) (db := r) (sa := []) (sb := []) rfl rfl rfl rfl (by simp)]
  simp only [hdiv_two]
  exact sum_two (r := r) rfl rfl (by simp) (by simp) (by omega) (by omega)

/-- **C59** (NCE). -/
theorem C59_nce {r : Int} (hr : 1 ≤ r) (k : Option Int) (q v : Option String) :
    newFe "NCE" (.int r) k q v (some (.tensor [.named .quadrilateral, .named .interval])) =
      .ok (nce r v) := by
  obtain ⟨d, hd, hf, ho⟩ := vector_desc (p := ("NCE", "NCE", 1, .hCurl, "covariant Piola", 1))
    (by simp) hr k [.named .quadrilateral, .named .interval]
  rw [newFe, newFeOn, hd]
  simp only [hf, ho]
  rw [if_neg (by decide), if_neg (by decide), if_neg (by decide), if_pos trivial, expandNC]
  simp only [needCells, Order.pred, bind, Except.bind, cg_line hr, rtce_quad hr, q_quad hr,
    dg_line (show 0 ≤ r - 1 by omega), and_self, if_pos, Bool.false_eq_true, if_false]
  rw [two_product (da := r) (db := r - 1) (sa := []) (sb := []) rfl rfl rfl rfl (by simp),
    two_product (da := r) (db := r) (sa := [2]) (sb := []) rfl rfl rfl rfl (by simp)]
  simp only [hcurl_two]
  exact sum_two (r := r) rfl rfl (by simp) (by simp) (by omega) (by omega)

/-- **C59** (other cells). The vector families exist on no other product cells. -/
theorem C59_other_cells {name : String} {r : Int} (hr : 1 ≤ r) (k : Option Int)
    (q v : Option String) {cs : List UCell}
    (hn : (name = "RTCF" ∨ name = "RTCE") ∧ cs ≠ [.named .interval, .named .interval] ∨
      (name = "NCF" ∨ name = "NCE") ∧ cs ≠ [.named .quadrilateral, .named .interval]) :
    newFe name (.int r) k q v (some (.tensor cs)) = .error .valueError := by
  have hneed : ∀ a b, cs ≠ [.named a, .named b] → needCells cs a b = .error .valueError := by
    intro a b h
    unfold needCells
    split
    · next x y =>
      rw [if_neg]
      rintro ⟨rfl, rfl⟩
      exact h rfl
    · rfl
  have hRT : ∀ wrap o v, cs ≠ [.named .interval, .named .interval] →
      expandRT wrap cs o v = .error .valueError := by
    intro wrap o v h
    unfold expandRT
    rw [hneed _ _ h]; rfl
  have hNC : ∀ wrap f1 f2 l1 l2 o v, cs ≠ [.named .quadrilateral, .named .interval] →
      expandNC wrap f1 f2 l1 l2 cs o v = .error .valueError := by
    intro wrap f1 f2 l1 l2 o v h
    unfold expandNC
    rw [hneed _ _ h]; rfl
  rw [newFe, newFeOn]
  rcases hn with ⟨rfl | rfl, h⟩ | ⟨rfl | rfl, h⟩
  · obtain ⟨d, hd, hf, ho⟩ := vector_desc
      (p := ("RTCF", "RTCF", 1, .hDiv, "contravariant Piola", 1)) (by simp) hr k cs
    rw [hd]
    simp only [hf]
    rw [if_pos trivial, hRT _ _ _ h]
  · obtain ⟨d, hd, hf, ho⟩ := vector_desc
      (p := ("RTCE", "RTCE", 1, .hCurl, "covariant Piola", 1)) (by simp) hr k cs
    rw [hd]
    simp only [hf]
    rw [if_neg (by decide), if_pos trivial, hRT _ _ _ h]
  · obtain ⟨d, hd, hf, ho⟩ := vector_desc
      (p := ("NCF", "NCF", 1, .hDiv, "contravariant Piola", 1)) (by simp) hr k cs
    rw [hd]
    simp only [hf]
    rw [if_neg (by decide), if_neg (by decide), if_pos trivial, hNC _ _ _ _ _ _ _ h]
  · obtain ⟨d, hd, hf, ho⟩ := vector_desc
      (p := ("NCE", "NCE", 1, .hCurl, "covariant Piola", 1)) (by simp) hr k cs
    rw [hd]
    simp only [hf]
    rw [if_neg (by decide), if_neg (by decide), if_neg (by decide), if_pos trivial,
      hNC _ _ _ _ _ _ _ h]

/-! ## Concrete cases -/

namespace UflProductCases

/-- A prism, as triangle times interval, times a quadrilateral. -/
def nested : List UCell := [.tensor [.named .triangle, .named .interval], .named .quadrilateral]

theorem nested_leaves (p : CellName → Bool) (h1 : p .triangle = true) (h2 : p .interval = true)
    (h3 : p .quadrilateral = true) : (UCell.tensor nested).Leaves p := by
  simp [nested, UCell.Leaves, UCell.Leavess, h1, h2, h3]

example := C59_continuous (.inl rfl) (r := 2) (by decide) none none none
  (nested_leaves (fun _ => true) rfl rfl rfl)
example := C59_discontinuous_partial (.inl rfl) (r := 0) (by decide) none none none
  (nested_leaves CellName.isSimplexOrCube rfl rfl rfl)
example := C59_density_partial (.inr rfl) (r := 3) (by decide) none none (some "spectral")
  (nested_leaves CellName.isSimplexOrCube rfl rfl rfl)

/-- The factors of the discontinuous element on the nested cell. -/
example : scalarTrees discontinuousFamily 1 none nested =
    [.product ⟨"TensorProductElement", some (.tensor [.named .triangle, .named .interval]),
        .tuple [.int 1, .int 1], none, []⟩
      [plain "Discontinuous Lagrange" .triangle 1 [] .l2 "identity" none,
       plain "Discontinuous Lagrange" .interval 1 [] .l2 "identity" none],
     plain "DQ" .quadrilateral 1 [] .l2 "identity" none] := by
  simp [nested, scalarTrees, scalarTree, discontinuousFamily, degreeTree, degreeTrees,
    CellName.isCube]

example := C59_rtcf (r := 1) (by decide) none none none
example := C59_nce (r := 4) (by decide) none none (some "spectral")
example := C59_other_cells (name := "NCF") (r := 1) (by decide) none none none
  (cs := [.named .interval, .named .interval]) (.inr ⟨.inl rfl, by simp⟩)

end UflProductCases

end FInAT.Props
