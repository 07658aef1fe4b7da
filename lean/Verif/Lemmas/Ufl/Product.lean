import Verif.Spec.UflProduct
import Verif.Lemmas.Ufl.Degree

/-!
# Lemmas on cube families on products of cells
-/

namespace FInAT.Ufl

open UElem

/-- The description of a registered name, full or short. -/
theorem canonical_of_name {name : String} {e : Entry} {cell : Option UCell} {order : Order}
    {k : Option Int} {f : String} {shape : List Nat}
    (hget : uflElements.get? name = some e) (ha : aliases.get? name = none)
    (hn : name ∉ ["P", "S", "P L2", "S L2"])
    (hcube : cubeFamily cell e.family order = .ok f)
    (hcell : cellAllowed cell e.cellnames = true)
    (hord : orderAllowed order e.kmin e.kmax = true)
    (hshape : shapeOf (tdimOf cell) e.valueRank = .ok shape) :
    canonicalElementDescription name cell order k = .ok
      ⟨f, e.shortName, order, shape, e.sobolev, e.mapping,
        embeddedOf (tdimOf cell) f order⟩ := by
  simp only [List.mem_cons, List.not_mem_nil, or_false, not_or] at hn
  obtain ⟨h1, h2, h3, h4⟩ := hn
  have hc : catchFeec (tdimOf cell) k (name, order) = .ok (name, order) := by
    unfold catchFeec
    have h1 : (k.isSome && (name == "P" || name == "S")) = false := by simp [h1, h2]
    have h2 : (k.isSome && (name == "P L2" || name == "S L2")) = false := by simp [h3, h4]
    simp only [h1, h2, bind, Except.bind, Bool.false_eq_true, if_false]
  unfold canonicalElementDescription describe
  simp only [hc, bind, Except.bind]
  rw [resolve_of_not_alias (s := (name, order)) ha]
  simp only [hget, hcube, hcell, hord, hshape]
  simp

/-- The registered name, as a table of the names used below. -/
theorem names_used : ∀ p ∈ ([("CG", "Lagrange", 0, .h1, "identity", 1),
      ("Lagrange", "Lagrange", 0, .h1, "identity", 1),
      ("DG", "Discontinuous Lagrange", 0, .l2, "identity", 0),
      ("DG L2", "Discontinuous Lagrange L2", 0, .l2, "L2 Piola", 0),
      ("Q", "Q", 0, .h1, "identity", 1), ("DQ", "DQ", 0, .l2, "identity", 0),
      ("DQ L2", "DQ L2", 0, .l2, "L2 Piola", 0),
      ("RTCF", "RTCF", 1, .hDiv, "contravariant Piola", 1),
      ("RTCE", "RTCE", 1, .hCurl, "covariant Piola", 1),
      ("NCF", "NCF", 1, .hDiv, "contravariant Piola", 1),
      ("NCE", "NCE", 1, .hCurl, "covariant Piola", 1)] :
      List (String × String × Nat × Sobolev × String × Int)),
    (match uflElements.get? p.1 with
     | some e => e.family == p.2.1 && e.valueRank == p.2.2.1 && decide (e.sobolev = p.2.2.2.1) &&
        e.mapping == p.2.2.2.2.1 && decide (e.kmin = some p.2.2.2.2.2) && decide (e.kmax = none)
     | none => false) = true ∧ aliases.get? p.1 = none ∧ p.1 ∉ ["P", "S", "P L2", "S L2"] ∧
     (infixOf "Guzman-Neilan" p.2.1 || infixOf "Bernardi-Raugel" p.2.1) = false := by
  decide +kernel

/-- Where the names can be used. -/
theorem names_cells : ∀ n : CellName,
    (∀ name ∈ ["CG", "Lagrange", "DG", "DG L2"], ∀ e, uflElements.get? name = some e →
      cellAllowed (some (.named n)) e.cellnames = true) ∧
    (n.isCube = true ∨ n = .interval → ∀ name ∈ ["Q", "DQ", "DQ L2"], ∀ e,
      uflElements.get? name = some e → cellAllowed (some (.named n)) e.cellnames = true) ∧
    (n = .quadrilateral → ∀ name ∈ ["RTCF", "RTCE"], ∀ e,
      uflElements.get? name = some e → cellAllowed (some (.named n)) e.cellnames = true) := by
  have key : ∀ n ∈ [CellName.vertex, .interval, .triangle, .quadrilateral, .tetrahedron,
      .hexahedron, .prism, .pyramid, .pentatope, .tesseract],
      (["CG", "Lagrange", "DG", "DG L2"].all fun name => match uflElements.get? name with
        | some e => cellAllowed (some (.named n)) e.cellnames | none => false) = true ∧
      ((n.isCube = true ∨ n = .interval) → (["Q", "DQ", "DQ L2"].all fun name =>
        match uflElements.get? name with
        | some e => cellAllowed (some (.named n)) e.cellnames | none => false) = true) ∧
      (n = .quadrilateral → (["RTCF", "RTCE"].all fun name =>
        match uflElements.get? name with
        | some e => cellAllowed (some (.named n)) e.cellnames | none => false) = true) := by
    decide +kernel
  intro n
  obtain ⟨h1, h2, h3⟩ := key n (by cases n <;> decide)
  refine ⟨fun name hn e he => ?_, fun hc name hn e he => ?_, fun hc name hn e he => ?_⟩
  · have := List.all_eq_true.1 h1 name hn
    rw [he] at this; exact this
  · have := List.all_eq_true.1 (h2 hc) name hn
    rw [he] at this; exact this
  · have := List.all_eq_true.1 (h3 hc) name hn
    rw [he] at this; exact this

/-- The description of one of the names, given the family it stands for on the cell. -/
theorem desc_of {p : String × String × Nat × Sobolev × String × Int}
    (hp : p ∈ ([("CG", "Lagrange", 0, .h1, "identity", 1),
      ("Lagrange", "Lagrange", 0, .h1, "identity", 1),
      ("DG", "Discontinuous Lagrange", 0, .l2, "identity", 0),
      ("DG L2", "Discontinuous Lagrange L2", 0, .l2, "L2 Piola", 0),
      ("Q", "Q", 0, .h1, "identity", 1), ("DQ", "DQ", 0, .l2, "identity", 0),
      ("DQ L2", "DQ L2", 0, .l2, "L2 Piola", 0),
      ("RTCF", "RTCF", 1, .hDiv, "contravariant Piola", 1),
      ("RTCE", "RTCE", 1, .hCurl, "covariant Piola", 1),
      ("NCF", "NCF", 1, .hDiv, "contravariant Piola", 1),
      ("NCE", "NCE", 1, .hCurl, "covariant Piola", 1)] :
      List (String × String × Nat × Sobolev × String × Int)))
    {cell : Option UCell} {r : Int} (hr : p.2.2.2.2.2 ≤ r) (k : Option Int) {f : String}
    {shape : List Nat} (hcube : cubeFamily cell p.2.1 (.int r) = .ok f)
    (hemb : (infixOf "Guzman-Neilan" f || infixOf "Bernardi-Raugel" f) = false)
    (hcell : ∀ e, uflElements.get? p.1 = some e → cellAllowed cell e.cellnames = true)
    (hshape : shapeOf (tdimOf cell) p.2.2.1 = .ok shape) :
    ∃ short, canonicalElementDescription p.1 cell (.int r) k =
      .ok ⟨f, short, .int r, shape, p.2.2.2.1, p.2.2.2.2.1, .int r⟩ := by
  obtain ⟨h1, h2, h3, h4⟩ := names_used p hp
  cases hg : uflElements.get? p.1 with
  | none => rw [hg] at h1; cases h1
  | some e =>
    rw [hg] at h1
    simp only [Bool.and_eq_true, beq_iff_eq, decide_eq_true_eq] at h1
    obtain ⟨⟨⟨⟨⟨e1, e2⟩, e3⟩, e4⟩, e5⟩, e6⟩ := h1
    refine ⟨e.shortName, ?_⟩
    rw [canonical_of_name (e := e) hg h2 h3 (by rw [e1]; exact hcube) (hcell e hg)
      (by rw [e5, e6]; simpa [orderAllowed, Order.allGe] using hr) (by rw [e2]; exact hshape),
      e3, e4]
    simp [embeddedOf, hemb]

theorem cube_named {n : CellName} {family : String} {o : Order}
    (h : n.isCube = false) : cubeFamily (some (.named n)) family o = .ok family := by
  have : isCubeLike (some (.named n)) = false := by
    cases n <;> first | (cases h; done) | decide +kernel
  simp [cubeFamily, this]

theorem cubeLike_named {n : CellName} (h : n.isCube = true) :
    isCubeLike (some (.named n)) = true := by
  cases n <;> first | (cases h; done) | decide +kernel

theorem plain_of {name f m : String} {n : CellName} {r : Int} {k : Option Int} {sh : List Nat}
    {s : Sobolev} {short v : Option String}
    (h : canonicalElementDescription name (some (.named n)) (.int r) k =
      .ok ⟨f, short, .int r, sh, s, m, .int r⟩) :
    newFeOn name (.int r) k none v (.named n) = .ok (plain f n r sh s m v) := by
  rw [newFeOn, mkFe, h]; rfl

theorem scalarTrees_map_degree (f : Scalar) (r : Int) (v : Option String) :
    ∀ cs, (scalarTrees f r v cs).map UElem.degree = degreeTrees r cs
  | [] => by rw [scalarTrees, degreeTrees]; rfl
  | .named n :: cs => by
    rw [scalarTrees, degreeTrees, List.map_cons, scalarTrees_map_degree f r v cs, scalarTree,
      degreeTree]; rfl
  | .tensor ds :: cs => by
    rw [scalarTrees, degreeTrees, List.map_cons, scalarTrees_map_degree f r v cs, scalarTree]; rfl

theorem scalarTree_shape (f : Scalar) (r : Int) (v : Option String) (c : UCell) :
    (scalarTree f r v c).shape = .ok [] := by
  cases c with
  | named n => rw [scalarTree]; rfl
  | tensor cs => rw [scalarTree]; rfl

theorem scalarTrees_shape (f : Scalar) (r : Int) (v : Option String) :
    ∀ cs, ∃ n, shapes (scalarTrees f r v cs) = .ok (List.replicate n [])
  | [] => ⟨0, by rw [scalarTrees]; rfl⟩
  | c :: cs => by
    obtain ⟨n, hn⟩ := scalarTrees_shape f r v cs
    refine ⟨n + 1, ?_⟩
    rw [scalarTrees, shapes, scalarTree_shape, hn]
    rfl

theorem product_of_trees (f : Scalar) (r : Int) (v : Option String) {cs : List UCell}
    (h : cs ≠ []) : mkProduct (scalarTrees f r v cs) (some (.tensor cs)) =
      .ok (scalarTree f r v (.tensor cs)) := by
  obtain ⟨n, hn⟩ := scalarTrees_shape f r v cs
  have hfl : (List.replicate n ([] : List Nat)).flatten = [] := by simp
  rw [mkProduct]
  have hne : (scalarTrees f r v cs).isEmpty = false := by
    cases cs with
    | nil => exact absurd rfl h
    | cons c cs => rw [scalarTrees]; rfl
  simp only [hne, hn, bind, Except.bind]
  rw [hfl, scalarTrees_map_degree, scalarTree, degreeTree]
  rfl

mutual
theorem tree_of {simplex other : String} {f : Scalar} {r : Int} {v : Option String}
    {p : CellName → Bool}
    (hleaf : ∀ n, p n = true → newFeOn (dqFamily simplex other (.named n)) (.int r) none none v
      (.named n) = .ok (scalarTree f r v (.named n)))
    (hT : ∀ cs, newFeOn other (.int r) none none v (.tensor cs) =
      match newFes simplex other (.int r) v cs with
      | .error e => .error e
      | .ok subs => mkProduct subs (some (.tensor cs))) :
    ∀ c : UCell, c.Leaves p → newFeOn (dqFamily simplex other c) (.int r) none none v c =
      .ok (scalarTree f r v c)
  | .named n, h => hleaf n (by rwa [UCell.Leaves] at h)
  | .tensor cs, h => by
    rw [UCell.Leaves] at h
    rw [dqFamily, hT, trees_of hleaf hT cs h.2]
    exact product_of_trees f r v h.1
theorem trees_of {simplex other : String} {f : Scalar} {r : Int} {v : Option String}
    {p : CellName → Bool}
    (hleaf : ∀ n, p n = true → newFeOn (dqFamily simplex other (.named n)) (.int r) none none v
      (.named n) = .ok (scalarTree f r v (.named n)))
    (hT : ∀ cs, newFeOn other (.int r) none none v (.tensor cs) =
      match newFes simplex other (.int r) v cs with
      | .error e => .error e
      | .ok subs => mkProduct subs (some (.tensor cs))) :
    ∀ cs : List UCell, UCell.Leavess p cs → newFes simplex other (.int r) v cs =
      .ok (scalarTrees f r v cs)
  | [], _ => by rw [newFes, scalarTrees]
  | c :: cs, h => by
    rw [UCell.Leavess] at h
    rw [newFes, tree_of hleaf hT c h.1, trees_of hleaf hT cs h.2, scalarTrees]
end

theorem q_on_product {name : String} (hn : name = "CG" ∨ name = "Lagrange" ∨ name = "Q") {r : Int}
    (hr : 1 ≤ r) (k : Option Int) (q v : Option String) (cs : List UCell) :
    newFeOn name (.int r) k q v (.tensor cs) =
      match newFes "CG" "CG" (.int r) v cs with
      | .error e => .error e
      | .ok subs => mkProduct subs (some (.tensor cs)) := by
  have hd : ∃ short, canonicalElementDescription name (some (.tensor cs)) (.int r) k =
      .ok ⟨"Q", short, .int r, [], .h1, "identity", .int r⟩ := by
    rcases hn with rfl | rfl | rfl
    · exact desc_of (p := ("CG", "Lagrange", 0, .h1, "identity", 1)) (by simp) hr k
        (by simp [cubeFamily, isCubeLike]) (by decide +kernel) (fun _ _ => rfl) rfl
    · exact desc_of (p := ("Lagrange", "Lagrange", 0, .h1, "identity", 1)) (by simp) hr k
        (by simp [cubeFamily, isCubeLike]) (by decide +kernel) (fun _ _ => rfl) rfl
    · exact desc_of (p := ("Q", "Q", 0, .h1, "identity", 1)) (by simp) hr k
        (by simp [cubeFamily]) (by decide +kernel) (fun _ _ => rfl) rfl
  obtain ⟨short, hd⟩ := hd
  rw [newFeOn, hd]
  simp
  rfl

theorem dq_on_product {name : String} (hn : name = "DG" ∨ name = "DQ") {r : Int}
    (hr : 0 ≤ r) (k : Option Int) (q v : Option String) (cs : List UCell) :
    newFeOn name (.int r) k q v (.tensor cs) =
      match newFes "DG" "DQ" (.int r) v cs with
      | .error e => .error e
      | .ok subs => mkProduct subs (some (.tensor cs)) := by
  have hd : ∃ short, canonicalElementDescription name (some (.tensor cs)) (.int r) k =
      .ok ⟨"DQ", short, .int r, [], .l2, "identity", .int r⟩ := by
    rcases hn with rfl | rfl
    · exact desc_of (p := ("DG", "Discontinuous Lagrange", 0, .l2, "identity", 0)) (by simp) hr k
        (by simp [cubeFamily, isCubeLike]) (by decide +kernel) (fun _ _ => rfl) rfl
    · exact desc_of (p := ("DQ", "DQ", 0, .l2, "identity", 0)) (by simp) hr k
        (by simp [cubeFamily]) (by decide +kernel) (fun _ _ => rfl) rfl
  obtain ⟨short, hd⟩ := hd
  rw [newFeOn, hd]
  simp
  rfl

theorem dql2_on_product {name : String} (hn : name = "DG L2" ∨ name = "DQ L2") {r : Int}
    (hr : 0 ≤ r) (k : Option Int) (q v : Option String) (cs : List UCell) :
    newFeOn name (.int r) k q v (.tensor cs) =
      match newFes "DG L2" "DQ L2" (.int r) v cs with
      | .error e => .error e
      | .ok subs => mkProduct subs (some (.tensor cs)) := by
  have hd : ∃ short, canonicalElementDescription name (some (.tensor cs)) (.int r) k =
      .ok ⟨"DQ L2", short, .int r, [], .l2, "L2 Piola", .int r⟩ := by
    rcases hn with rfl | rfl
    · exact desc_of (p := ("DG L2", "Discontinuous Lagrange L2", 0, .l2, "L2 Piola", 0)) (by simp)
        hr k (by simp [cubeFamily, isCubeLike]) (by decide +kernel) (fun _ _ => rfl) rfl
    · exact desc_of (p := ("DQ L2", "DQ L2", 0, .l2, "L2 Piola", 0)) (by simp) hr k
        (by simp [cubeFamily]) (by decide +kernel) (fun _ _ => rfl) rfl
  obtain ⟨short, hd⟩ := hd
  rw [newFeOn, hd]
  simp
  rfl

/-- The names "CG" and "DG" on named cells. -/
theorem cg_named {r : Int} (hr : 1 ≤ r) (k : Option Int) (v : Option String) (n : CellName) :
    newFeOn "CG" (.int r) k none v (.named n) = .ok (scalarTree continuousFamily r v (.named n)) := by
  have hcell := fun e he => (names_cells n).1 "CG" (by simp) e he
  cases hn : n.isCube with
  | true =>
    obtain ⟨short, h⟩ := desc_of (p := ("CG", "Lagrange", 0, .h1, "identity", 1)) (by simp) hr k
      (cell := some (.named n)) (f := "Q") (by simp [cubeFamily, cubeLike_named hn])
      (by decide +kernel) hcell rfl
    rw [plain_of h, scalarTree, hn]; rfl
  | false =>
    obtain ⟨short, h⟩ := desc_of (p := ("CG", "Lagrange", 0, .h1, "identity", 1)) (by simp) hr k
      (cell := some (.named n)) (f := "Lagrange") (cube_named hn) (by decide +kernel) hcell rfl
    rw [plain_of h, scalarTree, hn]; rfl

theorem dg_named {r : Int} (hr : 0 ≤ r) (k : Option Int) (v : Option String) (n : CellName)
    (hn : n.isCube = false) : newFeOn "DG" (.int r) k none v (.named n) =
      .ok (scalarTree discontinuousFamily r v (.named n)) := by
  have hcell := fun e he => (names_cells n).1 "DG" (by simp) e he
  obtain ⟨short, h⟩ := desc_of (p := ("DG", "Discontinuous Lagrange", 0, .l2, "identity", 0))
    (by simp) hr k (cell := some (.named n)) (f := "Discontinuous Lagrange") (cube_named hn)
    (by decide +kernel) hcell rfl
  rw [plain_of h, scalarTree, hn]; rfl

theorem dq_named {r : Int} (hr : 0 ≤ r) (k : Option Int) (v : Option String) (n : CellName)
    (hn : n.isCube = true) : newFeOn "DQ" (.int r) k none v (.named n) =
      .ok (scalarTree discontinuousFamily r v (.named n)) := by
  have hcell := fun e he => (names_cells n).2.1 (.inl hn) "DQ" (by simp) e he
  obtain ⟨short, h⟩ := desc_of (p := ("DQ", "DQ", 0, .l2, "identity", 0))
    (by simp) hr k (cell := some (.named n)) (f := "DQ") (by simp [cubeFamily])
    (by decide +kernel) hcell rfl
  rw [plain_of h, scalarTree, hn]; rfl

theorem dgl2_named {r : Int} (hr : 0 ≤ r) (k : Option Int) (v : Option String) (n : CellName)
    (hn : n.isCube = false) : newFeOn "DG L2" (.int r) k none v (.named n) =
      .ok (scalarTree densityFamily r v (.named n)) := by
  have hcell := fun e he => (names_cells n).1 "DG L2" (by simp) e he
  obtain ⟨short, h⟩ := desc_of (p := ("DG L2", "Discontinuous Lagrange L2", 0, .l2, "L2 Piola", 0))
    (by simp) hr k (cell := some (.named n)) (f := "Discontinuous Lagrange L2") (cube_named hn)
    (by decide +kernel) hcell rfl
  rw [plain_of h, scalarTree, hn]; rfl

theorem dql2_named {r : Int} (hr : 0 ≤ r) (k : Option Int) (v : Option String) (n : CellName)
    (hn : n.isCube = true) : newFeOn "DQ L2" (.int r) k none v (.named n) =
      .ok (scalarTree densityFamily r v (.named n)) := by
  have hcell := fun e he => (names_cells n).2.1 (.inl hn) "DQ L2" (by simp) e he
  obtain ⟨short, h⟩ := desc_of (p := ("DQ L2", "DQ L2", 0, .l2, "L2 Piola", 0))
    (by simp) hr k (cell := some (.named n)) (f := "DQ L2") (by simp [cubeFamily])
    (by decide +kernel) hcell rfl
  rw [plain_of h, scalarTree, hn]; rfl

theorem dqFamily_named {a b : String} {n : CellName} (h : n.isSimplexOrCube = true) :
    dqFamily a b (.named n) = if n.isCube then b else a := by
  cases n <;> first | (cases h; done) | (simp [dqFamily, CellName.isCube, simplices, CellName.str])

/-- The description of the vector families on a product cell. -/
theorem vector_desc {p : String × String × Nat × Sobolev × String × Int}
    (hp : p ∈ ([("RTCF", "RTCF", 1, .hDiv, "contravariant Piola", 1),
      ("RTCE", "RTCE", 1, .hCurl, "covariant Piola", 1),
      ("NCF", "NCF", 1, .hDiv, "contravariant Piola", 1),
      ("NCE", "NCE", 1, .hCurl, "covariant Piola", 1)] :
      List (String × String × Nat × Sobolev × String × Int)))
    {r : Int} (hr : 1 ≤ r) (k : Option Int) (cs : List UCell) :
    ∃ d, canonicalElementDescription p.1 (some (.tensor cs)) (.int r) k = .ok d ∧
      d.family = p.1 ∧ d.order = .int r := by
  have hfam : p.2.1 = p.1 ∧ p.2.2.1 = 1 ∧ p.2.2.2.2.2 = 1 ∧
      cubeFamily (some (.tensor cs)) p.2.1 (.int r) = .ok p.1 ∧
      (infixOf "Guzman-Neilan" p.1 || infixOf "Bernardi-Raugel" p.1) = false := by
    simp only [List.mem_cons, List.not_mem_nil, or_false] at hp
    rcases hp with rfl | rfl | rfl | rfl <;>
      exact ⟨rfl, rfl, rfl, by simp [cubeFamily], by decide +kernel⟩
  obtain ⟨h1, h2, h3, h4, h5⟩ := hfam
  obtain ⟨short, h⟩ := desc_of (p := p) (by
      simp only [List.mem_cons, List.not_mem_nil, or_false] at hp ⊢
      rcases hp with rfl | rfl | rfl | rfl <;> simp) (by rw [h3]; exact hr) k
    (cell := some (.tensor cs)) h4 h5 (fun _ _ => rfl) (by rw [h2]; rfl)
  exact ⟨_, h, rfl, rfl⟩

theorem mk_of_new {name : String} {o : Order} {k : Option Int} {v : Option String} {n : CellName}
    {e : UElem} (h : newFeOn name o k none v (.named n) = .ok e) :
    mkFe name (some (.named n)) o k none v = .ok e := by
  rwa [newFeOn] at h

theorem cg_line {r : Int} (hr : 1 ≤ r) (v : Option String) :
    mkFe "CG" (some (.named .interval)) (.int r) none none v = .ok (contLine r v) := by
  rw [mk_of_new (cg_named hr none v .interval), scalarTree]; rfl

theorem dg_line {r : Int} (hr : 0 ≤ r) (v : Option String) :
    mkFe "DG" (some (.named .interval)) (.int r) none none v = .ok (discLine r v) := by
  rw [mk_of_new (dg_named hr none v .interval rfl), scalarTree]; rfl

theorem q_quad {r : Int} (hr : 1 ≤ r) (v : Option String) :
    mkFe "Q" (some (.named .quadrilateral)) (.int r) none none v =
      .ok (plain "Q" .quadrilateral r [] .h1 "identity" v) := by
  obtain ⟨short, h⟩ := desc_of (p := ("Q", "Q", 0, .h1, "identity", 1))
    (by simp) hr none (cell := some (.named .quadrilateral)) (f := "Q") (by simp [cubeFamily])
    (by decide +kernel) (fun e he => (names_cells _).2.1 (.inl rfl) "Q" (by simp) e he) rfl
  exact mk_of_new (plain_of h)

theorem dq_quad {r : Int} (hr : 0 ≤ r) (v : Option String) :
    mkFe "DQ" (some (.named .quadrilateral)) (.int r) none none v =
      .ok (plain "DQ" .quadrilateral r [] .l2 "identity" v) := by
  rw [mk_of_new (dq_named hr none v .quadrilateral rfl), scalarTree]; rfl

theorem rtcf_quad {r : Int} (hr : 1 ≤ r) (v : Option String) :
    mkFe "RTCF" (some (.named .quadrilateral)) (.int r) none none v =
      .ok (plain "RTCF" .quadrilateral r [2] .hDiv "contravariant Piola" v) := by
  obtain ⟨short, h⟩ := desc_of (p := ("RTCF", "RTCF", 1, .hDiv, "contravariant Piola", 1))
    (by simp) hr none (cell := some (.named .quadrilateral)) (f := "RTCF") (by simp [cubeFamily])
    (by decide +kernel) (fun e he => (names_cells _).2.2 rfl "RTCF" (by simp) e he) rfl
  exact mk_of_new (plain_of h)

theorem rtce_quad {r : Int} (hr : 1 ≤ r) (v : Option String) :
    mkFe "RTCE" (some (.named .quadrilateral)) (.int r) none none v =
      .ok (plain "RTCE" .quadrilateral r [2] .hCurl "covariant Piola" v) := by
  obtain ⟨short, h⟩ := desc_of (p := ("RTCE", "RTCE", 1, .hCurl, "covariant Piola", 1))
    (by simp) hr none (cell := some (.named .quadrilateral)) (f := "RTCE") (by simp [cubeFamily])
    (by decide +kernel) (fun e he => (names_cells _).2.2 rfl "RTCE" (by simp) e he) rfl
  exact mk_of_new (plain_of h)

theorem two_product {a b : CellName} {da db : Int} {sa sb : List Nat} {x y : UElem}
    (hx : x.degree = .int da) (hy : y.degree = .int db) (sx : x.shape = .ok sa)
    (sy : y.shape = .ok sb) (hl : (sa ++ sb).length ≤ 1) :
    mkProduct [x, y] (some (.tensor [.named a, .named b])) =
      .ok (twoFactors a b da db (sa ++ sb) x y) := by
  rw [mkProduct]
  simp only [shapes, sx, sy, bind, Except.bind, List.isEmpty_cons, List.map_cons, List.map_nil,
    hx, hy, List.flatten_cons, List.flatten_nil, List.append_nil]
  simp only [Bool.false_eq_true, if_false]
  rw [if_neg (by omega)]
  rfl

theorem hdiv_two {a b : CellName} {da db : Int} {sh : List Nat} {x y : UElem} :
    mkHDiv (twoFactors a b da db sh x y) = .ok (.hdiv (wrapData a b da db (a.tdim + b.tdim))
      (twoFactors a b da db sh x y)) := by
  have : (UCell.tensor [.named a, .named b]).tdim = a.tdim + b.tdim := by
    simp [UCell.tdim, UCell.tdims]
  simp [mkHDiv, wrapBase, twoFactors, UElem.cell, UElem.base, UElem.degree, UElem.quadScheme,
    bind, Except.bind, wrapData, this]

theorem hcurl_two {a b : CellName} {da db : Int} {sh : List Nat} {x y : UElem} :
    mkHCurl (twoFactors a b da db sh x y) = .ok (.hcurl (wrapData a b da db (a.tdim + b.tdim))
      (twoFactors a b da db sh x y)) := by
  have : (UCell.tensor [.named a, .named b]).tdim = a.tdim + b.tdim := by
    simp [UCell.tdim, UCell.tdims]
  simp [mkHCurl, wrapBase, twoFactors, UElem.cell, UElem.base, UElem.degree, UElem.quadScheme,
    bind, Except.bind, wrapData, this]

theorem max_two (a b : Int) : pyMax [.int a, .int b] = .ok (.int (max a b)) := by
  simp only [pyMax, pyMaxFrom, Deg.lt, bind, Except.bind]
  by_cases h : a < b
  · simp [h]; omega
  · simp [h]; omega

theorem sum_two {a b : CellName} {r d1 d2 e1 e2 : Int} {dim : Nat} {x y : UElem}
    (hx : x.base = wrapData a b d1 d2 dim) (hy : y.base = wrapData a b e1 e2 dim)
    (hxm : ∀ e m, x ≠ .withMapping e m) (hym : ∀ e m, y ≠ .withMapping e m)
    (h1 : max d1 e1 = r) (h2 : max d2 e2 = r) :
    mkEnriched false [x, y] = .ok (sumOf a b r dim x y) := by
  have dx : x.degree = .tuple [.int d1, .int d2] := by rw [UElem.degree, hx]; rfl
  have dy : y.degree = .tuple [.int e1, .int e2] := by rw [UElem.degree, hy]; rfl
  have cx : x.cell = some (.tensor [.named a, .named b]) := by rw [UElem.cell, hx]; rfl
  have cy : y.cell = some (.tensor [.named a, .named b]) := by rw [UElem.cell, hy]; rfl
  have qx : x.quadScheme = none := by rw [UElem.quadScheme, hx]; rfl
  have qy : y.quadScheme = none := by rw [UElem.quadScheme, hy]; rfl
  have sx : x.shape = .ok [dim] := by rw [shape_stored hxm, hx]; rfl
  have sy : y.shape = .ok [dim] := by rw [shape_stored hym, hy]; rfl
  have hdeg : enrichedDegree [.tuple [.int d1, .int d2], .tuple [.int e1, .int e2]] =
      .ok (.tuple [.int r, .int r]) := by
    simp [enrichedDegree, asTuples, pyZip, maxColumns, bind, Except.bind, max_two, h1, h2]
  rw [mkEnriched]
  simp [dx, dy, cx, cy, qx, qy, sx, sy, hdeg, bind, Except.bind, shapes, sumOf]

end FInAT.Ufl
