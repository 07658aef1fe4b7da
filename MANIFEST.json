{
 "claims": [
  {
   "property": "C01",
   "status": "proved",
   "theorems": [
    "FInAT.Props.C01_entity_dofs_partition",
    "FInAT.Props.C01_entity_dofs_disjoint"
   ],
   "note": "All element trees over leaves whose FIAT data is a partition (GoodLeaf)."
  },
  {
   "property": "C02",
   "status": "proved",
   "theorems": [
    "FInAT.Props.C02_space_dimension"
   ],
   "note": ""
  },
  {
   "property": "C03",
   "status": "proved",
   "theorems": [
    "FInAT.Props.C03_enriched_blocks",
    "FInAT.Props.C03_concatenate_unmentioned"
   ],
   "note": ""
  },
  {
   "property": "C04",
   "status": "proved",
   "theorems": [
    "FInAT.Props.C04_tensor_product_dofs"
   ],
   "note": ""
  },
  {
   "property": "C05",
   "status": "proved",
   "theorems": [
    "FInAT.Props.C05_factor_entity_agrees",
    "FInAT.Props.C05_factor_entity_bijective",
    "FInAT.Props.C05_default_entity"
   ],
   "note": ""
  },
  {
   "property": "C06",
   "status": "proved",
   "theorems": [
    "FInAT.Props.C06_flattened_entities",
    "FInAT.Props.C06_unflatten_bijective",
    "FInAT.Props.C06_default_entity"
   ],
   "note": ""
  },
  {
   "property": "C07",
   "status": "proved",
   "theorems": [
    "FInAT.Props.C07_tensorFE_dofs",
    "FInAT.Props.C07_tensorFE_dofs_transpose",
    "FInAT.Props.C07_tensorFE_count"
   ],
   "note": ""
  },
  {
   "property": "C08",
   "status": "proved",
   "theorems": [
    "FInAT.Props.C08_closure_dofs",
    "FInAT.Props.C08_closure_monotone",
    "FInAT.Props.C08_closure_cell"
   ],
   "note": "FIAT sub_entities is a parameter."
  },
  {
   "property": "C09",
   "status": "proved",
   "theorems": [
    "FInAT.Props.C09_discontinuous_dofs",
    "FInAT.Props.C09_quadrature_dofs",
    "FInAT.Props.C09_discontinuous_shapes"
   ],
   "note": ""
  },
  {
   "property": "C10",
   "status": "proved",
   "theorems": [
    "FInAT.Props.C10_enriched_flat",
    "FInAT.Props.C10_enriched_single",
    "FInAT.Props.C10_enriched_assoc",
    "FInAT.Props.C10_enriched_order"
   ],
   "note": ""
  },
  {
   "property": "C11",
   "status": "proved",
   "theorems": [
    "FInAT.Props.C11_blocks",
    "FInAT.Props.C11_permutation",
    "FInAT.Props.C11_acts_blockwise"
   ],
   "note": "Sub-elements are assumed to provide the same orientation keys (documented hypothesis)."
  },
  {
   "property": "C12",
   "status": "proved",
   "theorems": [
    "FInAT.Props.C12_enriched_tabulation",
    "FInAT.Props.C12_enriched_rows"
   ],
   "note": ""
  },
  {
   "property": "C13",
   "status": "proved",
   "theorems": [
    "FInAT.Props.C13_mixed_values",
    "FInAT.Props.C13_mixed_construction"
   ],
   "note": ""
  },
  {
   "property": "C14",
   "status": "proved",
   "theorems": [
    "FInAT.Props.C14_refused",
    "FInAT.Props.C14_product_tables",
    "FInAT.Props.C14_derivative_of_product"
   ],
   "note": ""
  },
  {
   "property": "C15",
   "status": "proved",
   "theorems": [
    "FInAT.Props.C15_component_basis"
   ],
   "note": ""
  },
  {
   "property": "C16",
   "status": "partial",
   "theorems": [
    "FInAT.Props.C16_hdiv_construction_partial",
    "FInAT.Props.C16_hcurl_construction_partial",
    "FInAT.Props.C16_unknown_formdegree",
    "FInAT.Props.C16_wrong_formdegree",
    "FInAT.Props.C16_hdiv_values",
    "FInAT.Props.C16_hcurl_values_partial",
    "FInAT.Props.C16_hdiv_length",
    "FInAT.Props.C16_hcurl_short_vector",
    "FInAT.Props.C16_hdiv_assertion"
   ],
   "note": "The full claim is false of the code: HCurl of a scalar 1-form on (interval x interval) x interval is accepted but has two components instead of three (C16_hcurl_short_vector) and HDiv of an accepted-looking product hits an assertion (C16_hdiv_assertion). The _partial theorems cover the form-degree pairs the code is written for."
  },
  {
   "property": "C17",
   "status": "proved",
   "theorems": [
    "FInAT.Props.C17_rotation",
    "FInAT.Props.C17_horizontal",
    "FInAT.Props.C17_vertical"
   ],
   "note": ""
  },
  {
   "property": "C18",
   "status": "proved",
   "theorems": [
    "FInAT.Props.C18_fiat_tables",
    "FInAT.Props.C18_polynomials",
    "FInAT.Props.C18_needs_points"
   ],
   "note": "FIAT tabulate is data with the polynomial hypothesis FiatPoly."
  },
  {
   "property": "C19",
   "status": "proved",
   "theorems": [
    "FInAT.Props.C19_dual_basis",
    "FInAT.Props.C19_derivative_nodes",
    "FInAT.Props.C19_repeated_component"
   ],
   "note": "Nodes are data; np.isclose(w, 1) is assumed to hold only for w = 1. A component listed twice at one point is overwritten (C19_repeated_component)."
  },
  {
   "property": "C20",
   "status": "partial",
   "theorems": [
    "FInAT.Props.C20_dual_basis_partial",
    "FInAT.Props.C20_duality",
    "FInAT.Props.C20_interpolation_partial",
    "FInAT.Props.C20_repeated_rule"
   ],
   "note": "False of the code when two quadrature elements in one product share point indices (C20_repeated_rule). Proved for trees whose quadrature elements have distinct point indices (C20_dual_basis_partial, C20_interpolation_partial); the duality of functionals and basis functions holds without this (C20_duality)."
  },
  {
   "property": "C21",
   "status": "partial",
   "theorems": [
    "FInAT.Props.C21_dual_evaluation_partial",
    "FInAT.Props.C21_tensor",
    "FInAT.Props.C21_transposed"
   ],
   "note": "False of the code for TensorFiniteElement(transpose=True): C21_transposed. C21_tensor says what the transposed element returns."
  },
  {
   "property": "C22",
   "status": "partial",
   "theorems": [
    "FInAT.Props.C22_identity",
    "FInAT.Props.C22_rejects",
    "FInAT.Props.C22_different",
    "FInAT.Props.C22_index_structure"
   ],
   "note": "Identity, rejection and different-points cases proved; equal points with a different index structure give a wrong table (C22_index_structure)."
  },
  {
   "property": "C23",
   "status": "partial",
   "theorems": [
    "FInAT.Props.C23_restriction_keeps_partial",
    "FInAT.Props.C23_restricted_element_partial",
    "FInAT.Props.C23_codimensions",
    "FInAT.Props.C23_mixed",
    "FInAT.Props.C23_tensor_layout",
    "FInAT.Props.C23_interior_by_another_name"
   ],
   "note": "Proved for element trees that have a restriction rule at every node, factors of products being plain cells of dimension at most four (codim_to_r has no names beyond); for mixed elements of at least two parts C23_mixed says that the parts are restricted one by one. Elsewhere the code raises or returns an exception object (C26_no_rule, C26_single_mixed, C26_nested_product); see also C23_interior_by_another_name. FIAT.RestrictedElement is transcribed."
  },
  {
   "property": "C24",
   "status": "proved",
   "theorems": [
    "FInAT.Props.C24_round_trip",
    "FInAT.Props.C24_value_error"
   ],
   "note": ""
  },
  {
   "property": "C25",
   "status": "partial",
   "theorems": [
    "FInAT.Props.C25_value_shape_partial",
    "FInAT.Props.C25_mixed_shape"
   ],
   "note": "False of the code for mixed elements (C25_mixed_shape): parts with nothing left are dropped."
  },
  {
   "property": "C26",
   "status": "partial",
   "theorems": [
    "FInAT.Props.C26_result_partial",
    "FInAT.Props.C26_physically_mapped",
    "FInAT.Props.C26_no_rule",
    "FInAT.Props.C26_single_mixed",
    "FInAT.Props.C26_nested_product"
   ],
   "note": "False of the code: elements without a rule yield the exception object (C26_no_rule), one-element mixed elements raise AssertionError (C26_single_mixed), nested products TypeError (C26_nested_product)."
  },
  {
   "property": "C27",
   "status": "proved",
   "theorems": [
    "FInAT.Props.C27_points",
    "FInAT.Props.C27_weights",
    "FInAT.Props.C27_sum"
   ],
   "note": ""
  },
  {
   "property": "C28",
   "status": "proved",
   "theorems": [
    "FInAT.Props.C28_product",
    "FInAT.Props.C28_make_quadrature"
   ],
   "note": "FIAT rules are data assumed exact: Gauss with n points to degree 2n-1, create_quadrature to the requested degree. Integrals of monomials are given by Dirichlet formula."
  },
  {
   "property": "C29",
   "status": "proved",
   "theorems": [
    "FInAT.Props.C29_interval",
    "FInAT.Props.C29_negative",
    "FInAT.Props.C29_product",
    "FInAT.Props.C29_tuple_length",
    "FInAT.Props.C29_quadrilateral"
   ],
   "note": ""
  },
  {
   "property": "C30",
   "status": "proved",
   "theorems": [
    "FInAT.Props.C30_factor_point_set",
    "FInAT.Props.C30_splits"
   ],
   "note": ""
  },
  {
   "property": "C31",
   "status": "proved",
   "theorems": [
    "FInAT.Props.C31_determinant",
    "FInAT.Props.C31_adjugate",
    "FInAT.Props.C31_piola_inverse"
   ],
   "note": ""
  },
  {
   "property": "C32",
   "status": "proved",
   "theorems": [
    "FInAT.Props.C32_edge",
    "FInAT.Props.C32_face"
   ],
   "note": "Over an ordered field for faces (the normal is not zero)."
  },
  {
   "property": "C33",
   "status": "proved",
   "theorems": [
    "FInAT.Props.C33_vertex"
   ],
   "note": ""
  },
  {
   "property": "C34",
   "status": "proved",
   "theorems": [
    "FInAT.Props.C34_evaluation"
   ],
   "note": ""
  },
  {
   "property": "C35",
   "status": "proved",
   "theorems": [
    "FInAT.Props.C35_hermite_chain",
    "FInAT.Props.C35_hermite"
   ],
   "note": "Also QuadraticPowellSabin6, whose matrix is built by the same loop."
  },
  {
   "property": "C36",
   "status": "proved",
   "theorems": [
    "FInAT.Props.C36_morley"
   ],
   "note": ""
  },
  {
   "property": "C37",
   "status": "proved",
   "theorems": [
    "FInAT.Props.C37_argyris_rows",
    "FInAT.Props.C37_argyris",
    "FInAT.Props.C37_hct_rows",
    "FInAT.Props.C37_hct",
    "FInAT.Props.C37_powellSabin12"
   ],
   "note": "FIAT degrees of freedom are as specified in Spec/Zany.lean; edge length and normals as geometric hypotheses."
  },
  {
   "property": "C38",
   "status": "proved",
   "theorems": [
    "FInAT.Props.C38_argyris_point",
    "FInAT.Props.C38_bell",
    "FInAT.Props.C38_reducedHct",
    "FInAT.Props.C38_bell_cubic",
    "FInAT.Props.C38_reducedHct_linear"
   ],
   "note": "As C37; the discarded functions are the ones whose constraint moments are one."
  },
  {
   "property": "C39",
   "status": "proved",
   "theorems": [
    "FInAT.Props.C39_bubble_dofs",
    "FInAT.Props.C39_mtw_dofs",
    "FInAT.Props.C39_facetless_dofs",
    "FInAT.Props.C39_bubble_shape",
    "FInAT.Props.C39_mtw_shape",
    "FInAT.Props.C39_bell_shape",
    "FInAT.Props.C39_reducedHct_shape",
    "FInAT.Props.C39_arnoldWinther_dofs",
    "FInAT.Props.C39_arnoldWinther_shape"
   ],
   "note": "FIAT numbers the constrained functions last: hypotheses on the FIAT layout, met by the layouts given as examples."
  },
  {
   "property": "C40",
   "status": "partial",
   "theorems": [
    "FInAT.Props.C40_mapped_tables_partial",
    "FInAT.Props.C40_reduced_high_order"
   ],
   "note": "The matrix-vector product claim holds up to the degree (C40_mapped_tables_partial); for reduced elements (fewer FInAT than FIAT functions) the code fails for derivative orders beyond the degree (C40_reduced_high_order)."
  },
  {
   "property": "C41",
   "status": "proved",
   "theorems": [
    "FInAT.Props.C41_layout",
    "FInAT.Props.C41_basis",
    "FInAT.Props.C41_nodes"
   ],
   "note": ""
  },
  {
   "property": "C42",
   "status": "proved",
   "theorems": [
    "FInAT.Props.C42_interpolates",
    "FInAT.Props.C42_degree",
    "FInAT.Props.C42_unique"
   ],
   "note": ""
  },
  {
   "property": "C43",
   "status": "proved",
   "theorems": [
    "FInAT.Props.C43_nodal",
    "FInAT.Props.C43_edges",
    "FInAT.Props.C43_affine"
   ],
   "note": "Strictly convex quadrilaterals, either orientation. Symbolic expressions are modelled by their values."
  },
  {
   "property": "C44",
   "status": "partial",
   "theorems": [
    "FInAT.Props.C44_nodal_iff",
    "FInAT.Props.C44_nodal_partial",
    "FInAT.Props.C44_parallelogram",
    "FInAT.Props.C44_degree_four",
    "FInAT.Props.C44_nodes"
   ],
   "note": "False of the code: in degree four there is a strictly convex quadrilateral on which a function is divided by its value at its node, which is zero (C44_degree_four). Proved: the exact condition on the quadrilateral in every degree (C44_nodal_iff), all strictly convex quadrilaterals in degrees two and three (C44_nodal_partial), all parallelograms in every degree (C44_parallelogram)."
  },
  {
   "property": "C45",
   "status": "proved",
   "theorems": [
    "FInAT.Props.C45_history",
    "FInAT.Props.C45_fresh",
    "FInAT.Props.C45_engines"
   ],
   "note": "Symbolic differentiation and the translation to GEM are parameters."
  },
  {
   "property": "C46",
   "status": "proved",
   "theorems": [
    "FInAT.Props.C46_value",
    "FInAT.Props.C46_accepts",
    "FInAT.Props.C46_errors",
    "FInAT.Props.C46_memo"
   ],
   "note": "Values of symbols and the power function are parameters; numbers are exact elements of an ordered field. GEM constructors are plain nodes (simplification on construction is not modelled); the memoizer is transcribed (C46_memo)."
  },
  {
   "property": "C47",
   "status": "proved",
   "theorems": [
    "FInAT.Props.C47_names",
    "FInAT.Props.C47_table",
    "FInAT.Props.C47_init",
    "FInAT.Props.C47_shapes_differ"
   ],
   "note": "The name does not contain the point set or the entity: requests with different numbers of points share a name and differ in shape (C47_shapes_differ)."
  },
  {
   "property": "C48",
   "status": "proved",
   "theorems": [
    "FInAT.Props.C48_equivalence",
    "FInAT.Props.C48_hash",
    "FInAT.Props.C48_order",
    "FInAT.Props.C48_total"
   ],
   "note": "repr is modelled as a sequence of pieces and a rendering; the total order assumes that the text determines the pieces (such renderings exist: exists_render)."
  },
  {
   "property": "C49",
   "status": "proved",
   "theorems": [
    "FInAT.Props.C49_terminates",
    "FInAT.Props.C49_canonical",
    "FInAT.Props.C49_idempotent",
    "FInAT.Props.C49_ambiguous_S"
   ],
   "note": "The name used for printing can change (CG on a quadrilateral). With a form degree \"S\" is both a family and a family of forms (C49_ambiguous_S)."
  },
  {
   "property": "C50",
   "status": "proved",
   "theorems": [
    "FInAT.Props.C50_sound",
    "FInAT.Props.C50_complete",
    "FInAT.Props.C50_unknown",
    "FInAT.Props.C50_cubes",
    "FInAT.Props.C50_register",
    "FInAT.Props.C50_product_cell_unchecked",
    "FInAT.Props.C50_other_exceptions"
   ],
   "note": "Product cells are not checked against the family (C50_product_cell_unchecked); descriptions that fail earlier can raise IndexError or TypeError (C50_other_exceptions)."
  },
  {
   "property": "C51",
   "status": "proved",
   "theorems": [
    "FInAT.Props.C51_complex",
    "FInAT.Props.C51_vertex_wraps"
   ],
   "note": "On a vertex (dimension 0) the tables wrap around (C51_vertex_wraps)."
  },
  {
   "property": "C52",
   "status": "proved",
   "theorems": [
    "FInAT.Props.C52_reconstruct",
    "FInAT.Props.C52_reconstruct_eq"
   ],
   "note": ""
  },
  {
   "property": "C53",
   "status": "partial",
   "theorems": [
    "FInAT.Props.C53_partial",
    "FInAT.Props.C53_truncated"
   ],
   "note": "False of the code when the number of elements differs: zip truncates and the element is returned unchanged (C53_truncated). Proved for equal numbers."
  },
  {
   "property": "C54",
   "status": "proved",
   "theorems": [
    "FInAT.Props.C54_direct",
    "FInAT.Props.C54_leaves",
    "FInAT.Props.C54_two_indices",
    "FInAT.Props.C54_simple",
    "FInAT.Props.C54_negative_component"
   ],
   "note": "Components of mixed elements with one index. Vectors of vectors raise AssertionError (C54_two_indices); elements without sub-elements accept negative components (C54_negative_component)."
  },
  {
   "property": "C55",
   "status": "proved",
   "theorems": [
    "FInAT.Props.C55_numbering",
    "FInAT.Props.C55_bounds",
    "FInAT.Props.C55_reference_size",
    "FInAT.Props.C55_pullback",
    "FInAT.Props.C55_symmetric",
    "FInAT.Props.C55_later_index",
    "FInAT.Props.C55_short_key",
    "FInAT.Props.C55_chain"
   ],
   "note": "User symmetries: numbering for every element that can be built; reference size for keys that are components, pullback for components mapped to earlier ones. Otherwise false of the code (C55_later_index, C55_short_key, C55_chain)."
  },
  {
   "property": "C56",
   "status": "proved",
   "theorems": [
    "FInAT.Props.C56_ordered",
    "FInAT.Props.C56_ordered_int",
    "FInAT.Props.C56_no_degree",
    "FInAT.Props.C56_nested_product"
   ],
   "note": "Elements without a degree and products of products have no embedded superdegree: TypeError (C56_no_degree, C56_nested_product)."
  },
  {
   "property": "C57",
   "status": "proved",
   "theorems": [
    "FInAT.Props.C57_space",
    "FInAT.Props.C57_degree",
    "FInAT.Props.C57_degree_tuple"
   ],
   "note": "The inclusions between Sobolev spaces are those of ufl, transcribed; directional spaces are not modelled."
  },
  {
   "property": "C58",
   "status": "proved",
   "theorems": [
    "FInAT.Props.C58_identity",
    "FInAT.Props.C58_exact",
    "FInAT.Props.C58_ordinary"
   ],
   "note": ""
  },
  {
   "property": "C59",
   "status": "partial",
   "theorems": [
    "FInAT.Props.C59_continuous",
    "FInAT.Props.C59_discontinuous_partial",
    "FInAT.Props.C59_density_partial",
    "FInAT.Props.C59_rtcf",
    "FInAT.Props.C59_rtce",
    "FInAT.Props.C59_ncf",
    "FInAT.Props.C59_nce",
    "FInAT.Props.C59_other_cells"
   ],
   "note": "Degrees that are numbers. The DQ families are proved for factors that are simplices or cubes (C59_discontinuous_partial, C59_density_partial); for other factors (vertex, prism) the code raises ValueError. The vector families exist on two product cells only and are rejected elsewhere (C59_other_cells)."
  },
  {
   "property": "C60",
   "status": "proved",
   "theorems": [
    "FInAT.Props.C60_least_upper_bound",
    "FInAT.Props.C60_defined"
   ],
   "note": ""
  },
  {
   "property": "C61",
   "status": "proved",
   "theorems": [
    "FInAT.Props.C61_quadrature",
    "FInAT.Props.C61_point_table",
    "FInAT.Props.C61_agrees",
    "FInAT.Props.C61_vertex_factor"
   ],
   "note": "Entities with a vertex factor raise (C61_vertex_factor)."
  },
  {
   "property": "C62",
   "status": "proved",
   "theorems": [
    "FInAT.Props.C62_alfeldSorokina",
    "FInAT.Props.C62_bubble",
    "FInAT.Props.C62_mtw"
   ],
   "note": "FIAT degrees of freedom are hypotheses: vectors and divergences, facet moments in the frame of the facet."
  },
  {
   "property": "C63",
   "status": "proved",
   "theorems": [
    "FInAT.Props.C63_johnsonMercier",
    "FInAT.Props.C63_arnoldWintherNC",
    "FInAT.Props.C63_arnoldWinther",
    "FInAT.Props.C63_huZhang"
   ],
   "note": "As C62: layout of the FIAT nodes (vertex components, tractions, rest) as hypotheses. Interior nodes that the code does not transform are pulled back to the reference cell."
  },
  {
   "property": "C64",
   "status": "proved",
   "theorems": [
    "FInAT.Props.C64_equal_elements"
   ],
   "note": "Assumes that the rendered text determines the pieces of the repr."
  },
  {
   "property": "C65",
   "status": "partial",
   "theorems": [
    "FInAT.Props.C65_mixed_partial",
    "FInAT.Props.C65_vector",
    "FInAT.Props.C65_order_matters"
   ],
   "note": "False of the code when two sub-elements have spaces of which neither contains the other: the result depends on their order (C65_order_matters). Proved for comparable spaces. The order on spaces is that of ufl, transcribed."
  },
  {
   "property": "C66",
   "status": "proved",
   "theorems": [
    "FInAT.Props.C66_synonyms"
   ],
   "note": "The table of synonyms is in Spec/Ufl.lean. \"P\" also names a family of forms and is a synonym only without a form degree."
  },
  {
   "property": "C67",
   "status": "partial",
   "theorems": [
    "FInAT.Props.C67_vanish",
    "FInAT.Props.C67_trace_partial",
    "FInAT.Props.C67_continuous_partial",
    "FInAT.Props.C67_degree_three"
   ],
   "note": "False of the code in degree three: the interpolants on a square and on a trapezoid that share an edge differ on this edge (C67_degree_three). Proved: vanishing on the edges without the node for every degree and cell (C67_vanish); polynomial traces and continuity for degrees one and two on all strictly convex cells and for every degree on parallelograms (C67_trace_partial, C67_continuous_partial)."
  },
  {
   "property": "C68",
   "status": "partial",
   "theorems": [
    "FInAT.Props.C68_reproduces_partial",
    "FInAT.Props.C68_degree_three"
   ],
   "note": "False of the code in degree three (C68_degree_three: x^3 on a trapezoid). Proved for degrees one and two on all strictly convex cells and for every degree on parallelograms (C68_reproduces_partial)."
  },
  {
   "property": "C69",
   "status": "partial",
   "theorems": [
    "FInAT.Props.C69_closure_partial",
    "FInAT.Props.C69_constrained",
    "FInAT.Props.C69_dropped",
    "FInAT.Props.C69_bell"
   ],
   "note": "False of the code for elements whose FIAT element has constrained dofs: the closure of the cell of the Bell element lists 21 dofs, the element has 18 (C69_bell, in general C69_constrained). Proved: all trees over FIAT elements with the same dofs (C69_closure_partial), and that dropping the numbers from space_dimension() on repairs the closure (C69_dropped)."
  },
  {
   "property": "C70",
   "status": "partial",
   "theorems": [
    "FInAT.Props.C70_tree",
    "FInAT.Props.C70_list",
    "FInAT.Props.C70_listed",
    "FInAT.Props.C70_sound",
    "FInAT.Props.C70_base_partial",
    "FInAT.Props.C70_degree",
    "FInAT.Props.C70_small_function",
    "FInAT.Props.C70_query",
    "FInAT.Props.C70_ragged"
   ],
   "note": "False of the code for small functions: the integral of the square is compared with 1e-8, so piecewise constants scaled by 1e-5 are not listed (C70_small_function). Proved: which functions are listed (C70_listed), every listed function does not vanish (C70_sound), the claim for elements whose non-vanishing functions exceed the threshold (C70_base_partial), and that all composed elements inherit the claim (C70_tree, C70_list). The query for one dimension (C70_query). Vectors on nested products raise ValueError (C70_ragged). Exactness of the quadrature rule is a hypothesis."
  },
  {
   "property": "C71",
   "status": "partial",
   "theorems": [
    "FInAT.Props.C71_without",
    "FInAT.Props.C71_lost",
    "FInAT.Props.C71_default",
    "FInAT.Props.C71_reached_partial",
    "FInAT.Props.C71_iff"
   ],
   "note": "False of the code: tensor products, flattened products and H(div)/H(curl) wrappers do not pass the coordinate mapping on, so physically mapped parts below them always raise (C71_lost). Proved: all other trees over FIAT leaves at unstructured points on every entity give the transformed functions (C71_reached_partial), exact characterisation (C71_iff), no table without a mapping (C71_without)."
  },
  {
   "property": "C72",
   "status": "proved",
   "theorems": [
    "FInAT.Props.C72_permutations",
    "FInAT.Props.C72_product",
    "FInAT.Props.C72_product_acts",
    "FInAT.Props.C72_flattened",
    "FInAT.Props.C72_product_identity",
    "FInAT.Props.C72_defined",
    "FInAT.Props.C72_discontinuous_raises",
    "FInAT.Props.C72_discontinuous_delegates",
    "FInAT.Props.C72_discontinuous_interior",
    "FInAT.Props.C72_unsupported"
   ],
   "note": "FIAT tables of leaves, its axis permutations of product cells and its flattened orientation numbers are data with stated hypotheses (PermsGiven, AxesOK). The parts of an enriched element are required to have the same orientations (SameOrients, stated in the property); the example PermExample shows the short list that results otherwise. Elements that raise: C72_discontinuous_raises, C72_unsupported; elements that do not: C72_defined."
  },
  {
   "property": "C73",
   "status": "proved",
   "theorems": [
    "FInAT.Props.C73_symmetry",
    "FInAT.Props.C73_same_rule",
    "FInAT.Props.C73_refused",
    "FInAT.Props.C73_product",
    "FInAT.Props.C73_iterator",
    "FInAT.Props.C73_extrinsic",
    "FInAT.Props.C73_no_cell",
    "FInAT.Props.C73_exchange",
    "FInAT.Props.C73_quadrilateral"
   ],
   "note": "That the maps FIAT attaches to the rules of simple cells are symmetries is a hypothesis (OrientOK). Axis exchanges need one degree on all axes (example QuadOrientExample with degrees 1 and 3). A TensorProductQuadratureRule constructed from an iterator loses all maps without an error (C73_iterator)."
  },
  {
   "property": "C74",
   "status": "partial",
   "theorems": [
    "FInAT.Props.C74_sound_partial",
    "FInAT.Props.C74_complete_partial",
    "FInAT.Props.C74_bubble",
    "FInAT.Props.C74_broken_sum",
    "FInAT.Props.C74_product"
   ],
   "note": "False of the code: bubbles built with degree zero claim to be constant (C74_bubble), and so does the broken version of a sum of constants and an element without a degree (C74_broken_sum); products of constants claim not to be constant (C74_product). Proved for trees whose simple elements have a degree and are not bubbles (C74_sound_partial), and conversely without products, nodal enrichments and empty parts (C74_complete_partial)."
  },
  {
   "property": "C75",
   "status": "partial",
   "theorems": [
    "FInAT.Props.C75_simple",
    "FInAT.Props.C75_parts_partial",
    "FInAT.Props.C75_raises",
    "FInAT.Props.C75_components",
    "FInAT.Props.C75_sum",
    "FInAT.Props.C75_broken_mixed"
   ],
   "note": "False of the code for sums: an enriched element takes the mapping of its first part (C75_sum). Proved for all other trees (C75_parts_partial, hypothesis SumsAgree), for simple elements (C75_simple), and what is refused (C75_raises, C75_broken_mixed). The pullback objects are external and opaque."
  },
  {
   "property": "C76",
   "status": "proved",
   "theorems": [
    "FInAT.Props.C76_degree",
    "FInAT.Props.C76_tables",
    "FInAT.Props.C76_flattened",
    "FInAT.Props.C76_flattened_raises"
   ],
   "note": "Trees without quadrature elements, with the shapes on which cubes are flattened (Cubes). That FIAT elements contain only polynomials of their degree is a hypothesis on the leaves."
  },
  {
   "property": "C77",
   "status": "proved",
   "theorems": [
    "FInAT.Props.C77_mapping",
    "FInAT.Props.C77_sound",
    "FInAT.Props.C77_none",
    "FInAT.Props.C77_unique"
   ],
   "note": "For trees whose parts have basis functions; C77_sound needs no such hypothesis."
  },
  {
   "property": "C78",
   "status": "partial",
   "theorems": [
    "FInAT.Props.C78_dofs_partial",
    "FInAT.Props.C78_interior",
    "FInAT.Props.C78_hdiv",
    "FInAT.Props.C78_hcurl",
    "FInAT.Props.C78_mixed_sum"
   ],
   "note": "False of sums of elements with different form degrees (C78_mixed_sum), whose form degree is the largest. Proved for all trees whose sums have parts of one form degree (C78_dofs_partial, C78_interior) and for the wrappers (C78_hdiv, C78_hcurl)."
  },
  {
   "property": "C79",
   "status": "proved",
   "theorems": [
    "FInAT.Props.C79_replaced",
    "FInAT.Props.C79_twice",
    "FInAT.Props.C79_nothing",
    "FInAT.Props.C79_variant",
    "FInAT.Props.C79_scheme_rejected"
   ],
   "note": "C79_scheme_rejected shows that a quadrature scheme, unlike a variant, is not always accepted."
  },
  {
   "property": "C80",
   "status": "partial",
   "theorems": [
    "FInAT.Props.C80_parts",
    "FInAT.Props.C80_common_partial",
    "FInAT.Props.C80_broken"
   ],
   "note": "False of broken elements, which report no variant (C80_broken). Proved: a reported variant is that of all parts (C80_parts), and a common variant is reported when nothing is broken (C80_common_partial)."
  },
  {
   "property": "C81",
   "status": "partial",
   "theorems": [
    "FInAT.Props.C81_cell",
    "FInAT.Props.C81_parts_partial",
    "FInAT.Props.C81_factors_stay"
   ],
   "note": "False of tensor products, whose factors stay on their cells (C81_factors_stay). Proved: the cell of the result for all elements (C81_cell), the cells of all parts when no product occurs and the new cell is not a product (C81_parts_partial)."
  },
  {
   "property": "C82",
   "status": "proved",
   "theorems": [
    "FInAT.Props.C82_coefficients",
    "FInAT.Props.C82_interpolation",
    "FInAT.Props.C82_twice"
   ],
   "note": "End to end for the client program of Spec/Interpolate (C82_interpolation), and for any evaluation of the function (C82_coefficients). Elements that use one quadrature rule twice are excluded, see C20_repeated_rule."
  },
  {
   "property": "C83",
   "status": "proved",
   "theorems": [
    "FInAT.Props.C83_trace",
    "FInAT.Props.C83_closure",
    "FInAT.Props.C83_agree",
    "FInAT.Props.C83_discontinuous"
   ],
   "note": "Traces of FIAT leaves are assumed conforming, as is the geometry of cells (Frame: sub-entities, tangents, normals of products and flattened cells); examples build Q1, RTCF1, RTCE1 and elements on the prism. C83_discontinuous shows why DiscontinuousElement is not among the conforming constructions."
  },
  {
   "property": "C84",
   "status": "proved",
   "theorems": [
    "FInAT.Props.C84_follows_turns",
    "FInAT.Props.C84_same_function",
    "FInAT.Props.C84_different_factors"
   ],
   "note": "What FIAT contributes is a hypothesis: its tables for leaves follow the turns of their cells, its tuples and integers stand for turns of product and flattened cells. Axes are exchanged between equal scalar factors only; C84_different_factors shows that the claim fails otherwise. Values are components along the axes of the reference cell. Examples: DQ1 as in the docstring, Q2."
  },
  {
   "property": "C85",
   "status": "proved",
   "theorems": [
    "FInAT.Props.C85_independent",
    "FInAT.Props.C85_enriched",
    "FInAT.Props.C85_different_components",
    "FInAT.Props.C85_mixed",
    "FInAT.Props.C85_repeated",
    "FInAT.Props.C85_tabulated",
    "FInAT.Props.C85_dimension"
   ],
   "note": "That basis functions of FIAT leaves are independent is a hypothesis (FIAT is not modelled). Sums have to be direct: C85_enriched is an equivalence, C85_different_components and C85_mixed give the sums that always are, C85_repeated shows that FInAT does not check it. Examples: Raviart-Thomas on the square, a mixed element with 16 functions, bilinear vectors over the rationals, CG1 + DG0 is not independent."
  },
  {
   "property": "C86",
   "status": "partial",
   "theorems": [
    "FInAT.Props.C86_functions_partial",
    "FInAT.Props.C86_mixed_layout",
    "FInAT.Props.C86_single_mixed",
    "FInAT.Props.C86_product",
    "FInAT.Props.C86_blocks",
    "FInAT.Props.C86_sum_of_mixed"
   ],
   "note": "C86_functions_partial covers all elements with an equivalent except sums of several mixed elements, for which the claim is false (C86_sum_of_mixed: four components instead of two). FIAT classes are specified in Spec/FiatEquivalent (functions of composed elements as FIAT documents them); that leaves agree with their FIAT elements and that FIAT places components under Hdiv/Hcurl as FInAT does are hypotheses. Checks in FIAT constructors are not modelled."
  },
  {
   "property": "C87",
   "status": "proved",
   "theorems": [
    "FInAT.Props.C87_construct",
    "FInAT.Props.C87_arguments",
    "FInAT.Props.C87_sum",
    "FInAT.Props.C87_exact"
   ],
   "note": "C87_construct, C87_exact (the whole chain make_quadrature_element, basis_evaluation, weight_expression, dual_evaluation), C87_sum for arbitrary rules, C87_arguments. That FIAT schemes are exact is the hypothesis FiatExact; arithmetic is exact (a field of characteristic 0)."
  },
  {
   "property": "C88",
   "status": "partial",
   "theorems": [
    "FInAT.Props.C88_raises",
    "FInAT.Props.C88_no_parameter",
    "FInAT.Props.C88_whole_partial",
    "FInAT.Props.C88_sums",
    "FInAT.Props.C88_no_component"
   ],
   "note": "The code violates it: C88_raises proves that mixed, vector and tensor elements raise TypeError for every component, C88_no_parameter that sums and restrictions do. C88_whole_partial and C88_sums are what holds."
  },
  {
   "property": "C89",
   "status": "partial",
   "theorems": [
    "FInAT.Props.C89_axes_partial",
    "FInAT.Props.C89_count",
    "FInAT.Props.C89_same",
    "FInAT.Props.C89_inside",
    "FInAT.Props.C89_sound",
    "FInAT.Props.C89_consistent",
    "FInAT.Props.C89_inner_lost",
    "FInAT.Props.C89_too_few_axes",
    "FInAT.Props.C89_h1_missed"
   ],
   "note": "C89_axes_partial, C89_count, C89_same, C89_sound, C89_inside, C89_consistent hold for all products. The code violates the rest: nested products lose the space of the inner one (C89_inner_lost) or have too few axes (C89_too_few_axes), and products of H2 and H1 factors are not recognised to be in H1 (C89_h1_missed). The classes of ufl.sobolevspace are external and transcribed in Model/Ufl/Space."
  },
  {
   "property": "C90",
   "status": "partial",
   "theorems": [
    "FInAT.Props.C90_mul",
    "FInAT.Props.C90_mul_assoc",
    "FInAT.Props.C90_add_comm_partial",
    "FInAT.Props.C90_no_degree",
    "FInAT.Props.C90_others",
    "FInAT.Props.C90_count",
    "FInAT.Props.C90_restricted_parts"
   ],
   "note": "C90_mul, C90_mul_assoc, C90_others, C90_count hold; C90_add_comm_partial needs that the second summand has a degree. The code violates the rest: a sum that starts with an element without a degree raises TypeError (C90_no_degree, example br_order with Bernardi-Raugel bubbles); sub-elements of a restricted element are not restricted (C90_restricted_parts)."
  },
  {
   "property": "C91",
   "status": "proved",
   "theorems": [
    "FInAT.Props.C91_argyris",
    "FInAT.Props.C91_hct",
    "FInAT.Props.C91_bell",
    "FInAT.Props.C91_reducedHct",
    "FInAT.Props.C91_argyris_point",
    "FInAT.Props.C91_hermite"
   ],
   "note": "C91_argyris, C91_hct, C91_bell, C91_reducedHct, C91_argyris_point, C91_hermite; over any field of real numbers (an algebra to \u211d); hypotheses on the reference basis as in C35-C38 (nodal, polynomial of the element's degree along edges); both cells list the ends of the edge in the same order."
  },
  {
   "property": "C92",
   "status": "proved",
   "theorems": [
    "FInAT.Props.C92_simple",
    "FInAT.Props.C92_mixed",
    "FInAT.Props.C92_conflict",
    "FInAT.Props.C92_degree_reached",
    "FInAT.Props.C92_product",
    "FInAT.Props.C92_product_cell",
    "FInAT.Props.C92_hdiv_hcurl",
    "FInAT.Props.C92_withMapping",
    "FInAT.Props.C92_restricted_broken"
   ],
   "note": "C92_mixed, C92_conflict, C92_degree_reached, C92_product, C92_product_cell, C92_hdiv_hcurl, C92_withMapping, C92_restricted_broken."
  },
  {
   "property": "C93",
   "status": "proved",
   "theorems": [
    "FInAT.Props.C93_johnsonMercier",
    "FInAT.Props.C93_arnoldWinther",
    "FInAT.Props.C93_huZhang",
    "FInAT.Props.C93_arnoldWintherNC",
    "FInAT.Props.C93_mtw",
    "FInAT.Props.C93_moments",
    "FInAT.Props.C93_points"
   ],
   "note": "C93_johnsonMercier, C93_arnoldWinther, C93_huZhang, C93_arnoldWintherNC, C93_mtw. The nodes of the FIAT element on a facet measure by functionals that determine the restrictions of the basis functions to the facet; C93_moments and C93_points show this for moments and point values on edges."
  },
  {
   "property": "C94",
   "status": "partial",
   "theorems": [
    "FInAT.Props.C94_powellSabin12",
    "FInAT.Props.C94_powellSabin6",
    "FInAT.Props.C94_powellSabin6_partial",
    "FInAT.Props.C94_morley",
    "FInAT.Props.C94_powellSabin6_false"
   ],
   "note": "C94_powellSabin12 and C94_morley are complete. QuadraticPowellSabin6 functions are continuous (C94_powellSabin6) and continuously differentiable if the line between the points that split the two cells meets the edge in the point that splits it (C94_powellSabin6_partial); for cells split at barycentres and midpoints this fails already for mirror images and so does the claim (C94_powellSabin6_false). That FIAT splits there is an assumption on FIAT."
  },
  {
   "property": "C95",
   "status": "proved",
   "theorems": [
    "FInAT.Props.C95_alfeldSorokina",
    "FInAT.Props.C95_bubble",
    "FInAT.Props.C95_bubble_divergence"
   ],
   "note": "Assumptions on FIAT as in C62, and that the functionals on a facet determine the restrictions of the basis functions (C93_moments shows it for quadratic functions on an edge with the values at the ends and the mean)."
  },
  {
   "property": "C96",
   "status": "proved",
   "theorems": [
    "FInAT.Props.C96_meaning",
    "FInAT.Props.C96_basis",
    "FInAT.Props.C96_basis_mapping",
    "FInAT.Props.C96_values",
    "FInAT.Props.C96_point",
    "FInAT.Props.C96_dual",
    "FInAT.Props.C96_dual_evaluation",
    "FInAT.Props.C96_weights",
    "FInAT.Props.C96_support"
   ],
   "note": "For point_evaluation, FIAT's symbolic tables are assumed to mention nothing but the point."
  },
  {
   "property": "C97",
   "status": "partial",
   "theorems": [
    "FInAT.Props.C97_vector",
    "FInAT.Props.C97_tensor",
    "FInAT.Props.C97_kept",
    "FInAT.Props.C97_scheme_partial",
    "FInAT.Props.C97_scheme_dropped"
   ],
   "note": "All proved but for the quadrature scheme on products of cells, where the code drops it (C97_scheme_dropped)."
  },
  {
   "property": "C98",
   "status": "proved",
   "theorems": [
    "FInAT.Props.C98_basis",
    "FInAT.Props.C98_basis_mapping",
    "FInAT.Props.C98_point",
    "FInAT.Props.C98_dual",
    "FInAT.Props.C98_dual_evaluation",
    "FInAT.Props.C98_quadrature",
    "FInAT.Props.C98_support"
   ],
   "note": "The state between calls is the number of indices created so far. Values kept by cached_property are computed at the first access, which is one of the moments compared."
  },
  {
   "property": "C99",
   "status": "partial",
   "theorems": [
    "FInAT.Props.C99_super_partial",
    "FInAT.Props.C99_sub_partial",
    "FInAT.Props.C99_product",
    "FInAT.Props.C99_restricted",
    "FInAT.Props.C99_restricted_sub",
    "FInAT.Props.C99_wrapped",
    "FInAT.Props.C99_mixed_factor"
   ],
   "note": "Both bounds are proved by induction over the tree for every field and every choice of the simple spaces. The full claim is false of the code, with witnesses: products add up the degrees of the factors rather than their superdegrees (C99_product), restrictions report the degree (C99_restricted, C99_restricted_sub), H(div) wrappers leave components zero (C99_wrapped), and mixed factors of products count with their largest degree (C99_mixed_factor). The hypotheses ToldBelow and Filled exclude these cases."
  },
  {
   "property": "C100",
   "status": "partial",
   "theorems": [
    "FInAT.Props.C100_loaded",
    "FInAT.Props.C100_unique",
    "FInAT.Props.C100_raises",
    "FInAT.Props.C100_once",
    "FInAT.Props.C100_kept_partial",
    "FInAT.Props.C100_loaded_kept_partial",
    "FInAT.Props.C100_new",
    "FInAT.Props.C100_alias",
    "FInAT.Props.C100_short_name",
    "FInAT.Props.C100_redirect",
    "FInAT.Props.C100_hidden",
    "FInAT.Props.C100_endless"
   ],
   "note": "Earlier descriptions are proved to be kept over every history of registrations under names that are not known at that time. Without this condition the claim is false of the code: short names are not checked (C100_short_name), aliases may be registered under names of families (C100_redirect), a family registered under the name of an alias is not found (C100_hidden), and an alias for itself makes the loop endless (C100_endless)."
  },
  {
   "property": "C101",
   "status": "proved",
   "theorems": [
    "FInAT.Props.C101_eval",
    "FInAT.Props.C101_every_reading",
    "FInAT.Props.C101_written",
    "FInAT.Props.C101_unambiguous",
    "FInAT.Props.C101_short_name"
   ],
   "note": "Proved by induction over the tree: the text is that of a call expression (C101_eval), every expression with that text evaluates to the element (C101_every_reading), and call expressions are unambiguous (C101_unambiguous). Strings, cells, numbers and dictionaries are single pieces of the text; that their own repr evaluates to them is outside the model (mapping names and variants of vector and tensor elements are written between quotes without escaping). The short name used by shortstr() is not part of the text (C101_short_name)."
  },
  {
   "property": "C102",
   "status": "proved",
   "theorems": [
    "FInAT.Props.C102_linear",
    "FInAT.Props.C102_local",
    "FInAT.Props.C102_separable"
   ],
   "note": "Stated about three (two, m+1) runs of dual_evaluation with callables that evaluate the functions at any point set. The degrees of freedom are those of C20; separability assumes, as duality does, that the functionals of the leaves look at points of their cell. Products of quadrature elements that share a point index are excluded (C20_repeated_rule)."
  },
  {
   "property": "C103",
   "status": "partial",
   "theorems": [
    "FInAT.Props.C103_any_points",
    "FInAT.Props.C103_entity_partial",
    "FInAT.Props.C103_polynomial_partial",
    "FInAT.Props.C103_sideways"
   ],
   "note": "The places are given by a separate specification (entityPoint), with the numbering of the entities of quadrilaterals and hexahedra written out there. The full claim fails for a flattened interval x quadrilateral: C103_sideways shows that entity 2 of the hexahedron is then another edge. Proved for the three other ways of writing a cube as product. Quadrature elements are excluded (they tabulate only on the cell)."
  },
  {
   "property": "C104",
   "status": "proved",
   "theorems": [
    "FInAT.Props.C104_kronecker",
    "FInAT.Props.C104_cube",
    "FInAT.Props.C104_lumped"
   ],
   "note": "Stated about the weight expression of the product rule and the table of the product element, against the weight expressions and tables of the factors. For cubes the table of the flattened product is that of the product (C104_cube)."
  },
  {
   "property": "C105",
   "status": "proved",
   "theorems": [
    "FInAT.Props.C105_exact",
    "FInAT.Props.C105_integer",
    "FInAT.Props.C105_too_low"
   ],
   "note": "FIAT's rules are assumed to be exact to the degree they are requested for (FiatExact, as in C28) and its elements to be polynomials of their degrees. Cells with hexahedra are left out: make_quadrature passes hexahedra to FIAT, of which only exactness for total degrees is assumed. C105_too_low shows that one degree less is not enough."
  },
  {
   "property": "C106",
   "status": "partial",
   "theorems": [
    "FInAT.Props.C106_reload_partial",
    "FInAT.Props.C106_remapped",
    "FInAT.Props.C106_copy_partial",
    "FInAT.Props.C106_copy_remapped",
    "FInAT.Props.C106_new"
   ],
   "note": "False of the code for WithMapping: its __getattr__ looks up self.wrapee, which is not there before the attributes are restored, so loading raises RecursionError for every element that contains one (C106_remapped, C106_copy_remapped). Proved for all other elements (C106_reload_partial, C106_copy_partial, C106_new). Python's pickle protocol is external and modelled from its documentation."
  },
  {
   "property": "C107",
   "status": "proved",
   "theorems": [
    "FInAT.Props.C107_complete",
    "FInAT.Props.C107_polynomials",
    "FInAT.Props.C107_interpolation",
    "FInAT.Props.C107_hdiv"
   ],
   "note": "H(div) and H(curl) elements are not in the range: they report a degree of which they do not contain all polynomials (C107_hdiv, the Raviart-Thomas element of the square). That FIAT's elements contain the polynomials of their degree is a hypothesis on the leaves."
  },
  {
   "property": "C108",
   "status": "proved",
   "theorems": [
    "FInAT.Props.C108_sum",
    "FInAT.Props.C108_leaf",
    "FInAT.Props.C108_tables",
    "FInAT.Props.C108_nonnegative",
    "FInAT.Props.C108_bounds",
    "FInAT.Props.C108_tabulated"
   ],
   "note": "That FIAT's Lagrange and Bernstein elements sum to one is a hypothesis on the leaves; C108_leaf reduces it to a sum of polynomials. Sums of elements are not in the range: the functions of an element added to itself sum to two (shown beside the theorem)."
  },
  {
   "property": "C109",
   "status": "proved",
   "theorems": [
    "FInAT.Props.C109_pieces",
    "FInAT.Props.C109_dimension",
    "FInAT.Props.C109_integrals",
    "FInAT.Props.C109_tables",
    "FInAT.Props.C109_sum",
    "FInAT.Props.C109_max",
    "FInAT.Props.C109_order_matters"
   ],
   "note": "max_complex and the comparison of complexes are FIAT's, transcribed from memory. For products the comparison depends on the order of a set (C109_order_matters); the main theorem holds whenever a complex is returned."
  },
  {
   "property": "C110",
   "status": "proved",
   "theorems": [
    "FInAT.Props.C110_divergence",
    "FInAT.Props.C110_curl",
    "FInAT.Props.C110_gradient",
    "FInAT.Props.C110_rot",
    "FInAT.Props.C110_gradient_free",
    "FInAT.Props.C110_prism_gradient",
    "FInAT.Props.C110_prism_curl",
    "FInAT.Props.C110_prism_divergence",
    "FInAT.Props.C110_prism_flux_gradient",
    "FInAT.Props.C110_prism_flux_curl",
    "FInAT.Props.C110_prism_flux_divergence",
    "FInAT.Props.C110_flattened",
    "FInAT.Props.C110_quadrilateral",
    "FInAT.Props.C110_quadrilateral_flux",
    "FInAT.Props.C110_divergence_onto",
    "FInAT.Props.C110_curl_onto",
    "FInAT.Props.C110_prism_divergence_onto",
    "FInAT.Props.C110_prism_flux_divergence_onto",
    "FInAT.Props.C110_tables",
    "FInAT.Props.C110_dimensions",
    "FInAT.Props.C110_prism_dimensions",
    "FInAT.Props.C110_curl_free",
    "FInAT.Props.C110_divergence_free"
   ],
   "note": "On reference cells (interval x interval, plane cell x interval). That basis_evaluation tabulates the basis functions used here, with their derivatives, is C12 to C16 about the same basisValue."
  }
 ]
}