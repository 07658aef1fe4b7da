{"id": "C01", "title": "entity_dofs() partitions the degrees of freedom of every element tree", "statement": "For any element built by nesting TensorProductElement, FlattenedDimensions, EnrichedElement/MixedElement, MixedSubElement, DiscontinuousElement, TensorFiniteElement (both layouts), HDivElement, HCurlElement and QuadratureElement over FIAT leaves whose own entity_dofs() list every number 0..space_dimension()-1 exactly once, the lists returned by entity_dofs() over all entities of the cell together list every number 0..space_dimension()-1 exactly once, and nothing else.", "quantifier": "every element tree (any nesting, any number of factors/sub-elements), every leaf satisfying the hypothesis", "why_tests_cant": "Trees nest without bound and leaf layouts are arbitrary; tests sample a handful of elements.", "anchors": ["finat/tensor_product.py:productise", "finat/enriched.py:concatenate_entity_dofs", "finat/tensorfiniteelement.py:TensorFiniteElement._entity_dofs", "finat/cube.py:FlattenedDimensions", "finat/discontinuous.py:DiscontinuousElement", "finat/quadrature_element.py:QuadratureElement._entity_dofs"]}
{"id": "C02", "title": "space_dimension() equals the product of index_shape", "statement": "For every element tree the number of basis functions reported by space_dimension() equals the number of entries of a tensor of shape index_shape, so the flattened tabulation has exactly one row per degree of freedom.", "quantifier": "every element tree", "why_tests_cant": "Holds for unboundedly many nestings; a mismatch only shows for particular combinations.", "anchors": ["finat/finiteelementbase.py:FiniteElementBase.index_shape", "finat/tensor_product.py:TensorProductElement.index_shape", "finat/tensorfiniteelement.py:TensorFiniteElement.index_shape", "finat/enriched.py:EnrichedElement.index_shape"]}
{"id": "C03", "title": "An enriched element numbers dofs by block offsets, entity by entity", "statement": "In EnrichedElement([e_0,...,e_m]) the dof list of every entity is, in order, the dof lists of e_0,...,e_m on that entity, each shifted by the total space dimension of the preceding sub-elements; entities of the cell not mentioned by any sub-element get the empty list.", "quantifier": "every list of sub-elements on a common cell, every entity", "why_tests_cant": "Ranges over all lists of sub-elements and all entity layouts.", "anchors": ["finat/enriched.py:concatenate_entity_dofs", "finat/enriched.py:EnrichedElement.entity_dofs"]}
{"id": "C04", "title": "Tensor-product dof numbers are row-major products of factor dofs", "statement": "For every product entity (e_1,...,e_n) of TensorProductElement, entity_dofs() lists exactly the row-major numbers of the tuples (d_1,...,d_n) with d_i a dof of factor i on e_i, in lexicographic order, where the row-major shape is the tuple of factor space dimensions.", "quantifier": "every number of factors, every factor layout, every product entity", "why_tests_cant": "Row/column-major or off-by-one errors cancel on symmetric small examples; all shapes are needed.", "anchors": ["finat/tensor_product.py:productise"]}
{"id": "C05", "title": "Product entity numbers used for dofs and for tabulation agree", "statement": "Entity number k of dimension (d_1,...,d_n) in TensorProductElement.entity_dofs() is the same product of factor entities that basis_evaluation/point_evaluation select for entity ((d_1,...,d_n), k), for every k, and every product of factor entities has exactly one number.", "quantifier": "every tensor-product cell, every entity", "why_tests_cant": "Numbering is computed by two unrelated pieces of code (enumerate of sorted product vs unravel_index); tests check a few cells.", "anchors": ["finat/tensor_product.py:productise", "finat/tensor_product.py:TensorProductElement._factor_entity"]}
{"id": "C06", "title": "Flattened entities carry the dofs of the product entity they are tabulated on", "statement": "For FlattenedDimensions, the dofs reported for entity (d, k) are the dofs the wrapped product element reports for exactly the product entity on which basis_evaluation/point_evaluation tabulate when asked for (d, k); the correspondence is one-to-one onto the product entities.", "quantifier": "every product cell topology, every entity", "why_tests_cant": "Two separately computed maps have to agree for every topology.", "anchors": ["finat/cube.py:FlattenedDimensions._entity_dofs", "finat/cube.py:FlattenedDimensions.basis_evaluation"]}
{"id": "C07", "title": "Dof numbers agree with the row-major position in index_shape for vector/tensor-valued elements", "statement": "In TensorFiniteElement, dof n of entity_dofs() is (component v of base dof i) with n the row-major position of (i, v) in index_shape = base.index_shape + shape, or of (v, i) in shape + base.index_shape when transpose=True; each base dof on an entity contributes exactly prod(shape) dofs to that entity.", "quantifier": "every base layout, every tensor shape, both transpose settings", "why_tests_cant": "Shapes and base elements are unbounded.", "anchors": ["finat/tensorfiniteelement.py:TensorFiniteElement._entity_dofs", "finat/tensorfiniteelement.py:TensorFiniteElement.index_shape"]}
{"id": "C08", "title": "Closure dofs are exactly the dofs on all sub-entities", "statement": "entity_closure_dofs()[d][e] is sorted, has no repetition, and contains dof n iff n belongs to entity_dofs() of some sub-entity of (d,e); it contains the entity's own dofs, is monotone in the closure relation, and for the cell itself it is [0..space_dimension()-1].", "quantifier": "every element with a partitioned entity_dofs whose closure is computed from it (elements with constrained FIAT dofs: see C69), every cell with a reflexive and transitive sub-entity relation, every entity", "why_tests_cant": "All cells and dof layouts; order and duplicates matter for assembled maps.", "anchors": ["finat/finiteelementbase.py:FiniteElementBase._entity_closure_dofs"]}
{"id": "C09", "title": "Discontinuous and quadrature elements put all dofs on the cell", "statement": "DiscontinuousElement(e).entity_dofs() gives the whole range 0..space_dimension()-1 to the (only) top-dimensional entity, the empty list to every other entity, and leaves space_dimension, value_shape and all tabulations unchanged; QuadratureElement likewise puts all dofs on the cell interior.", "quantifier": "every wrapped element and cell", "why_tests_cant": "Quantifies over all wrapped elements.", "anchors": ["finat/discontinuous.py:DiscontinuousElement", "finat/quadrature_element.py:QuadratureElement._entity_dofs"]}
{"id": "C10", "title": "Enriched elements are always flat, order preserving and associative", "statement": "EnrichedElement(...) never contains an EnrichedElement as a direct sub-element; EnrichedElement([e]) is e; grouping does not matter: EnrichedElement([EnrichedElement(xs), EnrichedElement(ys)]) equals EnrichedElement(xs+ys).", "quantifier": "every history of constructor calls", "why_tests_cant": "An invariant over all construction histories.", "anchors": ["finat/enriched.py:EnrichedElement.__new__"]}
{"id": "C11", "title": "Enriched entity permutations are permutations acting block-wise", "statement": "If for every sub-element, entity and orientation the permutation list is a permutation of 0..(number of its dofs on the entity)-1, then the concatenated list is a permutation of 0..(total)-1, it never moves a dof from one sub-element's block to another's, and on each block it acts as the sub-element's permutation; applying it to the enriched element's entity dof list gives the concatenation of the permuted sub-lists.", "quantifier": "every list of sub-elements, entity, orientation", "why_tests_cant": "All block sizes and permutations.", "anchors": ["finat/enriched.py:concatenate_entity_permutations"]}
{"id": "C12", "title": "Enriched tabulation is the sub-element's tabulation", "statement": "For every derivative and point, basis function number offset_i + flat(j) of EnrichedElement has the value of basis function j of sub-element i, where flat is the row-major position of multi-index j in the sub-element's index_shape and offset_i the total space dimension of the preceding sub-elements; all basis functions are of this form.", "quantifier": "all lists of sub-elements, all index shapes, derivatives, points", "why_tests_cant": "Index arithmetic over unbounded shapes.", "anchors": ["finat/enriched.py:EnrichedElement._compose_evaluations"]}
{"id": "C13", "title": "Mixed elements place every sub-element's value in its own block", "statement": "In MixedElement([e_0,...,e_m]) a basis function of e_i has value component offset_i + flat(z) equal to component z of e_i's basis function and every other component zero, where offset_i is the total value size of the preceding elements; the blocks are disjoint and cover all components, and the constructor's assertions never fire.", "quantifier": "all lists of elements, all value shapes", "why_tests_cant": "Offsets for arbitrary lists and value shapes.", "anchors": ["finat/mixed.py:MixedElement", "finat/mixed.py:MixedSubElement._transform"]}
{"id": "C14", "title": "Tensor-product tabulation is the derivative of the product function", "statement": "TensorProductElement.basis_evaluation returns, for every derivative multi-index up to the order, a table whose entry for (basis index, value index) is the corresponding partial derivative of the product of the factor basis functions (each a function of its own coordinates); the keys are exactly the multi-indices of total order at most the requested order.", "quantifier": "any number of factors, any dimensions, orders, polynomial factor functions and points", "why_tests_cant": "Leibniz-type splitting must hold for all multi-indices.", "anchors": ["finat/tensor_product.py:TensorProductElement._merge_evaluations"]}
{"id": "C15", "title": "Vector/tensor-valued elements have component-aligned basis functions", "statement": "Basis function (i, v) of TensorFiniteElement takes the value phi_i(x) in tensor component v and zero in all other components, for every derivative; with transpose=True the same functions appear under index (v, i).", "quantifier": "all base elements, shapes, derivatives and points", "why_tests_cant": "All shapes and base tables.", "anchors": ["finat/tensorfiniteelement.py:TensorFiniteElement._tensorise"]}
{"id": "C16", "title": "H(div)/H(curl) wrapping never hits an unreachable branch and preserves lengths", "statement": "Whenever HDivElement/HCurlElement accept a tensor product of an interval-type factorisation (form degrees summing to n-1, resp. 1), the selected transformation turns every wrapped value into a vector of exactly spatial-dimension components which is a signed placement of the wrapped components (Euclidean inner products are preserved), and inputs with other form degrees are rejected with ValueError.", "quantifier": "all form-degree vectors of factors, all wrapped values", "why_tests_cant": "The selection logic has many branches over form degrees, mappings and dimensions.", "anchors": ["finat/hdivcurl.py:HDivElement", "finat/hdivcurl.py:HCurlElement", "finat/hdivcurl.py:select_hdiv_transformer", "finat/hdivcurl.py:select_hcurl_transformer"]}
{"id": "C17", "title": "H(div) and H(curl) wrappers of the same 2D product are rotations of each other", "statement": "On a two-factor product of intervals the vector produced by the H(div) wrapper is the 90-degree rotation of the one produced by the H(curl) wrapper for the same scalar value, so div-conforming and curl-conforming fields correspond.", "quantifier": "all scalar values and both form-degree orders", "why_tests_cant": "Sign conventions must agree for all values.", "anchors": ["finat/hdivcurl.py:select_hdiv_transformer", "finat/hdivcurl.py:select_hcurl_transformer"]}
{"id": "C18", "title": "FIAT tables are re-indexed without permuting values", "statement": "FiatElement.basis_evaluation returns, for every derivative, point, basis index and value index, exactly the FIAT table entry for (basis function, flattened value component, point); tables whose derivative order equals the polynomial degree are stored once without point dependence and those above it as zeros, which is the same value at every point because such derivatives of polynomials of that degree are constant resp. zero.", "quantifier": "all space dimensions, value shapes, point shapes and degrees", "why_tests_cant": "reshape/transpose arithmetic for all sizes, and a claim about all polynomials.", "anchors": ["finat/fiat_elements.py:FiatElement.basis_evaluation"]}
{"id": "C19", "title": "The dual basis tensor represents every functional", "statement": "For a FIAT element all of whose nodes are point functionals, contracting the tensor returned by dual_basis with the values of a function at the returned points gives, for every node, the node applied to the function (provided no node lists a component twice at a point); the identity-matrix shortcut yields the same values.", "quantifier": "every list of nodes (any points, weights, components), every function", "why_tests_cant": "Arbitrary node tables, shared points and shortcuts.", "anchors": ["finat/fiat_elements.py:FiatElement._dual_basis", "finat/fiat_elements.py:FiatElement.dual_basis"]}
{"id": "C20", "title": "Composite dual bases are dual to composite basis functions", "statement": "If the dual basis of each constituent applied to its basis functions gives the identity, then the same holds for TensorProductElement, TensorFiniteElement (both layouts), FlattenedDimensions, DiscontinuousElement, HDivElement and HCurlElement: interpolating a basis function yields the corresponding unit vector.", "quantifier": "all constituents, shapes and transformations", "why_tests_cant": "Interpolation correctness for unboundedly many composites.", "anchors": ["finat/tensor_product.py:TensorProductElement.dual_basis", "finat/tensorfiniteelement.py:TensorFiniteElement.dual_basis", "finat/hdivcurl.py:WrapperElementBase.dual_basis"]}
{"id": "C21", "title": "dual_evaluation returns coefficients in index_shape order", "statement": "The basis indices returned by dual_evaluation run over the element's index_shape in order, so that laying the evaluation out by these indices gives the coefficient tensor of the interpolant.", "quantifier": "all elements, shapes and functions", "why_tests_cant": "Depends on index order for every shape; wrong order is invisible when shapes coincide.", "anchors": ["finat/finiteelementbase.py:FiniteElementBase.dual_evaluation", "finat/tensorfiniteelement.py:TensorFiniteElement.dual_evaluation"]}
{"id": "C22", "title": "Quadrature element tabulation is the identity on its own points and rejected elsewhere", "statement": "QuadratureElement.basis_evaluation returns the identity between its multi-index basis and the points of its own rule, and raises ValueError for derivatives, sub-entities or different point sets; its basis numbering follows the row-major order of the rule's points.", "quantifier": "all (tensor) quadrature rules and requests", "why_tests_cant": "All tensor rules and all request combinations.", "anchors": ["finat/quadrature_element.py:QuadratureElement.basis_evaluation"]}
{"id": "C23", "title": "Restriction keeps exactly the basis functions attached to the requested entities", "statement": "RestrictedElement(e, domain) keeps exactly those basis functions of e whose dof is attached to an entity of the requested dimension or below (closure), or of exactly that dimension (interior / take_closure=False), each exactly once; in particular a tensor-product dof is kept iff the codimensions of its factor entities sum to an allowed codimension.", "quantifier": "all element trees, all restriction domains", "why_tests_cant": "Restriction of tensor products enumerates multi-indices of codimensions; all numbers of factors and dimensions.", "anchors": ["finat/restricted.py:restrict", "finat/restricted.py:restrict_tpe", "finat/restricted.py:RestrictedElement"]}
{"id": "C24", "title": "Codimension and restriction-domain names convert consistently", "statement": "Whenever codim_to_r names a codimension, r_to_codim maps that name back to the same codimension for that cell dimension; unknown names and dimensions raise ValueError.", "quantifier": "all codimensions and cell dimensions", "why_tests_cant": "All dimensions, including boundary ones.", "anchors": ["finat/restricted.py:r_to_codim", "finat/restricted.py:codim_to_r"]}
{"id": "C25", "title": "Restriction preserves the value shape", "statement": "A restricted element takes values of the same shape as the element it was made from.", "quantifier": "all element trees and domains", "why_tests_cant": "Fails only for particular combinations of sub-elements and domains.", "anchors": ["finat/restricted.py:restrict_enriched", "finat/restricted.py:RestrictedElement"]}
{"id": "C26", "title": "Restricting an unsupported element raises NotImplementedError", "statement": "RestrictedElement(e, domain) either returns a finite element, raises ValueError because nothing is left, or raises NotImplementedError when e's type has no restriction rule; it never returns something that is not an element.", "quantifier": "all element types and domains", "why_tests_cant": "An error-path property over all types.", "anchors": ["finat/restricted.py:restrict", "finat/restricted.py:RestrictedElement"]}
{"id": "C27", "title": "Tensor quadrature points, weights and indices are consistent", "statement": "For TensorPointSet/TensorProductQuadratureRule the k-th point in the points array is the concatenation of the factor points selected by the k-th (row-major) assignment of the point indices, the weight at that assignment is the product of the factor weights, and the quadrature sum over the assignments equals the iterated factor sums.", "quantifier": "any number of factors with any numbers of points", "why_tests_cant": "Ordering over arbitrary tensor shapes.", "anchors": ["finat/point_set.py:TensorPointSet.points", "finat/quadrature.py:TensorProductQuadratureRule"]}
{"id": "C28", "title": "Product quadrature is exact whenever the factor rules are", "statement": "If each factor rule integrates a class of functions exactly then the product rule integrates every finite sum of products of such functions exactly; in particular the tensor rule built by make_quadrature(cell, degree) integrates all polynomials of the requested degree in each factor.", "quantifier": "all factor rules, all functions in the tensor-product class", "why_tests_cant": "Exactness over infinite function classes.", "anchors": ["finat/quadrature.py:make_quadrature", "finat/quadrature.py:TensorProductQuadratureRule"]}
{"id": "C29", "title": "make_quadrature dispatches on the cell and uses the minimal sufficient Gauss rule", "statement": "For an interval, make_quadrature(cell, degree) uses the least number n of Gauss-Legendre points with 2n-1 >= degree; negative degrees raise ValueError; product cells get a tensor rule with one factor per sub-cell and the matching degree; a quadrilateral is treated as its product.", "quantifier": "all cells, degrees and schemes", "why_tests_cant": "All degrees including boundary and negative values, recursively over product cells.", "anchors": ["finat/quadrature.py:make_quadrature"]}
{"id": "C30", "title": "Splitting a point set over the factors loses nothing", "statement": "factor_point_set returns one point set per factor such that, for every assignment of the original point indices, concatenating the selected factor points gives the selected original point.", "quantifier": "all point sets, cells and splittings", "why_tests_cant": "All dimensions and nestings.", "anchors": ["finat/tensor_product.py:factor_point_set"]}
{"id": "C31", "title": "determinant and adjugate are the mathematical ones for every size", "statement": "determinant(A) equals the Leibniz determinant and adjugate(A) the transposed cofactor matrix for square matrices of every size; hence A @ adjugate(A) = det(A) I and piola_inverse(J) @ (J/detJ) = I whenever detJ != 0.", "quantifier": "all square matrices of all sizes over a commutative ring", "why_tests_cant": "Recursion over size; tests use 2x2 and 3x3.", "anchors": ["finat/piola_mapped.py:determinant", "finat/piola_mapped.py:adjugate", "finat/piola_mapped.py:piola_inverse"]}
{"id": "C32", "title": "Normal/tangential facet transforms invert the Piola image of the facet frame", "statement": "The rows computed by normal_tangential_edge_transform / normal_tangential_face_transform express the reference tangential moments of a contravariantly Piola-mapped vector field through its physical normal and tangential moments, for every non-degenerate Jacobian and every facet tangent frame.", "quantifier": "all Jacobians, all tangents", "why_tests_cant": "An identity over all matrices and vectors.", "anchors": ["finat/piola_mapped.py:normal_tangential_edge_transform", "finat/piola_mapped.py:normal_tangential_face_transform"]}
{"id": "C33", "title": "Vertex transforms are the gradient and Hessian chain rules", "statement": "The vertex block used by Argyris, Bell, HCT etc. maps the physical value/gradient/Hessian (upper-triangular) vector of any function to the reference one under an affine map with the given Jacobian, in every spatial dimension, taking the per-vertex scaling by the cell size into account.", "quantifier": "all Jacobians, dimensions, functions (jets)", "why_tests_cant": "All dimensions and Jacobians.", "anchors": ["finat/argyris.py:_vertex_transform"]}
{"id": "C34", "title": "Stress transforms are the double contravariant Piola inverse", "statement": "The matrix of _evaluation_transform applied to the upper-triangular vector of a symmetric tensor S gives the upper-triangular vector of K S K^T with K = adj(J), i.e. it undoes the double contravariant Piola map, in every spatial dimension.", "quantifier": "all Jacobians, symmetric tensors and dimensions", "why_tests_cant": "All dimensions and matrices.", "anchors": ["finat/aw.py:_evaluation_transform"]}
{"id": "C35", "title": "Hermite basis functions are nodal on every physical cell", "statement": "Transforming a reference nodal Hermite basis by basis_transformation gives functions on the physical cell that are nodal for point values and (cell-size scaled) physical gradients at the vertices, for every invertible Jacobian.", "quantifier": "all affine cells, dimensions and reference nodal bases", "why_tests_cant": "All cells; tests use one perturbed triangle.", "anchors": ["finat/hermite.py:Hermite.basis_transformation"]}
{"id": "C36", "title": "Morley basis functions are nodal on every physical triangle", "statement": "Transforming a reference nodal Morley basis gives functions nodal for vertex values and physical normal-derivative averages on edges, for every non-degenerate triangle.", "quantifier": "all affine triangles", "why_tests_cant": "All cells.", "anchors": ["finat/morley.py:Morley.basis_transformation"]}
{"id": "C37", "title": "Argyris/HCT edge-moment transform is integration by parts", "statement": "The edge rows used for integral-variant Argyris and HCT elements express the reference normal-derivative moments against Jacobi polynomials through the physical normal-derivative moments, vertex values and trace moments, exactly, for every moment order and every polynomial.", "quantifier": "all moment orders k, all polynomials, all geometries", "why_tests_cant": "All degrees.", "anchors": ["finat/argyris.py:_edge_transform"]}
{"id": "C38", "title": "Closed-form edge coefficients of point-variant Argyris, Bell and reduced HCT are exact", "statement": "The hard-coded coefficients 15/8, 7/16, 1/32 (Argyris midpoint), 1/21, 1/42, 1/252 (Bell) and 1/5, 1/10 (reduced HCT) express the tangential-derivative functional of any polynomial of the relevant degree on the edge through its end-point jets.", "quantifier": "all polynomials of the relevant degree, all edges", "why_tests_cant": "An identity over an infinite set of polynomials.", "anchors": ["finat/argyris.py:Argyris.basis_transformation", "finat/bell.py:Bell.basis_transformation", "finat/hct.py:ReducedHsiehCloughTocher.basis_transformation"]}
{"id": "C39", "title": "Elements with constrained dofs number the remaining ones contiguously", "statement": "After dropping the constrained facet dofs, PiolaBubbleElement, MardalTaiWinther, Bell and reduced HCT report entity dofs that partition 0..space_dimension()-1 whenever the FIAT element numbers the constrained dofs last, and the transformation matrix has one row per reported dof and one column per FIAT basis function.", "quantifier": "all FIAT layouts with constrained dofs last", "why_tests_cant": "All layouts and dimensions.", "anchors": ["finat/piola_mapped.py:PiolaBubbleElement", "finat/mtw.py:MardalTaiWinther", "finat/bell.py:Bell", "finat/hct.py:ReducedHsiehCloughTocher"]}
{"id": "C40", "title": "Physically mapped tabulation is the matrix-vector product with the basis transformation", "statement": "For physically mapped elements basis function i is the sum over reference functions j of M[i,j] times reference function j for every derivative and value component, so tabulation commutes with linear combinations.", "quantifier": "all transformation matrices and tables", "why_tests_cant": "All sizes.", "anchors": ["finat/physically_mapped.py:PhysicallyMappedElement.basis_evaluation"]}
{"id": "C41", "title": "Direct serendipity elements have a consistent dof layout in every degree", "statement": "DirectSerendipity.entity_dofs() partitions 0..space_dimension()-1 with one dof per vertex, degree-1 per edge and the remainder on the cell, and the symbolic basis has exactly space_dimension() functions.", "quantifier": "all degrees >= 1", "why_tests_cant": "All degrees.", "anchors": ["finat/direct_serendipity.py:DirectSerendipity.entity_dofs", "finat/direct_serendipity.py:DirectSerendipity.space_dimension"]}
{"id": "C42", "title": "Newton divided differences interpolate", "statement": "newton_poly(nodes, values) evaluates to values[i] at nodes[i] for every list of distinct nodes and every list of values, and is a polynomial of degree below the number of nodes.", "quantifier": "all lists of distinct nodes and values over a field", "why_tests_cant": "All lengths.", "anchors": ["finat/direct_serendipity.py:newton_dd", "finat/direct_serendipity.py:newton_poly"]}
{"id": "C43", "title": "Lowest-order direct serendipity functions are nodal, sum to one, reproduce linears and are linear on edges", "statement": "For every strictly convex quadrilateral the four functions of ds1_sym take the value 1 at their own vertex and 0 at the others, sum to 1, reproduce affine functions and restrict to affine functions on each edge (so neighbouring cells match).", "quantifier": "all strictly convex quadrilaterals, all points", "why_tests_cant": "All geometries.", "anchors": ["finat/direct_serendipity.py:ds1_sym"]}
{"id": "C44", "title": "Higher-order direct serendipity functions are nodal", "statement": "For every degree r >= 2 and every strictly convex quadrilateral the functions of dsr_sym are dual to point evaluation at the vertices, the points that divide the edges into r equal parts, and (r-2)(r-3)/2 interior points.", "quantifier": "all degrees r >= 2 and strictly convex quadrilaterals", "why_tests_cant": "All degrees and geometries; tests stop at degree 4 on one cell.", "anchors": ["finat/direct_serendipity.py:dsr_sym"]}
{"id": "C45", "title": "Derivative caching is unobservable", "statement": "For every sequence of tabulation requests DirectSerendipity's derivative cache returns what a fresh computation would return.", "quantifier": "all call histories", "why_tests_cant": "History dependent.", "anchors": ["finat/direct_serendipity.py:DirectSerendipity._basis_deriv"]}
{"id": "C46", "title": "sympy2gem preserves the value of every expression", "statement": "For every supported symbolic expression and every environment, evaluating the translated GEM expression gives the value of the symbolic expression; Piecewise selects the first branch whose condition is true, and unsupported nodes are rejected.", "quantifier": "all expression trees and environments", "why_tests_cant": "Structural induction over an infinite language.", "anchors": ["finat/sympy2gem.py:sympy2gem"]}
{"id": "C47", "title": "Runtime-tabulated symbol names are unique", "statement": "Two runtime tabulation requests that differ in variant, degree, derivative, facet shift, continuity or restriction receive different GEM variable names.", "quantifier": "all parameter combinations (any variant string)", "why_tests_cant": "Infinite parameter space.", "anchors": ["finat/runtime_tabulated.py:RuntimeTabulated.basis_evaluation"]}
{"id": "C48", "title": "UFL element equality is an equivalence compatible with hash and order", "statement": "== on UFL elements is reflexive, symmetric and transitive, != is its negation, equal elements have equal hashes, and < is a strict total order on elements of the same kind, compatible with ==.", "quantifier": "all elements", "why_tests_cant": "Laws over all pairs/triples.", "anchors": ["finat/ufl/finiteelementbase.py:FiniteElementBase.__eq__", "finat/ufl/finiteelementbase.py:FiniteElementBase.__hash__", "finat/ufl/finiteelementbase.py:FiniteElementBase.__lt__"]}
{"id": "C49", "title": "Element family resolution terminates and is idempotent", "statement": "canonical_element_description terminates for every registered family, alias, form-degree description, cell and degree, and feeding its result back in returns the same family, degree, value shape, Sobolev space and mapping.", "quantifier": "all families, cells, degrees, form degrees", "why_tests_cant": "While-loop over alias tables for every degree.", "anchors": ["finat/ufl/elementlist.py:canonical_element_description"]}
{"id": "C50", "title": "Accepted UFL elements respect their family's cell and degree ranges", "statement": "If canonical_element_description accepts (family, cell, degree) then a plain cell is one of the cells the family is registered for, every component of the degree lies in the family's range, the value shape has one axis of the cell's dimension per unit of value rank, and Sobolev space and mapping are the registered ones. A registered family on a plain cell with a whole-number degree is accepted exactly in that case and otherwise rejected with ValueError, and so is an unknown family.", "quantifier": "all inputs", "why_tests_cant": "All degrees and cells.", "anchors": ["finat/ufl/elementlist.py:canonical_element_description"]}
{"id": "C51", "title": "FEEC notation resolves to the documented families", "statement": "The form-degree description (P-, P, Q-, S with form degree k on an n-cell) resolves to a family whose registered cells contain the cell and whose value rank matches the form degree (scalar for k=0 and k=n, vector otherwise), in dimension 1 to 3.", "quantifier": "all FEEC families, dimensions, form degrees and polynomial degrees", "why_tests_cant": "Table of two dozen entries times all degrees.", "anchors": ["finat/ufl/elementlist.py:feec_element", "finat/ufl/elementlist.py:feec_element_l2"]}
{"id": "C52", "title": "reconstruct() without arguments is the identity", "statement": "For every UFL element tree e, e.reconstruct() == e.", "quantifier": "all UFL element trees", "why_tests_cant": "Structural induction over all trees.", "anchors": ["finat/ufl/finiteelement.py:FiniteElement.reconstruct", "finat/ufl/mixedelement.py", "finat/ufl/enrichedelement.py", "finat/ufl/tensorproductelement.py", "finat/ufl/restrictedelement.py", "finat/ufl/hdivcurl.py"]}
{"id": "C53", "title": "reconstruct_from_elements yields an element with the given sub-elements", "statement": "m.reconstruct_from_elements(e_1,...,e_k) has sub-elements e_1,...,e_k, returning m itself only if they are m's own.", "quantifier": "all mixed elements and replacement lists", "why_tests_cant": "All list lengths.", "anchors": ["finat/ufl/mixedelement.py:MixedElement.reconstruct_from_elements"]}
{"id": "C54", "title": "Reference components map one-to-one onto (sub-element, component) pairs", "statement": "MixedElement.extract_subelement_reference_component sends each flat reference component 0..size-1 to a pair (sub-element k, component inside k) such that offset_k plus the row-major position of the component is the original number; out-of-range components are rejected.", "quantifier": "all lists of sub-element shapes and components", "why_tests_cant": "All shapes.", "anchors": ["finat/ufl/mixedelement.py:MixedElement.extract_subelement_reference_component"]}
{"id": "C55", "title": "Symmetric tensor elements number their sub-elements consistently", "statement": "TensorElement(symmetry=True) of shape (n,n) has n(n+1)/2 sub-elements, components (i,j) and (j,i) share a sub-element, different unordered pairs have different ones, every sub-element is used, and the reference size and the pull-back numbering agree with it. For user supplied symmetries: a component listed in the dictionary shares the sub-element of the one it is mapped to, and each sub-element belongs to exactly one component that is not listed; the reference size is the number of sub-elements when all keys are components; the pull-back agrees when every component is mapped to an earlier one.", "quantifier": "all n, all symmetry dictionaries", "why_tests_cant": "All shapes and symmetries.", "anchors": ["finat/ufl/mixedelement.py:TensorElement"]}
{"id": "C56", "title": "Embedded degrees are ordered", "statement": "For every UFL element tree for which both are defined, embedded_subdegree <= embedded_superdegree.", "quantifier": "all trees", "why_tests_cant": "Structural induction.", "anchors": ["finat/ufl/finiteelement.py:FiniteElement.embedded_superdegree", "finat/ufl/mixedelement.py", "finat/ufl/enrichedelement.py", "finat/ufl/tensorproductelement.py"]}
{"id": "C57", "title": "Enriched UFL elements are in the intersection of the Sobolev spaces", "statement": "EnrichedElement.sobolev_space is the smoothest space that contains the space of every sub-element; its degree is the componentwise maximum of the sub-element degrees.", "quantifier": "all lists of sub-elements", "why_tests_cant": "All combinations.", "anchors": ["finat/ufl/enrichedelement.py:EnrichedElementBase.sobolev_space"]}
{"id": "C58", "title": "Tabulating spectral elements at their own nodes gives the identity", "statement": "GaussLobattoLegendre/GaussLegendre return the identity for point sets of their own type with as many points as basis functions on the cell interior, and this equals the ordinary tabulation because the basis is nodal there; on facets or other point sets the ordinary tabulation is returned.", "quantifier": "all degrees, point sets and entities", "why_tests_cant": "A shortcut that must be equal to the slow path for all degrees.", "anchors": ["finat/spectral.py:GaussLobattoLegendre.basis_evaluation", "finat/spectral.py:GaussLegendre.basis_evaluation"]}
{"id": "C59", "title": "UFL tensor-product expansion of cube families keeps degree and embedding data", "statement": "FiniteElement on a tensor-product cell for Q, DQ, DQ L2, RTCF, RTCE, NCF, NCE returns an element tree of products with the documented factor families and degrees; components of the product have degrees (r, r-1, ...) in the positions required for the H(div)/H(curl) complex.", "quantifier": "all degrees and nested product cells", "why_tests_cant": "All degrees and cells.", "anchors": ["finat/ufl/finiteelement.py:FiniteElement.__new__"]}
{"id": "C60", "title": "tree_map combines degree trees componentwise", "statement": "The degree of an enriched element is the componentwise maximum of the sub-elements' degree trees: it is an upper bound of each and the least one; trees of different shape are rejected.", "quantifier": "all degree trees and lists", "why_tests_cant": "All nestings.", "anchors": ["finat/enriched.py:tree_map"]}
{"id": "C61", "title": "Point evaluation agrees with tabulation and differentiates the same functions", "statement": "point_evaluation(order, point, entity) on every supported element tree returns, for every derivative multi-index up to the order, the same numbers basis_evaluation returns at a one-point point set at the value of the symbolic point; entities whose product has a vertex factor are rejected rather than evaluated wrongly.", "quantifier": "all element trees, orders, points and entities", "why_tests_cant": "Point evaluation goes through a separate symbolic code path for every element type.", "anchors": ["finat/tensor_product.py:TensorProductElement.point_evaluation", "finat/fiat_elements.py:point_evaluation_generic", "finat/enriched.py:EnrichedElement.point_evaluation", "finat/cube.py:FlattenedDimensions.point_evaluation", "finat/tensorfiniteelement.py:TensorFiniteElement.point_evaluation"]}
{"id": "C62", "title": "Piola-mapped vector elements are nodal on every physical cell", "statement": "For AlfeldSorokina, the Piola-mapped facet bubble elements (Bernardi-Raugel and similar) and MardalTaiWinther, the functions M phi with M = basis_transformation and phi the contravariant Piola images of the FIAT functions are dual to the element's degrees of freedom on the physical cell: point values and divergences in Cartesian components, facet moments along the image of the facet frame. Constrained degrees of freedom of the kept functions vanish.", "quantifier": "all affine cells of dimension 2 or 3, all layouts of the FIAT element, all functionals the components are measured with", "why_tests_cant": "All geometries; errors in block placement show only on non-orthogonal cells.", "anchors": ["finat/piola_mapped.py:PiolaMappedElement.basis_transformation", "finat/alfeld_sorokina.py:AlfeldSorokina.basis_transformation", "finat/bernardi_raugel.py", "finat/mtw.py:MardalTaiWinther.basis_transformation"]}
{"id": "C63", "title": "Double-Piola-mapped stress elements are nodal on every physical cell", "statement": "For ArnoldWintherNC, ArnoldWinther, HuZhang (both variants) and JohnsonMercier, the functions M phi with M = basis_transformation and phi the double contravariant Piola images of the FIAT functions are dual to the element's degrees of freedom on the physical cell: vertex components (scaled by the squared cell size), components of the traction along the image of the facet frame, interior degrees of freedom pulled back.", "quantifier": "all affine cells, all degrees and variants, all functionals", "why_tests_cant": "All geometries and degrees.", "anchors": ["finat/aw.py:ArnoldWinther.basis_transformation", "finat/aw.py:ArnoldWintherNC.basis_transformation", "finat/hz.py:HuZhang.basis_transformation", "finat/johnson_mercier.py:JohnsonMercier.basis_transformation"]}
{"id": "C64", "title": "Equal UFL elements are interchangeable", "statement": "Two UFL elements that compare equal (==) agree in class, cell, degree, value shape, quadrature scheme, variant, mapping, embedded degrees, Sobolev space and, recursively, in all their parts.", "quantifier": "all pairs of element trees that the constructors can build", "why_tests_cant": "Equality goes through repr; that it forgets nothing must hold for all pairs of trees.", "anchors": ["finat/ufl/finiteelementbase.py:FiniteElementBase.__eq__", "finat/ufl/finiteelement.py:FiniteElement.__repr__", "finat/ufl/mixedelement.py", "finat/ufl/hdivcurl.py"]}
{"id": "C65", "title": "A mixed element lies in a Sobolev space that contains those of its sub-elements", "statement": "MixedElement.sobolev_space, and that of vector and tensor elements, is the least smooth of the sub-elements' spaces: it is one of them and contains all others.", "quantifier": "all lists of sub-elements", "why_tests_cant": "All combinations and orders of sub-elements.", "anchors": ["finat/ufl/mixedelement.py:MixedElement.sobolev_space"]}
{"id": "C66", "title": "A short name or alias of a finite element family means the family it abbreviates", "statement": "Calling the UFL element constructor with an alias or a short name ('RT', 'BDM', 'N1curl', 'CG', ...) describes exactly the same element, or fails in exactly the same way, as calling it with the full family name, on every cell and for every degree and form degree.", "quantifier": "all aliases and short names of the element list, all cells, degrees and form degrees", "why_tests_cant": "All combinations of names, cells, degrees and form degrees.", "anchors": ["finat/ufl/elementlist.py:aliases", "finat/ufl/elementlist.py:canonical_element_description"]}
{"id": "C67", "title": "Direct serendipity functions are continuous between cells", "statement": "For every degree, a direct serendipity function whose node is not on an edge vanishes on this edge, and the interpolants of the same nodal values on two strictly convex quadrilaterals agree at every point of an edge they share, whatever the number and the direction of the edge in the two cells.", "quantifier": "all degrees, pairs of strictly convex quadrilaterals with a common edge, nodal values and points of the edge", "why_tests_cant": "All geometries and values; tests compare single cells with tabulated numbers.", "anchors": ["finat/direct_serendipity.py:ds1_sym", "finat/direct_serendipity.py:dsr_sym"]}
{"id": "C68", "title": "Direct serendipity spaces contain all polynomials of their degree", "statement": "For every degree r and every strictly convex quadrilateral, every polynomial of total degree at most r is the combination of the direct serendipity functions with its values at the nodes, at every point of the plane.", "quantifier": "all degrees, strictly convex quadrilaterals, polynomials and points", "why_tests_cant": "All geometries and polynomials.", "anchors": ["finat/direct_serendipity.py:ds1_sym", "finat/direct_serendipity.py:dsr_sym"]}
{"id": "C69", "title": "The closure dofs an element returns are those of its own dofs", "statement": "Whatever class computes them, entity_closure_dofs() lists for every entity, sorted and without repetitions, exactly the dofs that entity_dofs() of the same element has on the sub-entities; in particular no number reaches space_dimension().", "quantifier": "all element trees, including elements backed by a FIAT element with further, constrained dofs", "why_tests_cant": "Classes that override entity_dofs and classes that delegate entity_closure_dofs must agree on every cell and layout.", "anchors": ["finat/fiat_elements.py:FiatElement.entity_closure_dofs", "finat/mixed.py:MixedSubElement.entity_closure_dofs", "finat/hdivcurl.py:WrapperElementBase.entity_closure_dofs", "finat/finiteelementbase.py:FiniteElementBase.entity_closure_dofs", "finat/bell.py:Bell.entity_dofs"]}
{"id": "C70", "title": "Support dofs are exactly the functions that do not vanish on the entity", "statement": "entity_support_dofs() lists for every entity of the cell, in increasing order and once, exactly the dofs whose basis function is not identically zero on the entity, on plain elements and through tensor products, flattened products, enriched, mixed and H(div)/H(curl) elements.", "quantifier": "all element trees, entities and basis functions", "why_tests_cant": "All functions on all entities; numerical integration with a threshold decides.", "anchors": ["finat/finiteelementbase.py:FiniteElementBase._entity_support_dofs", "finat/tensor_product.py:TensorProductElement._entity_support_dofs", "finat/enriched.py:EnrichedElement._entity_support_dofs", "finat/cube.py:FlattenedDimensions._entity_support_dofs", "finat/mixed.py:MixedSubElement.entity_support_dofs", "finat/hdivcurl.py:WrapperElementBase.entity_support_dofs"]}
{"id": "C71", "title": "A coordinate mapping reaches every part that needs it", "statement": "basis_evaluation(order, ps, entity, coordinate_mapping=...) of an element with physically mapped parts returns the table of the transformed basis functions, however the parts are nested; without a coordinate mapping such an element raises instead of returning untransformed functions.", "quantifier": "all element trees, orders, point sets and entities", "why_tests_cant": "Every composite class forwards its arguments separately; all nestings must forward the mapping.", "anchors": ["finat/tensor_product.py:TensorProductElement.basis_evaluation", "finat/cube.py:FlattenedDimensions.basis_evaluation", "finat/hdivcurl.py:WrapperElementBase.basis_evaluation", "finat/enriched.py:EnrichedElement.basis_evaluation", "finat/mixed.py:MixedSubElement.basis_evaluation", "finat/discontinuous.py:DiscontinuousElement.basis_evaluation", "finat/tensorfiniteelement.py:TensorFiniteElement.basis_evaluation", "finat/physically_mapped.py:PhysicallyMappedElement.basis_evaluation"]}
{"id": "C72", "title": "Entity permutations of composed elements permute the dofs of each entity", "statement": "Whenever entity_permutations of an element returns a table, it covers exactly the entities of the cell, and for every orientation of an entity it gives a permutation of the dofs that entity_dofs() has on the entity. For tensor products the orientations are the combinations of an axis permutation and one orientation per factor, the permutation moves the multi-indices of the dofs axis by axis (the identity for unmoved axes and identity factors), and a flattened product has the same permutations under the flattened numbers. Elements for which no meaning is defined raise NotImplementedError.", "quantifier": "all element trees over FIAT elements with valid permutation tables, all entities and orientations; parts of an enriched element have the same orientations", "why_tests_cant": "All nestings, entities and orientations.", "anchors": ["finat/tensor_product.py:TensorProductElement.entity_permutations", "finat/cube.py:FlattenedDimensions.entity_permutations", "finat/enriched.py:EnrichedElement.entity_permutations", "finat/enriched.py:concatenate_entity_permutations", "finat/discontinuous.py:DiscontinuousElement.entity_permutations", "finat/hdivcurl.py:WrapperElementBase.entity_permutations", "finat/tensor_product.py:compose_permutations"]}
{"id": "C73", "title": "Orientation maps of quadrature rules describe symmetries of the rules", "statement": "The rule make_quadrature returns has one intrinsic orientation map per axis of the cell; renumbering the points by the permutations it lists moves every point as the symmetries of the axes do and keeps its weight, so integrals of functions composed with these symmetries do not change. Rules of one degree on products of copies of a cell are also symmetric under the axis exchanges of extrinsic_orientation_permutation_map. Missing maps are refused with ValueError.", "quantifier": "all cells, degrees, schemes, orientations of every axis, integrands", "why_tests_cant": "All combinations of cells, degrees and orientations.", "anchors": ["finat/quadrature.py:AbstractQuadratureRule.intrinsic_orientation_permutation_map_tuple", "finat/quadrature.py:AbstractQuadratureRule.extrinsic_orientation_permutation_map", "finat/quadrature.py:TensorProductQuadratureRule", "finat/quadrature.py:make_quadrature"]}
{"id": "C74", "title": "is_cellwise_constant() is true only of elements that are constant on cells", "statement": "If is_cellwise_constant() of a UFL element returns True then every simple element it is made of is global (Real) or contained in Lagrange of degree zero; and an element made of simple elements of degree zero returns True.", "quantifier": "all UFL elements that the constructors can build, of any nesting", "why_tests_cant": "All nestings of element constructors.", "anchors": ["finat/ufl/finiteelementbase.py:FiniteElementBase.is_cellwise_constant", "finat/ufl/mixedelement.py:MixedElement.is_cellwise_constant", "finat/ufl/enrichedelement.py:EnrichedElement.is_cellwise_constant", "finat/ufl/restrictedelement.py:RestrictedElement.is_cellwise_constant"]}
{"id": "C75", "title": "The pullback of a UFL element is the one that belongs to all of its parts", "statement": "Every simple element has the pullback its mapping names. A pullback that performs one mapping is the pullback of every part of the element that has a mapping of its own; elements whose parts need different pullbacks raise ValueError instead (or return a mixed or symmetric pullback).", "quantifier": "all UFL elements that the constructors can build, of any nesting", "why_tests_cant": "All nestings of element constructors and all registered families.", "anchors": ["finat/ufl/finiteelementbase.py:FiniteElementBase.pullback", "finat/ufl/mixedelement.py:TensorElement.pullback", "finat/ufl/enrichedelement.py:EnrichedElementBase.mapping", "finat/ufl/tensorproductelement.py:TensorProductElement.mapping"]}
{"id": "C76", "title": "The degree of an element bounds its basis functions", "statement": "If an element has a degree then every component of every basis function is a polynomial of that degree: total degree on a simplex, degree in each coordinate on quadrilaterals and hexahedra, factor by factor on products of cells; tabulated derivatives beyond the degree are zero. A flattened product has a degree exactly when all factors have the same one, otherwise asking raises ValueError.", "quantifier": "all element trees over FIAT elements, all points and derivative orders", "why_tests_cant": "All nestings of element constructors, all derivatives and points.", "anchors": ["finat/fiat_elements.py:FiatElement.degree", "finat/tensor_product.py:TensorProductElement.degree", "finat/cube.py:FlattenedDimensions.degree", "finat/enriched.py:EnrichedElement.degree", "finat/enriched.py:tree_map"]}
{"id": "C77", "title": "The mapping of an element is the mapping of all its basis functions", "statement": "An element has a mapping exactly when all its basis functions have that mapping: functions of FIAT elements have the one FIAT lists, a product of functions that of the only factor that is not affine, wrapped functions the Piola mapping of the wrapper. None is returned exactly when the basis functions have no common mapping.", "quantifier": "all element trees over FIAT elements with any lists of mappings", "why_tests_cant": "All nestings of element constructors and all lists of mappings.", "anchors": ["finat/fiat_elements.py:FiatElement.mapping", "finat/tensor_product.py:TensorProductElement.mapping", "finat/enriched.py:EnrichedElement.mapping", "finat/hdivcurl.py:HDivElement.mapping", "finat/hdivcurl.py:HCurlElement.mapping", "finat/tensorfiniteelement.py:TensorFiniteElement.mapping"]}
{"id": "C78", "title": "Form degrees say where degrees of freedom are", "statement": "An element of form degree k has no degrees of freedom on entities of dimension less than k, and k is at most the dimension of the cell; in particular an element whose form degree is the dimension of the cell has all of them in the interior. The form degrees of H(div) and H(curl) wrappers are those of the elements they accept.", "quantifier": "all element trees over FIAT elements", "why_tests_cant": "All nestings of element constructors.", "anchors": ["finat/finiteelementbase.py:FiniteElementBase.formdegree", "finat/tensor_product.py:TensorProductElement.formdegree", "finat/enriched.py:EnrichedElement.formdegree", "finat/discontinuous.py:DiscontinuousElement.formdegree", "finat/hdivcurl.py:HDivElement.formdegree", "finat/hdivcurl.py:HCurlElement.formdegree"]}
{"id": "C79", "title": "reconstruct replaces degree, quadrature scheme and variant everywhere", "statement": "When e.reconstruct(degree=d, quad_scheme=q, variant=v) returns, with any of them left out, the result is composed as e is and each simple part has the given arguments replaced and family, cell, value shape, Sobolev space and mapping unchanged. Two calls in a row are one call with the arguments of both, the later winning. Another variant is always accepted and changes neither cell, degree, scheme nor value shape.", "quantifier": "all UFL elements the constructors can build, all degrees, schemes and variants", "why_tests_cant": "All nestings of UFL elements and all argument values.", "anchors": ["finat/ufl/finiteelement.py:FiniteElement.reconstruct", "finat/ufl/mixedelement.py:MixedElement.reconstruct", "finat/ufl/mixedelement.py:VectorElement.reconstruct", "finat/ufl/mixedelement.py:TensorElement.reconstruct", "finat/ufl/tensorproductelement.py:TensorProductElement.reconstruct", "finat/ufl/enrichedelement.py:EnrichedElementBase.reconstruct", "finat/ufl/hdivcurl.py:WithMapping.reconstruct"]}
{"id": "C80", "title": "variant() is the variant of all parts", "statement": "e.variant() returns a variant exactly when all simple parts of e have that variant.", "quantifier": "all UFL element trees", "why_tests_cant": "All nestings of UFL elements.", "anchors": ["finat/ufl/mixedelement.py:MixedElement.variant", "finat/ufl/tensorproductelement.py:TensorProductElement.variant", "finat/ufl/enrichedelement.py:EnrichedElementBase.variant", "finat/ufl/brokenelement.py:BrokenElement"]}
{"id": "C81", "title": "reconstruct moves an element to another cell", "statement": "When e.reconstruct(cell=c) returns, the result is an element on c, and all its parts are on c or, in products, on the factors of c.", "quantifier": "all UFL elements the constructors can build, all cells", "why_tests_cant": "All nestings of UFL elements and all cells.", "anchors": ["finat/ufl/tensorproductelement.py:TensorProductElement.reconstruct", "finat/ufl/finiteelement.py:FiniteElement.reconstruct"]}
{"id": "C82", "title": "Interpolating a finite element function gives back its coefficients", "statement": "Let e be an element with a dual basis whose FIAT parts have functionals dual to their basis functions. A function given by coefficients in the basis of e can be evaluated by basis_evaluation of e at the points dual_evaluation asks for, and e.dual_evaluation of it is the tensor of coefficients, read through the index tuple returned with it. Interpolating the interpolant of any function gives the same coefficients again.", "quantifier": "all trees of FIAT, quadrature, tensor product, flattened, discontinuous, tensor-valued, HDiv and HCurl elements in which no two quadrature elements share a rule, all coefficient tensors, all functions", "why_tests_cant": "All element trees, coefficients and functions.", "anchors": ["finat/finiteelementbase.py:dual_evaluation", "finat/tensorfiniteelement.py:dual_evaluation", "finat/quadrature_element.py:basis_evaluation", "finat/quadrature_element.py:dual_basis", "finat/tensor_product.py:dual_basis", "finat/fiat_elements.py:basis_evaluation"]}
{"id": "C83", "title": "Functions of conforming elements are continuous in the sense of their space", "statement": "Let e be built from conforming FIAT elements by the constructions meant for H1, H(div) or H(curl): products, flattening, sums, mixed and tensor-valued elements, and HDivElement/HCurlElement of an element times an interval element. The trace on an entity of the cell (values for H1, normal components on facets for H(div), tangential components for H(curl)) of a basis function whose number is not in entity_closure_dofs() of the entity is zero. So two functions whose coefficients agree on the closure dofs of an entity have the same trace there. The discontinuous variant of an element with a non-zero trace does not have this property.", "quantifier": "all conforming element trees, all entities of the cell, all points of the entity, all coefficients", "why_tests_cant": "All element trees, entities, points and coefficients; tests look at sample points of sample elements.", "anchors": ["finat/hdivcurl.py:select_hdiv_transformer", "finat/hdivcurl.py:select_hcurl_transformer", "finat/tensor_product.py:entity_dofs", "finat/tensor_product.py:_factor_entity", "finat/cube.py:FlattenedDimensions", "finat/enriched.py:entity_dofs", "finat/finiteelementbase.py:entity_closure_dofs", "finat/discontinuous.py:entity_dofs"]}
{"id": "C84", "title": "Entity permutations follow the orientation of the entities", "statement": "Cells that share an entity see it with different orientations, so that its points have different coordinates. Let entity_permutations of an element built from FIAT elements by products, flattening, sums, H(div)/H(curl) wrappers and discontinuous wrappers return a table. For every entity and listed orientation the list p is a permutation of the positions of the dofs on the entity, and basis function number j on the entity at a point is basis function number p[j] at the turned point. So two cells get the same function on the entity when the second takes its coefficients through p. The tables of the FIAT elements are assumed to do so for their own cells, and axes of products are assumed to be exchanged between equal scalar factors only; for different factors with as many dofs the claim fails.", "quantifier": "all element trees with entity permutations, all entities, orientations, points, components and coefficients", "why_tests_cant": "All element trees, orientations and points; the test suite compares tables of a few elements with printed lists.", "anchors": ["finat/tensor_product.py:compose_permutations", "finat/tensor_product.py:entity_permutations", "finat/cube.py:entity_permutations", "finat/enriched.py:entity_permutations", "finat/enriched.py:concatenate_entity_permutations", "finat/hdivcurl.py:entity_permutations", "finat/discontinuous.py:entity_permutations", "finat/fiat_elements.py:entity_permutations"]}
{"id": "C85", "title": "Basis functions of composed elements are linearly independent", "statement": "A finite element function that is zero on the whole cell has only zero coefficients, so space_dimension() is the dimension of the space that the basis functions span, and a client that tabulates the element and contracts with coefficients can recover the coefficients. This holds for every element built from FIAT elements with independent basis functions by products, flattening, blocks of vectors and tensors, mixed elements, H(div)/H(curl) wrappers, discontinuous wrappers, and enrichment with elements whose spaces meet only in zero. An enriched element is independent exactly when its summands are and their sum is direct; mixed elements need no condition. Nothing checks that a sum is direct: an element can be enriched with itself.", "quantifier": "all element trees, all coefficients, all sets of points that make up the cells", "why_tests_cant": "All element trees and all coefficients; a test can only compute the rank of a few tables.", "anchors": ["finat/tensor_product.py:TensorProductElement", "finat/enriched.py:EnrichedElement", "finat/mixed.py:MixedElement", "finat/tensorfiniteelement.py:TensorFiniteElement", "finat/hdivcurl.py:WrapperElementBase", "finat/cube.py:FlattenedDimensions"]}
{"id": "C86", "title": "The FIAT equivalent of an element has the same functions in the same numbering", "statement": "element.fiat_equivalent is an element of FIAT with as many functions, the same value shape and the same functions: basis function i of the element, for a multi-index i of its index_shape, is function number ravel(i) of the equivalent, for every derivative, point and value component. So code that tabulates or numbers degrees of freedom through FIAT agrees with code that goes through FInAT. Elements that FIAT cannot express raise: products with other than two factors, vector and tensor elements made of blocks, mixed elements of one element, quadrature elements with points known at run time only.", "quantifier": "all element trees, all indices, derivatives, points and components", "why_tests_cant": "Element trees nest without bound; a test compares tables of some elements at some points.", "anchors": ["finat/finiteelementbase.py:fiat_equivalent", "finat/enriched.py:EnrichedElement.fiat_equivalent", "finat/tensor_product.py:TensorProductElement.fiat_equivalent", "finat/cube.py:FlattenedDimensions.fiat_equivalent", "finat/hdivcurl.py:HDivElement.fiat_equivalent", "finat/quadrature_element.py:QuadratureElement.fiat_equivalent"]}
{"id": "C87", "title": "Quadrature elements reproduce the integrals of their rule", "statement": "make_quadrature_element(cell, degree) succeeds for every cell and degree for which FIAT has the rules and gives a scalar element on that cell with one degree of freedom for each quadrature point. Tabulated at the points of its own rule, coefficient i is the value at point i: the quadrature sum of u g over the point indices is the sum of weight, coefficient and g at the points. In particular a function interpolated into the element (dual_evaluation) and integrated against g with the rule gives the exact integral whenever the product is a polynomial of at most the requested degree. The constructor accepts exactly quadrature rules whose points have as many coordinates as the cell; anything else raises TypeError or ValueError.", "quantifier": "all cells (products of products), degrees, schemes, rules, coefficient vectors, functions", "why_tests_cant": "Cells nest without bound and the coefficients are arbitrary; a test compares some integrals to rounding.", "anchors": ["finat/quadrature_element.py:make_quadrature_element", "finat/quadrature_element.py:QuadratureElement", "finat/quadrature.py:make_quadrature"]}
{"id": "C88", "title": "Questions about one component are answered by the part it belongs to", "statement": "element.degree(component) and element.is_cellwise_constant(component) of a UFL element answer for the part of the element that the component belongs to: for a mixed, vector or tensor element that of the sub-element, for an element without sub-elements that of the element itself.", "quantifier": "all UFL element trees, all components", "why_tests_cant": "Trees nest without bound and the component is arbitrary; no test asks with a component.", "anchors": ["finat/ufl/mixedelement.py:MixedElement.degree", "finat/ufl/mixedelement.py:MixedElement.is_cellwise_constant", "finat/ufl/mixedelement.py:extract_component", "finat/ufl/finiteelementbase.py:FiniteElementBase.degree"]}
{"id": "C89", "title": "Sobolev spaces of product elements, axis by axis", "statement": "The Sobolev space of a UFL tensor product element gives for each axis the space of the factor that the axis belongs to: axis j of factor k is axis (dimensions of the factors before k) + j of the product. A product whose factors have one space has that space. An element is recognised to be in a space only if each factor is in that space along each of its axes, and, for H1 and the like, if every factor is.", "quantifier": "all products of UFL elements, nested without bound, all axes, all spaces", "why_tests_cant": "Factors and nesting are arbitrary; tests look at products of two factors.", "anchors": ["finat/ufl/tensorproductelement.py:TensorProductElement.sobolev_space"]}
{"id": "C90", "title": "The operators *, + and [] of UFL elements build what they stand for", "statement": "a * b is the mixed element of a and b: these are its sub-elements, and its components are those of a followed by those of b. The grouping of * does not matter to components. a + b and b + a exist together and agree in cell, degree, quadrature scheme, value shape and Sobolev space. e[domain] restricts e to a named domain and changes neither cell, degree nor shape, and its sub-elements are restricted too; other indices raise KeyError, operands that are not elements ValueError. num_sub_elements counts sub_elements.", "quantifier": "all UFL elements, operands, indices, components", "why_tests_cant": "Elements nest without bound; tests check few combinations and no algebraic law.", "anchors": ["finat/ufl/finiteelementbase.py:FiniteElementBase.__mul__", "finat/ufl/finiteelementbase.py:FiniteElementBase.__add__", "finat/ufl/finiteelementbase.py:FiniteElementBase.__getitem__", "finat/ufl/restrictedelement.py:RestrictedElement.sub_elements"]}
{"id": "C91", "title": "Functions of C1 elements are continuously differentiable across a common edge", "statement": "On two triangles with a common edge, take functions of the Argyris element (any degree, integral or point variant), the Hsieh-Clough-Tocher element (any degree), Bell or reduced Hsieh-Clough-Tocher element, each a combination of the transformed basis functions of its cell. If the coefficients of the common vertices and of the common edge agree, the functions and all their first derivatives agree along the edge. Hermite functions (any dimension) whose coefficients agree at the ends of a common edge agree along it.", "quantifier": "all pairs of affine cells with a common edge and the same cell sizes there, all degrees, all coefficients", "why_tests_cant": "Conformity is what the transformations are for; tests look at one pair of cells and a few points.", "anchors": ["finat/argyris.py:Argyris.basis_transformation", "finat/hct.py:HsiehCloughTocher.basis_transformation", "finat/hct.py:ReducedHsiehCloughTocher.basis_transformation", "finat/bell.py:Bell.basis_transformation", "finat/hermite.py:Hermite.basis_transformation"]}
{"id": "C92", "title": "What a UFL composite reports is that of its parts", "statement": "A mixed element is on the one cell of its parts and uses their one quadrature scheme (parts on different cells make a ValueError); it has as many reference values as its parts together, and its degree covers the degree of every part, in every direction; if the degrees are numbers it is the largest of them. A tensor product is on the product of the cells of its factors in their order (or on the cell given) and lists their degrees in the same order; its value shape is that of its one non-scalar factor. H(div) and H(curl) wrappers have the contravariant and covariant Piola mapping, Sobolev space HDiv and HCurl, and are vector fields of the dimension of the cell. A changed mapping gives the value shape of fields mapped that way. Restricting and breaking keep cell, degree, scheme, shape and mapping.", "quantifier": "all elements, all lists of parts, all mappings", "why_tests_cant": "The degree, cell, shape and mapping drive form compilation (quadrature degree estimation, pullbacks); tests look at single elements.", "anchors": ["finat/ufl/mixedelement.py:MixedElement.__init__", "finat/ufl/tensorproductelement.py:TensorProductElement.__init__", "finat/ufl/hdivcurl.py:HDivElement", "finat/ufl/hdivcurl.py:HCurlElement", "finat/ufl/hdivcurl.py:WithMapping", "finat/ufl/restrictedelement.py:RestrictedElement.__init__", "finat/ufl/brokenelement.py:BrokenElement.__init__"]}
{"id": "C93", "title": "Normal components and tractions are continuous across facets", "statement": "Two physical cells have a facet in common and on each there is a field of the same Piola-mapped element, given by coefficients in the basis after basis_transformation. If the coefficients of the common facet (and of its vertices) agree then: for Johnson-Mercier (in two and three dimensions), Arnold-Winther and Hu-Zhang elements of every degree and both variants the tractions agree at every point of the facet; for non-conforming Arnold-Winther elements the normal components of the tractions agree and the first two moments of the tangential components; for Mardal-Tai-Winther elements the normal components agree and the tangential components have the same mean.", "quantifier": "all pairs of affine cells with a common facet, on either side and with any numbering, all coefficients", "why_tests_cant": "Conformity of the space depends on every pair of neighbouring cells; tests compute convergence rates on a few meshes.", "anchors": ["finat/johnson_mercier.py:JohnsonMercier.basis_transformation", "finat/aw.py:ArnoldWinther.basis_transformation", "finat/aw.py:ArnoldWintherNC.basis_transformation", "finat/hz.py:HuZhang.basis_transformation", "finat/mtw.py:MardalTaiWinther.basis_transformation"]}
{"id": "C94", "title": "Powell-Sabin functions are continuously differentiable across edges, Morley functions on average", "statement": "Two physical triangles have an edge in common and on each there is a function of the same element, given by coefficients in the basis after basis_transformation; the coefficients of the common vertices and of the common edge agree. Then: functions of QuadraticPowellSabin12 and of QuadraticPowellSabin6 have the same values and the same first derivatives along the whole edge; functions of Morley elements have the same values at its end points and the same means of all first derivatives over it.", "quantifier": "all pairs of affine triangles with a common edge, with any numbering and any sizes at the vertices, all coefficients", "why_tests_cant": "Conformity depends on every pair of neighbouring cells; tests compute convergence rates on a few meshes.", "anchors": ["finat/powell_sabin.py:QuadraticPowellSabin6.basis_transformation", "finat/powell_sabin.py:QuadraticPowellSabin12.basis_transformation", "finat/morley.py:Morley.basis_transformation"]}
{"id": "C95", "title": "Vector fields of the Piola-mapped elements with point values are continuous across facets", "statement": "Two physical cells have a facet in common and on each there is a vector field of the same element, given by coefficients in the basis after basis_transformation; the coefficients of the common facet (as entity_dofs numbers them) and of the entities in its boundary agree. Then all components of the two fields agree along the whole facet, for AlfeldSorokina and for the elements with normal facet bubbles (BernardiRaugel, GuzmanNeilan..., ChristiansenHu, ReducedArnoldQin); where divergences are among the degrees of freedom (AlfeldSorokina, GuzmanNeilanH1div), the divergences agree along the facet as well.", "quantifier": "all pairs of affine triangles or tetrahedra with a common facet, with any numbering, orientation and shape, all coefficients", "why_tests_cant": "Conformity depends on every pair of neighbouring cells; tests compute convergence rates on a few meshes.", "anchors": ["finat/piola_mapped.py:PiolaBubbleElement.basis_transformation", "finat/piola_mapped.py:PiolaBubbleElement.entity_dofs", "finat/alfeld_sorokina.py:AlfeldSorokina.basis_transformation", "finat/bernardi_raugel.py:BernardiRaugel", "finat/guzman_neilan.py:GuzmanNeilanH1div"]}
{"id": "C96", "title": "Tabulations, dual bases and integrals have no free indices but those of the points", "statement": "The expressions returned by basis_evaluation (with or without a coordinate mapping) have their free indices among ps.indices; those of point_evaluation among the free indices of the point; the tensor Q of dual_basis among the indices of the returned point set; the expression of dual_evaluation among the returned basis indices and the indices the given function has besides those of the points; weight_expression of a quadrature rule among the indices of its points. The expression evaluated inside entity_support_dofs has none, so its assertion never fails. Hence entries of a table do not change with the value of any other index.", "quantifier": "all element trees, all orders, entities, point sets and rules, all results that are returned", "why_tests_cant": "Every index created on the way (for basis functions, components, sums) has to be bound again in every combination of nested elements; tests evaluate a few elements whose results happen to be closed.", "anchors": ["finat/finiteelementbase.py:FiniteElementBase.basis_evaluation", "finat/finiteelementbase.py:FiniteElementBase.point_evaluation", "finat/finiteelementbase.py:FiniteElementBase.dual_evaluation", "finat/finiteelementbase.py:FiniteElementBase._entity_support_dofs", "finat/fiat_elements.py:FiatElement._dual_basis", "finat/quadrature.py:QuadratureRule.weight_expression"]}
{"id": "C97", "title": "Vector and tensor elements made from a family equal those made from the element", "statement": "VectorElement(family, cell, degree, dim, form_degree, quad_scheme, variant) is VectorElement(FiniteElement(family, cell, degree, form_degree, quad_scheme, variant), dim=dim), and the same for TensorElement with shape and symmetry; where one raises an exception the other raises the same. The result is on the given cell and has the given variant, quadrature scheme and number of components (the dimension of the cell unless given).", "quantifier": "all families, cells, degrees, dimensions, shapes, symmetries, form degrees, schemes and variants", "why_tests_cant": "Tests construct a few elements one way or the other; equality of the two ways needs that FiniteElement keeps cell and variant for every family and cell, also where it is expanded into products.", "anchors": ["finat/ufl/mixedelement.py:VectorElement.__init__", "finat/ufl/mixedelement.py:TensorElement.__init__", "finat/ufl/finiteelement.py:FiniteElement.__new__"]}
{"id": "C98", "title": "Results do not depend on what has been computed before", "statement": "Whatever a program did before, and however many indices it created: basis_evaluation, point_evaluation, dual_basis, dual_evaluation, make_quadrature with its weight expression and entity_support_dofs, called again with the same arguments, raise the same exception or return results with the same keys, shapes, points and values; entity_support_dofs returns the same dictionary. Expressions from different calls may differ in the names of the indices they create, and nowhere else.", "quantifier": "all elements, orders, point sets, entities, FIAT tables, quadrature rules and functions to interpolate, and all pairs of moments after the arguments were created", "why_tests_cant": "Indices are numbered by a global counter, so a result that used a captured or stale index would depend on everything done before; tests run each construction once in a fresh process.", "anchors": ["finat/finiteelementbase.py:FiniteElementBase.dual_evaluation", "finat/fiat_elements.py:FiatElement.basis_evaluation", "finat/tensor_product.py:TensorProductElement.basis_evaluation", "finat/quadrature.py:make_quadrature", "finat/finiteelementbase.py:entity_support_dofs"]}
{"id": "C99", "title": "The embedded degrees of a UFL element bound the polynomials of its space", "statement": "Take as the space of a UFL element what its parts make of the spaces of its simple elements: mixed, vector and tensor elements put the functions of their parts into their own components, tensor products multiply functions of separate coordinates, enriched elements add functions. Then embedded_superdegree bounds the total degree of every function of the element, and all polynomials of total degree up to embedded_subdegree, in every component, are functions of the element.", "quantifier": "All elements that can be built through the constructors, over any field, and all spaces of the simple elements that respect the embedded degrees of these", "why_tests_cant": "The form compiler picks quadrature degrees and interpolation spaces from these two numbers; a test looks at the numbers of a few elements, while that they bound the functions of any composition of elements is a statement about spaces, for all ways of composing them.", "anchors": ["finat/ufl/finiteelement.py:FiniteElement.embedded_superdegree", "finat/ufl/finiteelement.py:FiniteElement.embedded_subdegree", "finat/ufl/mixedelement.py:MixedElement.embedded_superdegree", "finat/ufl/tensorproductelement.py:TensorProductElement.embedded_superdegree", "finat/ufl/tensorproductelement.py:TensorProductElement.embedded_subdegree", "finat/ufl/enrichedelement.py:EnrichedElementBase.embedded_superdegree", "finat/ufl/hdivcurl.py:HDivElement.embedded_subdegree", "finat/ufl/finiteelementbase.py:FiniteElementBase.embedded_superdegree", "finat/ufl/brokenelement.py:BrokenElement.embedded_superdegree"]}
{"id": "C100", "title": "Registering UFL families and aliases", "statement": "Whatever has been registered before, register_element raises ValueError exactly if the family is already registered, and then changes nothing. A family that could be registered is found under its name and its short name, with the data it was registered with on the cells and orders it was registered for, and is rejected with ValueError on others. A new alias gives what the family it stands for gives. Registrations do not change what canonical_element_description returns for arguments accepted before.", "quantifier": "All histories of calls of register_element and register_alias with any arguments, alias functions included; all families, cells, orders and form degrees", "why_tests_cant": "The two dictionaries are global and mutable: any code may extend them at any time. A test sees one history; that earlier descriptions survive must hold for every sequence of registrations, by induction over it.", "anchors": ["finat/ufl/elementlist.py:register_element", "finat/ufl/elementlist.py:register_alias", "finat/ufl/elementlist.py:canonical_element_description", "finat/ufl/elementlist.py:ufl_elements", "finat/ufl/elementlist.py:aliases"]}
{"id": "C101", "title": "The repr of a UFL element evaluates to the element", "statement": "Reading repr(e) as a Python expression and evaluating it with the classes of finat.ufl gives an element equal to e, made of equal parts. The text can be read in one way only.", "quantifier": "All elements that can be built through the constructors, nested to any depth, with all keyword arguments", "why_tests_cant": "Elements are compared, hashed, cached on disk and sent between processes by their repr; a test evaluates the text of a few elements, while the statement is about every tree of elements and every combination of optional arguments.", "anchors": ["finat/ufl/finiteelement.py:FiniteElement.__repr__", "finat/ufl/mixedelement.py:MixedElement.__repr__", "finat/ufl/mixedelement.py:VectorElement.__init__", "finat/ufl/mixedelement.py:TensorElement.__init__", "finat/ufl/tensorproductelement.py:TensorProductElement.__repr__", "finat/ufl/enrichedelement.py:EnrichedElement.__repr__", "finat/ufl/enrichedelement.py:NodalEnrichedElement.__repr__", "finat/ufl/hdivcurl.py:HDivElement.__repr__", "finat/ufl/hdivcurl.py:WithMapping.__repr__", "finat/ufl/restrictedelement.py:RestrictedElement.__repr__", "finat/ufl/brokenelement.py:BrokenElement.__repr__"]}
{"id": "C102", "title": "Interpolation is linear, local, and separable on tensor products", "statement": "dual_evaluation gives for a f + b g the combination of the coefficients of f and g; functions with the same values at the points of the dual basis have the same coefficients; the coefficients of a product g(x) h(y) ... in a tensor product element are the products of the coefficients of g, h, ... in the factors.", "quantifier": "All elements with a dual basis (no sums or mixed elements inside, FIAT functionals without derivatives, quadrature elements with different point indices), nested to any depth, all functions and scalars, any number of factors", "why_tests_cant": "A test interpolates particular functions into particular elements; the statement is about all functions, including those that depend on further indices, and all trees of elements.", "anchors": ["finat/finiteelementbase.py:FiniteElementBase.dual_evaluation", "finat/tensorfiniteelement.py:TensorFiniteElement.dual_evaluation", "finat/tensor_product.py:TensorProductElement.dual_basis", "finat/fiat_elements.py:FiatElement._dual_basis", "finat/quadrature_element.py:QuadratureElement.dual_basis"]}
{"id": "C103", "title": "Tabulating on an entity is tabulating on the cell at the places of the points", "statement": "basis_evaluation (or point_evaluation) with an entity gives, entry by entry, the same values and derivatives as without entity at the places in the cell where the entity puts the points: through any nesting of products, flattened cubes, sums, mixed, vector and H(div)/H(curl) elements, for every facet, edge and vertex.", "quantifier": "All element trees over leaves that FIAT tabulates through the entity transforms of its simplices, all entities of the cell (cubes numbered as FIAT numbers them), all points and derivative orders", "why_tests_cant": "A test compares particular facets of particular elements; the statement is about every entity of every composite cell, and about how entity numbers are decomposed at every level of the tree.", "anchors": ["finat/tensor_product.py:TensorProductElement.basis_evaluation", "finat/tensor_product.py:TensorProductElement._factor_entity", "finat/cube.py:FlattenedDimensions.basis_evaluation", "finat/fiat_elements.py:FiatElement.basis_evaluation", "finat/enriched.py:EnrichedElement.basis_evaluation", "finat/mixed.py:MixedSubElement.basis_evaluation", "finat/tensorfiniteelement.py:TensorFiniteElement.basis_evaluation", "finat/hdivcurl.py:WrapperElementBase.basis_evaluation"]}
{"id": "C104", "title": "Element matrices of tensor products are Kronecker products, and collocated spectral mass matrices are diagonal", "statement": "With a product of quadrature rules, every entry of an element matrix of a tensor product element (sum over the points of weight times a derivative of one basis function times a derivative of another) is the product of the entries of the matrices of the factors. If the factors are spectral elements and the rules have their nodes as points, the mass matrix is diagonal with the products of the weights. The same holds for the quadrilaterals and hexahedra made from such products.", "quantifier": "All tensor products of any number of elements (composite factors included), all rules on the cells of the factors with different point indices, all derivatives, functions and components", "why_tests_cant": "A test assembles particular matrices for particular degrees; the statement (sum factorisation) is about all factors, rules and multi-indices.", "anchors": ["finat/tensor_product.py:TensorProductElement.basis_evaluation", "finat/tensor_product.py:TensorProductElement._merge_evaluations", "finat/quadrature.py:TensorProductQuadratureRule", "finat/spectral.py:GaussLobattoLegendre.basis_evaluation", "finat/spectral.py:GaussLegendre.basis_evaluation", "finat/cube.py:FlattenedDimensions.basis_evaluation"]}
{"id": "C105", "title": "A rule of the sum of the degrees integrates products of basis functions exactly", "statement": "With the quadrature rule made for the sum of the degrees of two elements (factor by factor on products of cells, or one number at least the sum of the largest degrees), the sum over the points of weight times a derivative of a basis function of one element times a derivative of a basis function of the other is the integral of their product over the reference cell. With a rule of a lower degree it need not be.", "quantifier": "All pairs of element trees with polynomial FIAT leaves on the same cell (no hexahedra), all derivatives, functions and components", "why_tests_cant": "A test compares particular matrices with integrals known for them; the statement is about all elements, degrees and derivatives, and connects the degree elements report with the degree rules are made for.", "anchors": ["finat/quadrature.py:make_quadrature", "finat/quadrature.py:TensorProductQuadratureRule", "finat/tensor_product.py:TensorProductElement.degree", "finat/tensor_product.py:TensorProductElement.basis_evaluation", "finat/enriched.py:EnrichedElement.degree", "finat/cube.py:FlattenedDimensions.degree", "finat/fiat_elements.py:FiatElement.basis_evaluation"]}
{"id": "C106", "title": "A UFL element that is pickled or copied comes back equal", "statement": "pickle.loads(pickle.dumps(e)), copy.deepcopy(e) and copy.copy(e) give an element equal to e. In particular FiniteElement.__new__, called with the stored arguments, accepts them and creates a simple element again, also on product cells, where it turns some families into products.", "quantifier": "All elements the constructors can build, all recursion limits", "why_tests_cant": "A test pickles a few elements; which families, cells and nestings can be loaded again depends on family tables and on attribute look-up in objects that are not initialised.", "anchors": ["finat/ufl/finiteelement.py:FiniteElement.__getnewargs__", "finat/ufl/finiteelement.py:FiniteElement.__new__", "finat/ufl/hdivcurl.py:WithMapping.__getattr__"]}
{"id": "C107", "title": "Composite elements contain the polynomials of their degree, and interpolation reproduces them", "statement": "If the FIAT elements at the leaves contain all polynomials of their degree, then a tensor product, flattened tensor product, sum, vector, tensor or discontinuous element made of them contains, in every component, every polynomial of the degree that the composite element reports; and dual_evaluation of such a polynomial returns coefficients whose finite element function is the polynomial.", "quantifier": "All trees of products, flattened products of intervals and quadrilaterals with one degree, sums with a complete summand of the degree of the sum, vectors, tensors and discontinuous elements; all polynomials of the degree; all points", "why_tests_cant": "A test interpolates a few polynomials in a few elements; the claim is about all polynomials, all nestings, and all points.", "anchors": ["finat/tensor_product.py:TensorProductElement", "finat/cube.py:FlattenedDimensions", "finat/enriched.py:EnrichedElement", "finat/tensorfiniteelement.py:TensorFiniteElement", "finat/finiteelementbase.py:FiniteElementBase.dual_evaluation"]}
{"id": "C108", "title": "Products of Lagrange elements sum to one, and the coefficients of Bernstein elements bound their functions", "statement": "If the basis functions of the FIAT elements at the leaves sum to one, then so do those of a tensor product, flattened tensor product, vector, tensor or discontinuous element made of them, in every component and at every point, and their derivatives sum to zero; the tables that basis_evaluation returns show the same sums. If the basis functions of the leaves are also nowhere negative, then a function of the composite element is everywhere between its smallest and its largest coefficient.", "quantifier": "All trees of products, flattened products of intervals and quadrilaterals, vectors, tensors and discontinuous elements; all leaves with these properties; all derivatives, points of the cell, components and coefficients", "why_tests_cant": "A test adds up the entries of a few tables; the claim is about all nestings, all points and all derivatives.", "anchors": ["finat/tensor_product.py:TensorProductElement", "finat/cube.py:FlattenedDimensions", "finat/tensorfiniteelement.py:TensorFiniteElement", "finat/fiat_elements.py:Lagrange", "finat/fiat_elements.py:Bernstein", "finat/finiteelementbase.py:FiniteElementBase.basis_evaluation"]}
{"id": "C109", "title": "An element is polynomial on every piece of its complex", "statement": "If the basis functions of the FIAT elements at the leaves are polynomials of their degree on each piece of their complex, then for every composite element that has a complex the basis functions are polynomials on each piece of it, of the degree the element reports, together with all derivatives; the tables that basis_evaluation returns for points of one piece are values of derivatives of one polynomial per function; and a rule for a piece of a complex at least as fine as those of two elements, exact for the sum of their degrees, integrates all products of their basis functions exactly. The complex of a sum is that of a summand and at least as fine as those of all others; for complexes that are not products it is found whenever it exists, in whatever order the set of complexes is traversed.", "quantifier": "All element trees without quadrature elements; all complexes and splittings whose pieces are cut from those of the parent; all pieces, functions, components, derivatives and points", "why_tests_cant": "A test looks at a few macroelements; integration over the pieces is right only if no function has a kink inside a piece, for all nestings of products, sums, vectors and H(div)/H(curl) elements.", "anchors": ["finat/finiteelementbase.py:FiniteElementBase.complex", "finat/fiat_elements.py:FiatElement.complex", "finat/tensor_product.py:TensorProductElement.complex", "finat/cube.py:FlattenedDimensions.complex", "finat/enriched.py:EnrichedElement.complex", "finat/mixed.py:MixedSubElement.complex", "finat/discontinuous.py:DiscontinuousElement.complex", "finat/tensorfiniteelement.py:TensorFiniteElement.complex", "finat/hdivcurl.py:WrapperElementBase.complex", "finat/cell_tools.py:max_complex"]}
{"id": "C110", "title": "Gradient, curl and divergence map the tensor product elements on squares and prisms into each other", "statement": "Let a and b be scalar elements on the interval for 0-forms and 1-forms such that the derivative of every function of a is a function of b (for example CG of degree k+1 and DG of degree k). Then HDivElement and HCurlElement accept the products of a and b in both orders; the gradient of every function of a x a is a function of the sum of the two HCurlElements, the curl of every function of that sum is a function of b x b, the turned gradient of every function of a x a is a function of the sum of the two HDivElements, and the divergence of every function of that sum is a function of b x b. Likewise on prisms over a plane cell: if p, n, d are elements for 0-, 1- and 2-forms on the plane cell with gradients of p in n and curls of n in d (or, for elements with normal components, turned gradients of p in n and divergences of n in d), then the constructors accept all products, and gradient, curl and divergence map p x a into HCurlElement(n x a) + HCurlElement(p x b), this into HDivElement(n x b) + HDivElement(d x a), and this into d x b. FlattenedDimensions has the functions of the product, and the flattened elements on quadrilaterals built from a and b satisfy these hypotheses, so the statement covers hexahedral products as well. If every function of b is the derivative of one of a, then every function of the last space is the divergence (on the square also the curl) of a function of the space before. In terms of basis_evaluation: there is a matrix, independent of the points, that expresses the divergence of every basis function, taken from the tables of first derivatives, by the tabulated values of the last element. If the dimensions of the complexes on the factors alternate to one, so do those of the products. On the square, if moreover a contains the constants and only constants have derivative zero, every function of the sum of the HCurlElements with curl zero is the gradient, and every function of the sum of the HDivElements with divergence zero is the turned gradient, of a function of a x a; and only constants of a x a have gradient zero.", "quantifier": "All pairs of elements on the interval and triples on plane cells (leaves or composite) with these form degrees and mappings, all functions (linear combinations of basis functions with any coefficients), all points and all further derivatives, over any commutative ring", "why_tests_cant": "A test can compare dimensions or evaluate some basis functions; mixed methods are stable only if the operators map one space into the next for every coefficient vector, which depends on the component each factor is put in.", "anchors": ["finat/hdivcurl.py:HDivElement", "finat/hdivcurl.py:HCurlElement", "finat/hdivcurl.py:select_hdiv_transformer", "finat/hdivcurl.py:select_hcurl_transformer", "finat/tensor_product.py:TensorProductElement", "finat/enriched.py:EnrichedElement"]}
