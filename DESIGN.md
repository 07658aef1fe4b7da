# Design

Formal model of FInAT (`/repo`, Python) in Lean 4. This file was written before the proofs and is kept up to date with them.

## Plan per property

- **C01** entity_dofs() partitions the degrees of freedom of every element tree. Elem tree (Model/Elem), `entityDofs` defined by recursion through the models of productise, concatenate_entity_dofs, flatten_entities, TensorFiniteElement; proved by structural induction, `Perm (flatten dofs) (range dim)`.
- **C02** space_dimension() equals the product of index_shape. Same tree; induction.
- **C03** An enriched element numbers dofs by block offsets, entity by entity. Model of concatenate_entity_dofs as nested folds over association lists; closed form proved by induction on the element list.
- **C04** Tensor-product dof numbers are row-major products of factor dofs. Model of productise with itertools.product, sorted, ravel_multi_index; closed form by list induction.
- **C05** Product entity numbers used for dofs and for tabulation agree. unravel_index vs position in product enumeration; ravel/unravel lemmas.
- **C06** Flattened entities carry the dofs of the product entity they are tabulated on. Models of FIAT flatten_entities and compute_unflattening_map (trusted transcriptions); induction over the sorted topology.
- **C07** Dof numbers agree with the row-major position in index_shape for vector/tensor-valued elements. Model of _entity_dofs in both layouts; row-major arithmetic.
- **C08** Closure dofs are exactly the dofs on all sub-entities. Model of _entity_closure_dofs over abstract sub-entity relation.
- **C09** Discontinuous and quadrature elements put all dofs on the cell. Direct from the models.
- **C10** Enriched elements are always flat, order preserving and associative. Smart constructor model; invariant over all constructor histories (inductive predicate of reachable elements).
- **C11** Enriched entity permutations are permutations acting block-wise. Model with setdefault folds; permutation predicate.
- **C12** Enriched tabulation is the sub-element's tabulation. Tables as shaped functions; model of Concatenate.
- **C13** Mixed elements place every sub-element's value in its own block. Model of MixedElement offsets and _transform.
- **C14** Tensor-product tabulation is the derivative of the product function. Tables of MvPolynomial derivatives; model of _merge_evaluations; chain rule for renamed variables.
- **C15** Vector/tensor-valued elements have component-aligned basis functions. Delta product model.
- **C16** H(div)/H(curl) wrapping never hits an unreachable branch and preserves lengths. Selection functions as decision procedures returning Except; isometry.
- **C17** H(div) and H(curl) wrappers of the same 2D product are rotations of each other. Corollary of the transformer models.
- **C18** FIAT tables are re-indexed without permuting values. reshape/transpose by flat offsets; degree argument with MvPolynomial.totalDegree.
- **C19** The dual basis tensor represents every functional. Fold model of the dictionary build; invariant by induction over nodes/points.
- **C20** Composite dual bases are dual to composite basis functions. Contraction algebra over finite sums. False when two quadrature elements of one product share their point indices: counterexample + partial.
- **C21** dual_evaluation returns coefficients in index_shape order. Returned index tuple compared with index_shape; expected to be false for transpose=True: negation + partial.
- **C22** Quadrature element tabulation is the identity on its own points and rejected elsewhere. Decision logic + delta product.
- **C23** Restriction keeps exactly the basis functions attached to the requested entities. Labelled basis model: restriction acts on lists of (entity dims, basis function). Partial: trees with a restriction rule at every node.
- **C24** Codimension and restriction-domain names convert consistently. Total functions on Int/Nat.
- **C25** Restriction preserves the value shape. Expected false for mixed elements: negation with witness + partial theorem.
- **C26** Restricting an unsupported element raises NotImplementedError. Expected false (returns the exception): negation with witness + partial theorem.
- **C27** Tensor quadrature points, weights and indices are consistent. List products and row-major lemmas.
- **C28** Product quadrature is exact whenever the factor rules are. Linear functionals on functions, finite sums; induction over factors.
- **C29** make_quadrature dispatches on the cell and uses the minimal sufficient Gauss rule. Model of make_quadrature over an inductive cell type.
- **C30** Splitting a point set over the factors loses nothing. Slices of coordinate lists.
- **C31** determinant and adjugate are the mathematical ones for every size. Matrices as functions Fin n → Fin n → R; Laplace expansion = Matrix.det, Matrix.adjugate.
- **C32** Normal/tangential facet transforms invert the Piola image of the facet frame. Field identities (2x2 / 3x3) and their interpretation for Piola images.
- **C33** Vertex transforms are the gradient and Hessian chain rules. Matrix over Fin d / index pairs list; sums over symmetric pairs.
- **C34** Stress transforms are the double contravariant Piola inverse. Same technique.
- **C35** Hermite basis functions are nodal on every physical cell. Matrix block model; linear functionals; chain rule.
- **C36** Morley basis functions are nodal on every physical triangle. Same with tangential averages = vertex differences.
- **C37** Argyris/HCT edge-moment transform is integration by parts. Polynomial integration by parts; Jacobi end-point values.
- **C38** Closed-form edge coefficients of point-variant Argyris, Bell and reduced HCT are exact. Polynomial identities for coefficients of degree <= 5.
- **C39** Elements with constrained dofs number the remaining ones contiguously. List model of the renumbering.
- **C40** Physically mapped tabulation is the matrix-vector product with the basis transformation. Matrix-vector product.
- **C41** Direct serendipity elements have a consistent dof layout in every degree. List model.
- **C42** Newton divided differences interpolate. Induction on the divided-difference table.
- **C43** Lowest-order direct serendipity functions are nodal, sum to one, reproduce linears and are linear on edges. Field identities with explicit non-degeneracy hypotheses.
- **C44** Higher-order direct serendipity functions are nodal. Functions on K x K, structure of the construction, Newton interpolation as a lemma.
- **C45** Derivative caching is unobservable. State machine: memo table invariant.
- **C46** sympy2gem preserves the value of every expression. Two deep embeddings and an evaluator for each; the memo table is an invariant over all call histories.
- **C47** Runtime-tabulated symbol names are unique. Strings as character lists; injectivity by parsing from the right.
- **C48** UFL element equality is an equivalence compatible with hash and order. Model on (type tag, repr).
- **C49** Element family resolution terminates and is idempotent. Tables transcribed; fuel-free termination measure; `decide +kernel` over tables lifted to all strings.
- **C50** Accepted UFL elements respect their family's cell and degree ranges. Same model.
- **C51** FEEC notation resolves to the documented families. Same model.
- **C52** reconstruct() without arguments is the identity. UFL tree model; induction.
- **C53** reconstruct_from_elements yields an element with the given sub-elements. Expected false for different lengths (zip truncation): negation + partial.
- **C54** Reference components map one-to-one onto (sub-element, component) pairs. Fold model of the loop; arithmetic.
- **C55** Symmetric tensor elements number their sub-elements consistently. Model of the numbering loop and the pull-back loop; counts of free components; limits of user symmetries as counterexamples.
- **C56** Embedded degrees are ordered. Induction over trees.
- **C57** Enriched UFL elements are in the intersection of the Sobolev spaces. The parents of each space transcribed from ufl; joins checked on the nine spaces, then induction over the list.
- **C58** Tabulating spectral elements at their own nodes gives the identity. Guard model + nodality hypothesis.
- **C59** UFL tensor-product expansion of cube families keeps degree and embedding data. Recursive model of __new__; the expected trees are written out in Spec/UflProduct.lean. Partial: the DQ families for factors that are simplices or cubes.
- **C64** Equal UFL elements are interchangeable. repr as a token sequence, uniquely readable; the token sequence determines a built element because `reconstruct` is the identity (C52).
- **C65** A mixed element lies in a Sobolev space that contains those of its sub-elements. Model of Python's max with the order of ufl, which is not total: negation + partial.
- **C66** A short name or alias of a finite element family means the family it abbreviates. Independent table of synonyms in the specification; the description is shown equal for each of them on any cell.
- **C67** Direct serendipity functions are continuous between cells. Every function of the basis is a polynomial plus two supplementary functions whose restriction to an edge is a polynomial; polynomials on an edge are determined by their nodal values. False in degree three: counterexample over ℚ + partial.
- **C68** Direct serendipity spaces contain all polynomials of their degree. Dimension count: the space of the previous line has as many generators as the basis has functions, nodality makes evaluation surjective, hence injective. False in degree three: counterexample + partial.
- **C69** The closure dofs an element returns are those of its own dofs. Dispatch over the element classes, FIAT's table of a leaf as data; reduction to C08. False for constrained dofs: counterexample (Bell) + partial.
- **C70** Support dofs are exactly the functions that do not vanish on the entity. Model of the quadrature of the squared functions; a non-negative polynomial with integral zero vanishes on a box; composition rules by induction over trees. False below the threshold: counterexample + partial.
- **C71** A coordinate mapping reaches every part that needs it. `basis_evaluation` with a flag that says whether the mapping has been passed on; induction over trees. False below products and wrappers: proved for every input + partial.
- **C72** Entity permutations of composed elements permute the dofs of each entity. Model of the dictionaries and of the scatter through axis permutations; induction over trees, multi-index arithmetic for products. FIAT's tables are data (`FiatPerms`).
- **C73** Orientation maps of quadrature rules describe symmetries of the rules. Rules with their orientation data, erased to the rules of C27-C29; flattening of nested products to a list of axes, then induction over the axes. FIAT's maps of simple rules are data with a hypothesis (`OrientOK`).
- **C74** is_cellwise_constant() is true only of elements that are constant on cells. Model of the method for all classes; induction over trees of constructors with the degrees they store; counterexamples for bubbles, broken sums and products.
- **C75** The pullback of a UFL element is the one that belongs to all of its parts. Dispatch on mapping names and its overrides, checked against all registered families; induction over trees; counterexample for sums.
- **C76** The degree of an element bounds its basis functions. Induction over trees on the polynomials of C14; degrees are trees that follow the cells; derivatives beyond the degree vanish by degree counting.
- **C77** The mapping of an element is the mapping of all its basis functions. Mapping of a single basis function defined by recursion (Spec/FnMapping); both directions by induction over trees.
- **C78** Form degrees say where degrees of freedom are. Induction over trees with C03-C07 and C09; counterexample for sums of different form degrees.
- **C79** reconstruct replaces degree, scheme and variant everywhere. Model of `reconstruct(**kwargs)` (Model/Ufl/Keywords.lean); relation between trees by induction over the tree, simple elements through the idempotence of C49.
- **C80** variant() is the variant of all parts. Induction over the tree; counterexample for broken elements.
- **C81** reconstruct moves an element to another cell. Induction over the tree; counterexample for products.
- **C82** Interpolating a finite element function gives back its coefficients. The points of a dual basis are points the element can be tabulated at (induction over the tree), then tabulation (C01-C06), dual evaluation (C21) and duality (C20) are combined. The client program that evaluates the function is in Spec/Interpolate.
- **C83** Functions of conforming elements are continuous in the sense of their space. Spec/Trace states sub-entities, tangents and normals abstractly (`Frame`), the trace functionals and the conforming constructions; induction over these with the description of basis functions by entities (`attached`); then through C69 to `entity_closure_dofs()`.
- **C84** Entity permutations follow the orientation of the entities. Spec/Turn states turns of entities abstractly (`Turn`, with what tuples and integers stand for in products and flattened cells) and what a list has to do (`Follows`); induction over the tree, with the description of product lists by multi-indices (C72) and a reindexed product of factor values.
- **C85** Basis functions of composed elements are linearly independent. Spec/Independent states independence through finite element functions (Spec/Interpolate) and directness of sums; induction over the tree, products by fixing the point in one factor, H(div)/H(curl) by the placement of components (C10), and `C85_dimension` relates it to Mathlib's `finrank` of a span.
- **C86** The FIAT equivalent of an element has the same functions in the same numbering. Model/FiatEquivalent builds the tree of FIAT constructor calls; Spec/FiatEquivalent says what the functions of such a tree are, independently of FInAT; induction over the element tree. Partial: sums of several mixed elements are refuted.
- **C87** Quadrature elements reproduce the integrals of their rule. Model/QuadratureElement has the constructor with its checks and make_quadrature_element; Spec/QuadratureElement has the sum that generated code evaluates. Combines makeQuadrature_spec (induction over the cell), the identity table and dual evaluation.
- **C88** Questions about one component are answered by the part it belongs to. Model/Ufl/Query has the call chain of `degree(component)` and `is_cellwise_constant(component)`, with the number of arguments of each call; the answer of sub-elements is a parameter, so that the failure does not depend on it.
- **C89** Sobolev spaces of product elements, axis by axis. Model/Ufl/Space extends the spaces of C65 by directional ones; spec: position of an axis in the product. Induction over the list of factors for the orders, over trees for the agreement with C65.
- **C90** The operators *, + and [] of UFL elements build what they stand for. Model/Ufl/Operators; uses the components of C54 for `*`, the order of degrees of C56 for the symmetry of `+`.
- **C91** Functions of C1 elements are continuously differentiable across a common edge. Spec/Smooth (common edge, C1 across it), Lemmas/SmoothPoly (a polynomial with m-fold roots at both ends and vanishing moments is zero, by positivity of an integral), Lemmas/Smooth; from the nodality theorems C35, C37, C38.
- **C92** What a UFL composite reports is that of its parts. Deg.Covers and shapeOfMapping in Props/UflData are the specification; unfolding of the constructors, induction over the fold of numpy.maximum.
- **C93** Normal components and tractions are continuous across facets. Spec/Traction (functions on a facet, SameTangents, Unisolvent); from the nodality of C62 and C63: the difference of the two fields has no functional on the facet, so its normal (and tangential) components vanish there; normal and tangents of an image form a basis.
- **C94** Powell-Sabin functions are continuously differentiable across edges, Morley functions on average. Spec/SmoothSplit; the nodality theorems of C35, C36, C37 give the jets and edge moments of both functions, so those of the difference vanish; a quadratic spline with one knot and a linear one with vanishing mean are then zero. For the split in six: quadratic pieces that meet smoothly in a line have the same derivative in its direction. Partial: refuted for QuadraticPowellSabin6 on general meshes.
- **C95** Vector fields of the Piola-mapped elements with point values are continuous across facets. Spec/Traction; from the nodality of C62: values, frame components of the bubbles (tangential ones vanish as constraints) and divergences of the difference of the two fields vanish; normal and tangents are a basis, so all components do; the divergence of a Piola image is the divergence over the determinant.
- **C96** Tabulations, dual bases and integrals have no free indices but those of the points. Spec/FreeIndices: free indices and respect for shapes of an expression, by recursion (C96_meaning: values depend on the free indices only). Postconditions of every construction step, composed over the element tree.
- **C97** Vector and tensor elements made from a family equal those made from the element. The cell and variant of what FiniteElement returns, by cases over the expansion; then both constructors run the same steps.
- **C98** Results do not depend on what has been computed before. Every construction commutes with moving the indices created later than its arguments; with C96 the values are the same.
- **C99** The embedded degrees of a UFL element bound the polynomials of its space. Functions are lists of coordinates to numbered components over any field; `space` is defined by recursion over the element, from the spaces of the simple elements. Upper bound: products of polynomials in separate coordinates have the sum of the degrees. Lower bound: a monomial is split into those of the factors, a component number into quotient and remainder.
- **C100** Registering UFL families and aliases. The dictionaries are a state; a call gives the new state and perhaps an exception. As a user's aliases may run in circles, `canonical_element_description` is a big-step relation, shown to be the function of the earlier model when nothing has been registered. Meanings of known names are kept by each call about new names, by induction by each history; a successful description looks up known names only.
- **C101** The repr of a UFL element evaluates to the element. Grammar and evaluation of call expressions are a separate specification: an expression is a piece or a call with positional and keyword arguments; `Expr.text` writes it, `Expr.value` evaluates it by calling the constructors. The expression of an element is given by recursion; its text is `repr`, and its value is the element because elements are fixed by `reconstruct()` (C52). Unambiguity: texts of expressions form a prefix code.
- **C102** Interpolation is linear, local, and separable on tensor products. Linearity and locality follow from the contraction property of the dual basis (C20) and from what `dual_evaluation` does with it (C21, C82). Separability: induction over the factors, with the functional of the first factor applied to a function of its own variables times a constant.
- **C103** Tabulating on an entity is tabulating on the cell at the places of the points. The tabulation theorem (C14) gives both tables as values of the leaves on their factor entities. By induction over the tree, the place of a point on an entity of a product is the list of places on the factor entities (mixed-radix numbering), and the unflattened entity of a cube is the same place (decided over the finitely many entities of the two cubes).
- **C104** Element matrices of tensor products are Kronecker products, and collocated spectral mass matrices are diagonal. The sum over the values of the point indices is the nested sum over the points of the rules (C27), the table entries are products of functions of the factors' points (C14); induction over the factors takes the sum of the first factor out. Nodal factors give 0/1 values at their own points (C58).
- **C105** A rule of the sum of the degrees integrates products of basis functions exactly. Made for a cell, the rule has points that follow the structure of the cell (makeQuadrature_points), so that every tree can be tabulated there (admits_rule). Table entries are derivatives of polynomials (C14) of the element's degree (C76); products of monomials of two degrees are within the sum (within_sum), where the rule is exact (C28); linearity does the rest.
- **C106** A UFL element that is pickled or copied comes back equal. Model of `__new__`, `__getnewargs__` and `WithMapping.__getattr__` with a bound on the depth of calls, and of Python's protocol: create, look up `__setstate__`, restore the attributes. `FiniteElement(...)` is shown to be `__new__` followed by `__init__` (newFe_eq); since an element is returned by its own reconstruct (C52), `__new__` returns a new object for its arguments. Induction over the tree; induction over the limit for WithMapping.
- **C107** Composite elements contain the polynomials of their degree, and interpolation reproduces them. The lower bound that goes with C76. Spec: monomials of the degree in one component. Induction over the tree: products of coefficients for products of cells, coefficients of one component for tensors, coefficients of one summand for sums. Polynomials are sums of monomials and finite element functions are linear in the coefficients. Interpolation: the polynomial is a finite element function, the degrees of freedom look only at values (lawful), and C20/C82 give back its coefficients.
- **C108** Products of Lagrange elements sum to one, and the coefficients of Bernstein elements bound their functions. Spec: the sum over the basis functions of a derivative at a point of the cell is one for the values and zero for the derivatives; non-negative values. Induction over the tree: a sum over a product of index sets of a product is the product of the sums, and a multi-index is zero iff its parts are; in a tensor only the functions of one component count. Bounds: sums weighted with non-negative weights of sum one. Tables: C01's tabulation theorem.
- **C109** An element is polynomial on every piece of its complex. Model/Complex: complexes as chains of splittings and products, comparison, max_complex, the complex property of every class. Spec: pieces of a complex as regions, products of regions for products. A finer complex has smaller pieces (induction over the chain and over the factors). Induction over the element tree: products of polynomials in separate variables on products of pieces, components of wrapped elements, summands on pieces that lie inside pieces of their own complex. Order: Python's max as a fold finds the greatest element of a chain.
- **C110** Gradient, curl and divergence map the tensor product elements on squares and prisms into each other. Spec: functions with all derivatives, the span of the basis functions of an element, grad, rot, curl, div. Lemmas: spans are closed under sums and multiples; products of functions of the factors are functions of the product and derivatives act on one factor; wrapped elements and sums are taken apart and put together. On prisms the operators along the plane cell and along the interval act on one factor each; quadrilaterals satisfy the hypotheses of the prism theorems by the theorems on squares. Onto: antiderivatives along the interval factor, basis function by basis function. Tables: the tabulation theorem for both elements. Exactness on the square: integrate the first component along the first factor; the rest does not depend on the first variable (functions of a product with one variable fixed are functions of the other factor) and is integrated along the second. Exactness on prisms is not proved.
- **C60** tree_map combines degree trees componentwise. Rose trees.
- **C61** Point evaluation agrees with tabulation. Same GEM semantics, the symbolic tabulation of FIAT/sympy is data (`SymOK`).
- **C62** Piola-mapped vector elements are nodal on every physical cell. Whole matrices of C32/C39 models acting on abstract fields (`Spec/PiolaNodes`): a row of the transformation is correct when it expresses the physical node of Piola images by reference nodes; rows are established through the loops, then dualised.
- **C63** Double-Piola-mapped stress elements are nodal on every physical cell. Same technique with tractions.

## Conventions

- Python exceptions are values (`Except`), dictionaries are association lists in insertion order, tuples of indices are `List Nat`.
- GEM tensors are modelled by their meaning: functions from multi-indices (and point-index assignments) to values of a commutative ring/field; floating point is replaced by exact arithmetic.
- FIAT, gem, numpy and ufl are not in the repository. Their behaviour is either transcribed (`ravel_multi_index`, `unravel_index`, `mis`, `flatten_entities`, `compute_unflattening_map`) or passed in as data with a hypothesis. Both are part of the trusted base.

## Layout of the Lean project

- `Verif/Py`: Python data (association lists, `ndindex`, `itertools.product`, `mis`, exceptions as values).
- `Verif/Model`: the code, function by function. Every definition cites the lines it models.
- `Verif/Spec`: small specifications written without the model's helpers.
- `Verif/Lemmas`: proofs about the model.
- `Verif/Props`: the theorems `Cnn_...` claimed in MANIFEST.json and, beside each, a concrete case that meets its hypotheses.
- `seeded/LOG.jsonl`: wrong programs tried on the model and the theorems that failed.

## Trusted base

### Logic

Lean 4.33.0 kernel and Mathlib's definitions. Axioms: every claimed theorem depends on a subset of `propext`, `Classical.choice`, `Quot.sound` (checked with `#print axioms` on all names in MANIFEST.json). No `sorry`, no added axioms, no `native_decide` or `bv_decide`, no `implemented_by`.

### Fidelity of the model

The definitions under `lean/Verif/Model` are transcriptions by hand. Nothing checks them against Python except reading. General simplifications:

- Floating-point numbers are elements of an arbitrary commutative ring or field, or of ℚ. `np.isclose` and `almost_equal` are equality, or an uninterpreted relation passed in as data where only its outcome matters.
- Python integers are `Nat` where they cannot be negative in a reachable state, otherwise `Int`.
- Expressions (GEM, sympy) are finite trees with a value; object identity of GEM indices is a number drawn from a counter (`Gem.M`). GEM's own simplifications at construction (zero folding and so on) are not modelled: constructors build plain nodes. They preserve values, so a statement about values is unaffected.
- Citations, warnings, logging and `__str__` are not modelled. Pickling is modelled for UFL elements only (Model/Ufl/Pickle), after the documentation of Python's protocol.

### External functions that are transcribed

From memory of their public source, because the packages are not in the sandbox:

| package | function | where |
| --- | --- | --- |
| numpy | `ravel_multi_index`, `unravel_index`, `ndindex`, `reshape`, `transpose`, `cross` | Py/Basic, Model/FiatTab, Model/Piola |
| FIAT | `mis`, cell topologies and their order, `flatten_entities`, `compute_unflattening_map`, `TensorProductCell._split_slices`, `construct_subelement`, `RestrictedElement`, `compute_edge_tangent` on the UFC triangle, `Cell.is_parent`, `TensorProductCell.compare`, `max_complex` | Py/Basic, Model/Cell, Model/Restrict, Model/Zany, Model/Complex |
| gem | `Index`, `Indexed`, `ComponentTensor`, `Concatenate`, `ListTensor`, `IndexSum`, `Delta`, `partial_indexed` (meaning), `node.Memoizer` | Model/Gem, Model/Sympy2gem |
| ufl | cell dimensions and names, `sobolevspace` order and parents (directional spaces left out), `max_degree`, `shape_to_strides`, `unflatten_index`, `compute_indices` | Model/Ufl |

### External behaviour that is a hypothesis

- FIAT tabulation (`Fiat`, `SymOK`): `tabulate(order, points, entity)` is a dictionary over all derivative multi-indices up to `order` whose entries have one row per basis function and one column per point. Where a theorem speaks of derivatives, the rows are values of derivatives of polynomials; exactly this is the hypothesis.
- FIAT dual sets (`FiatDual`): the functionals are sums of weights times point values of components; derivative functionals make `dual_basis` raise.
- FIAT quadrature (`FiatQuad`): the rule returned for `m` points on an interval is exact up to degree `2m − 1`, the rule of `create_quadrature(cell, degree)` up to `degree`.
- Degrees of freedom of zany elements (Spec/Zany, Spec/PiolaNodes). These are FIAT's and are assumed to be: Argyris and HCT edge dofs ∫₀¹ ∂ₙf · P_k^(a,a)(2s−1) ds with unit normal n and trace moments against d/ds of the Jacobi polynomial; Bell edge constraint against the Legendre polynomial of degree 4, reduced HCT of degree 2; Morley mean normal derivative; the normal is the tangent turned clockwise; with `avg` the dof is the mean, without it carries the length of the physical edge; Piola facet dofs in the frame (n, t…) with n the turned tangent or the cross product of the tangents.
- FIAT permutations (`FiatPerms`, Spec/Perms `AxesOK`): the table of a leaf is a table of permutations of its dofs over its topology; the axis permutations of a product cell are permutations of the factors that only exchange axes of equal length; the body of `make_entity_permutations_tensorproduct` and `flatten_permutations` is transcribed (Model/PermTree).
- The coordinate mapping gives a matrix `J` whose determinant is invertible, and tangents and lengths of the physical edges that belong to it.
- `repr` of the atoms of UFL elements (names, numbers) is injective and each is one token of the printed form (Model/Ufl/Repr).

### Parts of the code that are modelled

cube.py, discontinuous.py, enriched.py, fiat_elements.py (base class, tabulation, dual basis, point evaluation), finiteelementbase.py, hdivcurl.py, mixed.py, tensor_product.py, tensorfiniteelement.py, point_set.py, quadrature.py, quadrature_element.py, restricted.py, spectral.py (Gauss-Lobatto-Legendre and Gauss-Legendre), physically_mapped.py (tabulation), piola_mapped.py, argyris.py, bell.py, hct.py, hermite.py, morley.py, aw.py, hz.py, johnson_mercier.py, mtw.py, direct_serendipity.py, sympy2gem.py, runtime_tabulated.py, ufl/elementlist.py, ufl/finiteelement.py, ufl/mixedelement.py, ufl/tensorproductelement.py, ufl/enrichedelement.py, ufl/restrictedelement.py, ufl/brokenelement.py, ufl/hdivcurl.py, ufl/finiteelementbase.py (equality, hash, order, components, degrees, cellwise constancy, pullbacks).

### Parts that are not modelled

- `__init__.py` files, `trace.py`, `nodal_enriched.py`, `arnold_qin.py`, `bernardi_raugel.py`, `christiansen_hu.py`, `guzman_neilan.py`: wrappers whose only content is a call of FIAT; the Piola bubble transformation used by the last ones is modelled through `PiolaBubbleElement`.
- The wrapper classes at the end of fiat_elements.py (one line each), the remaining families of spectral.py (Legendre, integrated Legendre, FDM: constructors that call FIAT).
- physically_mapped.py 1-259: citation registry and the abstract interface of the coordinate mapping.
- `__str__`, `shortstr`, `__format__` of UFL elements.

## Findings

Behaviour of the code that differs from what a user would expect, found while modelling. Those with a theorem name are proved of the model, the others are observations from reading.

- Tensor products: point evaluation on an entity that has a vertex factor raises (`C61_vertex_factor`).
- Physically mapped elements with fewer functions than their FIAT element fail for derivative orders beyond the degree (`C40_reduced_high_order`).
- Quadrature elements accept a point set with equal points but another index structure and return a wrong table (`C22_index_structure`).
- `PointSingleton` has no `almost_equal`. `make_quadrature` treats quadrilaterals but not hexahedra as products.
- HCurl of a scalar 1-form on a two-dimensional cell times an interval gives two components (`C16_hcurl_short_vector`); HDiv hits an assertion (`C16_hdiv_assertion`). The comments on rotations in three dimensions in hdivcurl.py are swapped.
- `concatenate_entity_permutations` drops blocks that have no permutation for an entity.
- `tree_map(max, n)` with a single number raises TypeError; not reachable through elements.
- Dual bases: two quadrature elements with the same rule in a product share point indices (`C20_repeated_rule`); a functional with a repeated component keeps one weight only (`C19_repeated_component`); transposed tensor elements return indices in another order (`C21_transposed`). Enriched and mixed elements have no dual basis.
- Restriction: a mixed element loses components (`C25_mixed_shape`), the exception for elements without a rule is returned instead of raised (`C26_no_rule`), one-part mixed elements and nested products fail with other exceptions (`C26_single_mixed`, `C26_nested_product`), "interior" of a vertex is reached by another name (`C23_interior_by_another_name`), no names exist for dimension five, restriction of HDivTrace ignores `take_closure`.
- The comment in `normal_tangential_face_transform` has the wrong sign. Mardal-Tai-Winther uses the edge transformation in every dimension.
- UFL: cells of tensor products are not checked against the family (`C50_product_cell_unchecked`), some rejections are not ValueErrors (`C50_other_exceptions`), a vertex wraps around in FEEC notation (`C51_vertex_wraps`), "S" is ambiguous (`C49_ambiguous_S`), canonical short names are not fixed points, `FiniteElement` on a product cell drops the quadrature scheme, vector/tensor/mixed elements over nested products fail in `max_degree`, `WithMapping.embedded_*` work through `__getattr__` only, `BrokenElement` drops the variant, `reconstruct_from_elements` truncates (`C53_truncated`), component checks miss negative and surplus indices (`C54_two_indices`, `C54_negative_component`), two methods call `_check_component` with a wrong number of arguments, user symmetries can break the numbering (`C55_later_index`, `C55_short_key`, `C55_chain`) and their order changes equality, embedded degrees of elements without degree or with nested products fail (`C56_no_degree`, `C56_nested_product`), the space of a mixed element depends on the order of its parts (`C65_order_matters`), DQ on a product with a vertex or prism raises.
- Direct serendipity: in degree four there are strictly convex quadrilaterals on which the construction divides by zero (`C44_degree_four`); from degree three on the elements are not continuous and do not contain the polynomials of their degree on general quadrilaterals (`C67_degree_three`, `C68_degree_three`) because a function that has to be linear is rational. `mapping` is a method there and a property elsewhere.
- sympy2gem: numpy booleans are accepted by the default branch but fail as nodes; unsupported relations such as `Ne` raise AssertionError rather than NotImplementedError.
- Runtime tabulation: the name of a table contains neither point set nor entity, so requests with different numbers of points give variables of one name and different shapes (`C47_shapes_differ`). The default `variant=None` fails the assertion that follows it.
- `entity_support_dofs` compares the integral of the squared function with 1e-8, so small functions are missed (`C70_small_function`); vectors and tensors on nested products raise `ValueError` because `numpy.array` does not accept the degree `((a, b), c)` (`C70_ragged`); physically mapped elements and quadrature elements raise there (no coordinate mapping, no degree), and so do elements whose degree is a ragged tuple.
- `TensorProductElement`, `FlattenedDimensions` and the H(div)/H(curl) wrappers accept `coordinate_mapping` and drop it (tensor_product.py 146-147, cube.py 78, hdivcurl.py 74); a physically mapped part below them hits `assert coordinate_mapping is not None` (physically_mapped.py 268) whatever the caller passes (`C71_lost`).
- `entity_closure_dofs` of Bell, reduced Hsieh-Clough-Tocher, Arnold-Winther, Mardal-Tai-Winther and the Piola bubble elements is that of the FIAT element with its constrained dofs: it lists numbers beyond `space_dimension()` (`C69_constrained`, `C69_bell`).
- `entity_permutations`: `MixedSubElement`, `TensorFiniteElement` and `QuadratureElement` do not define it, so every tree that contains one raises (`C72_unsupported`); `DiscontinuousElement` raises as soon as the wrapped element has a dof outside the cell interior (`C72_discontinuous_raises`); an enriched element whose parts list different orientations of an entity gets lists shorter than the number of dofs (example in Props/PermTree).
- `TensorProductQuadratureRule` reads its argument `factors` twice, so an iterator leaves an empty tuple of orientation maps and no error (`C73_iterator`, quadrature.py 127-132). Axis exchanges are offered for rules with different degrees on the axes, where they lead out of the point set (example in Props/QuadOrient).
- `is_cellwise_constant()` answers by `degree() == 0` for most classes. The two bubble families accept any degree, so with degree 0 they claim to be constant (`C74_bubble`); degrees of sums and mixed elements leave out parts without a degree, so `BrokenElement` and `WithMapping` of such a sum claim to be constant (`C74_broken_sum`); a product compares a tuple with 0 and is never constant (`C74_product`). With a component see C88.
- `EnrichedElement.mapping()` is that of the first part, so the pullback of a sum of elements with different mappings is wrong for the others, without an error (`C75_sum`). `BrokenElement` and `RestrictedElement` of a mixed element with a Piola part have no pullback, though the mixed element has one (`C75_broken_mixed`).
- A flattened product of factors with different degrees, such as CG1 x DG0 on a quadrilateral, has no degree: `FlattenedDimensions.degree` raises `ValueError` (`C76_flattened_raises`), although the functions lie in a polynomial space of the larger degree.
- `EnrichedElement.formdegree` is the largest of its parts, so CG1 + DG0 is called a 1-form though it has vertex degrees of freedom (`C78_mixed_sum`). It is right as a statement on continuity, wrong as one on degrees of freedom.
- `TensorProductElement.reconstruct(cell=c)` keeps `cell` for the product and does not pass anything to the factors, and the constructor does not compare: the result claims to be on `c` with factors on the old cells (`C81_factors_stay`). `reconstruct(quad_scheme=q)` raises for a mixed element of a product and a simple element, since products have no scheme (`C79_scheme_rejected`). A variant or degree cannot be reset to `None`, which means "unchanged". `BrokenElement.variant()` is always `None` (`C80_broken`).
- `EnrichedElement.is_mixed` only looks whether all summands are `MixedSubElement`s, so a sum of two mixed elements, whose parts are flattened into one list, is translated to a `FIAT.MixedElement` of all the parts, with twice the components (`C86_sum_of_mixed`, enriched.py 88-93). A mixed element of one element is a `MixedSubElement`, which has no FIAT equivalent (`C86_single_mixed`).
- `degree(component)` and `is_cellwise_constant(component)` of mixed, vector and tensor elements raise `TypeError` for every component (`C88_raises`): `extract_component` calls `extract_subelement_component(i)` and `_check_component(i)` without their argument `domain` (mixedelement.py).
- `TensorProductElement.sobolev_space`: a directional space counts as order 0 in an outer product, so nesting loses continuity (`C89_inner_lost`); two equal directional factors give a space with the axes of one of them (`C89_too_few_axes`); Argyris times CG1 is not recognised as an `H1` element (`C89_h1_missed`).
- `a + b` takes the degree rule from the type of the first degree, so `FiniteElement("BRB") + VectorElement("CG", 1)` raises `TypeError` while the other order works (`C90_no_degree`, enrichedelement.py 27-31).
- `RestrictedElement.sub_elements` are the sub-elements of the element that is restricted, without the restriction (`C90_restricted_parts`).
- `QuadraticPowellSabin6` is declared `H2` in UFL (elementlist), but with cells split at barycentres and midpoints of edges its functions are continuously differentiable across an edge only if the midpoint is on the line between the barycentres, as for two triangles that form a parallelogram (`C94_powellSabin6_partial`); for a triangle and its mirror image the normal derivatives on both sides differ (`C94_powellSabin6_false`).
- `VectorElement("CG", interval x interval, 1, quad_scheme=q).quadrature_scheme()` is `None`: `FiniteElement.__new__` does not pass the scheme to the products (`C97_scheme_dropped`).
- UFL tensor products report the sum of the degrees of their factors as embedded_superdegree, not the sum of the embedded superdegrees; restricted elements report their degree (C99_product, C99_restricted).
- embedded_subdegree is not a lower bound for H(div) and H(curl) wrappers, restrictions, and products with a mixed factor (C99_wrapped, C99_restricted_sub, C99_mixed_factor).
- register_element checks the family but not the short name: a new family can silently take over a name such as CG (C100_short_name).
- register_alias checks nothing: it can redirect a registered family, and an alias for itself makes canonical_element_description loop for ever (C100_redirect, C100_endless).
- `FlattenedDimensions` over interval x quadrilateral numbers the entities of the hexahedron differently from FIAT's hexahedron (C103_sideways).
- UFL: elements that contain a `WithMapping` can be pickled but not loaded, and a `WithMapping` cannot be copied: `__getattr__` recurses without end on an object whose `wrapee` is not set (`C106_remapped`, `C106_copy_remapped`).
- `HDivElement` and `HCurlElement` report the degree of the enclosing polynomial space, not of the polynomials they contain: Raviart-Thomas of the lowest order on the square reports 1 (`C107_hdiv`); the degree of an element is an upper bound only.
- The complex of a sum of products that are split in some of the factors only depends on the order of a set: FIAT's comparison of product complexes asks for `>` in all factors, so `max` may keep the coarser complex and `max_complex` raises (`C109_order_matters`, FIAT's comparison transcribed from memory).
