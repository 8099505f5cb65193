{"id": "C01", "title": "Irrep order and iterator", "statement": "`<` on Irrep is a strict total order, and Irrep.iterator() enumerates every irrep of O(3) exactly once, in strictly increasing order of `<` (0e, 0o, 1o, 1e, 2e, ...); iterator(lmax) yields exactly the irreps with l <= lmax.", "quantifier": "every l >= 0, every parity, every lmax", "why_tests_cant": "infinitely many irreps; totality and exhaustiveness are statements about all of them", "anchors": ["e3nn_jax/_src/irreps.py:Irrep.__lt__", "e3nn_jax/_src/irreps.py:Irrep.iterator"]}
{"id": "C02", "title": "Selection rules of the irrep product", "statement": "ir1 * ir2 yields exactly the irreps (l, p1*p2) with |l1-l2| <= l <= l1+l2, each once and in increasing l; the dimensions sum to dim(ir1)*dim(ir2); the product is commutative; it contains the trivial irrep 0e iff ir1 == ir2.", "quantifier": "all pairs of irreps", "why_tests_cant": "unbounded l", "anchors": ["e3nn_jax/_src/irreps.py:Irrep.__mul__", "e3nn_jax/_src/irreps.py:Irrep.dim"]}
{"id": "C03", "title": "Irreps text round trip", "statement": "For every non-empty Irreps x, Irreps(str(x)) == x, and spaces around the terms do not change the result; whatever string the parser accepts denotes multiplicities >= 0, l >= 0 and parity +-1. (The repr of the empty Irreps, 'Irreps()', is not accepted back.)", "quantifier": "all Irreps of any length, multiplicity and l; all strings", "why_tests_cant": "unbounded numbers of digits and terms", "anchors": ["e3nn_jax/_src/irreps.py:Irreps.__new__", "e3nn_jax/_src/irreps.py:Irreps.__repr__", "e3nn_jax/_src/irreps.py:Irrep.__init__", "e3nn_jax/_src/irreps.py:Irrep.__repr__"]}
{"id": "C04", "title": "Slices tile the irreps dimension", "statement": "irreps.slices() has one slice per term, slice i has length mul_i*(2 l_i+1), the first starts at 0, each starts where the previous stops, and the last stops at irreps.dim: every index in [0, dim) lies in exactly one slice's range.", "quantifier": "all Irreps", "why_tests_cant": "unbounded lists", "anchors": ["e3nn_jax/_src/irreps.py:Irreps.slices", "e3nn_jax/_src/irreps.py:Irreps.dim"]}
{"id": "C05", "title": "unify / remove_zero_multiplicities / simplify preserve the representation", "statement": "simplify (and unify, remove_zero_multiplicities) does not change the sequence of irreps obtained by writing each term mul times; simplify is idempotent, its result has positive multiplicities and no two adjacent equal irreps, and two Irreps have the same simplify() iff they denote the same sequence.", "quantifier": "all Irreps, including zero multiplicities", "why_tests_cant": "canonical form is a statement about all pairs", "anchors": ["e3nn_jax/_src/irreps.py:Irreps.unify", "e3nn_jax/_src/irreps.py:Irreps.remove_zero_multiplicities", "e3nn_jax/_src/irreps.py:Irreps.simplify"]}
{"id": "C06", "title": "sort is a stable sorting permutation", "statement": "Irreps.sort() returns irreps in non-decreasing order of irrep, equal irreps keep their original relative order; p and inv are mutually inverse permutations of the term indices with sorted[k] == original[inv[k]] and sorted[p[i]] == original[i].", "quantifier": "all Irreps", "why_tests_cant": "all lists of any length with repeated entries", "anchors": ["e3nn_jax/_src/irreps.py:Irreps.sort", "e3nn_jax/perm.py:inverse"]}
{"id": "C07", "title": "regroup is a canonical form", "statement": "regroup() is strictly increasing in irrep with positive multiplicities, preserves count(ir) for every ir (hence dim and num_irreps), is idempotent, and a.regroup() == b.regroup() iff a.count(ir) == b.count(ir) for every irrep.", "quantifier": "all pairs of Irreps", "why_tests_cant": "canonical form over an infinite domain", "anchors": ["e3nn_jax/_src/irreps.py:Irreps.regroup", "e3nn_jax/_src/irreps.py:Irreps.count"]}
{"id": "C08", "title": "filter keeps exactly the requested terms", "statement": "filter(keep=S) and filter(drop=S) select complementary, order-preserving subsequences: a term is kept iff its irrep is in S; filter(lmax=L) keeps exactly l <= L; with no argument it is the identity; giving two criteria raises.", "quantifier": "all Irreps and all filters", "why_tests_cant": "all inputs", "anchors": ["e3nn_jax/_src/irreps.py:Irreps.filter"]}
{"id": "C09", "title": "Irreps.slice_by_mul is list slicing of the irreps", "statement": "For Python slice bounds with resolved start <= stop, slice_by_mul[start:stop] denotes exactly elements start..stop-1 of the sequence of irreps. Bounds resolve as Python's slice.indices (negative, None, out of range).", "quantifier": "all Irreps, all integer or missing bounds", "why_tests_cant": "unbounded; boundary cases at every term border", "anchors": ["e3nn_jax/_src/irreps.py:_MulIndexSliceHelper"]}
{"id": "C10", "title": "Irreps.slice_by_dim: which cuts it accepts and what it returns", "statement": "slice_by_dim[start:stop] with start <= stop returns exactly when both bounds are at irrep borders, and then it returns the irreps between them, or when both bounds lie in one term mul x ir at a distance that is a multiple of the dimension of ir, and then it returns that many copies of ir; every other cut raises ValueError. What it returns always has dimension stop - start. (So the documented refusal of every cut that is not equivariant is false of the code: 2x1e cut at 1:4 returns 1x1e although this cuts two irreps.)", "quantifier": "all Irreps and bounds", "why_tests_cant": "all bounds relative to all borders", "anchors": ["e3nn_jax/_src/irreps.py:_DimIndexSliceHelper"]}
{"id": "C11", "title": "Algebra of Irreps", "statement": "dim, num_irreps and count are additive under +, multiplied by n under * and repeat(n); `x.repeat(n)` and `n*x` have the same counts; (x*n)//n == x for n>0; ls lists l for each irrep; lmax is the maximum of ls and raises iff there is no irrep.", "quantifier": "all Irreps, all n", "why_tests_cant": "all inputs", "anchors": ["e3nn_jax/_src/irreps.py:Irreps.__add__", "e3nn_jax/_src/irreps.py:Irreps.__mul__", "e3nn_jax/_src/irreps.py:Irreps.__floordiv__", "e3nn_jax/_src/irreps.py:Irreps.repeat", "e3nn_jax/_src/irreps.py:Irreps.lmax", "e3nn_jax/_src/irreps.py:Irreps.ls"]}
{"id": "C12", "title": "Array and chunk views agree", "statement": "For an IrrepsArray built from chunks, .array is the concatenation of the flattened chunks (zeros for None) and .chunks gives the chunks back; for one built from an array, flattening .chunks gives the array back. A None chunk always corresponds to zeros in the array.", "quantifier": "all irreps, all data, all zero-chunk patterns", "why_tests_cant": "all shapes and patterns of None", "anchors": ["e3nn_jax/_src/irreps_array.py:IrrepsArray.chunks", "e3nn_jax/_src/basic.py:from_chunks"]}
{"id": "C13", "title": "rechunk preserves the data", "statement": "rechunk(irreps) with equivalent irreps never changes .array, returns exactly the requested irreps, chunks agree with array slices, and flags a chunk zero only if it is; it fails iff the simplified irreps differ.", "quantifier": "all irreps pairs, all data, all zero flags, cached or not cached chunks", "why_tests_cant": "unbounded numbers of splits and merges", "anchors": ["e3nn_jax/_src/irreps_array.py:IrrepsArray.rechunk"]}
{"id": "C14", "title": "Zero flags are sound in every history", "statement": "After any sequence of IrrepsArray operations (neg, add, sub, scalar mul/div, at-set/add, sort, simplify, regroup, filter, extend_with_zeros, slicing, concatenation...) a chunk reported as None/zero_flag is exactly zero in .array and the cached chunks agree with .array.", "quantifier": "all operation sequences of any length, all data", "why_tests_cant": "histories are unbounded", "anchors": ["e3nn_jax/_src/irreps_array.py:IrrepsArray", "e3nn_jax/_src/irreps_array.py:_IndexUpdateRef"]}
{"id": "C15", "title": "Indexing by irreps", "statement": "x[..., irreps] succeeds iff the sequence of terms occurs exactly once as a contiguous block; the result is exactly that block of the data.", "quantifier": "all arrays, all index irreps", "why_tests_cant": "all overlapping occurrences", "anchors": ["e3nn_jax/_src/irreps_array.py:IrrepsArray.__getitem__"]}
{"id": "C16", "title": "Indexing the irreps axis by a slice", "statement": "x[..., a:b] returns iff both a and b are at borders of individual irreps (a <= b) and then the data is array[..., a:b] and the irreps are the irreps between the borders; otherwise it raises.", "quantifier": "all arrays, bounds a,b", "why_tests_cant": "all bounds relative to all borders; recursion through rechunk", "anchors": ["e3nn_jax/_src/irreps_array.py:IrrepsArray.__getitem__", "e3nn_jax/_src/irreps_array.py:IrrepsArray.rechunk"]}
{"id": "C17", "title": "sort/regroup/simplify of arrays move whole irreps", "statement": "IrrepsArray.sort()/regroup() permute the list of (irrep, component block) pairs stably into irrep order; simplify()/unify() leave it unchanged.", "quantifier": "all arrays", "why_tests_cant": "all lists and data", "anchors": ["e3nn_jax/_src/irreps_array.py:IrrepsArray.sort", "e3nn_jax/_src/irreps_array.py:IrrepsArray.regroup", "e3nn_jax/_src/irreps_array.py:IrrepsArray.simplify"]}
{"id": "C18", "title": "IrrepsArray.filter agrees with Irreps.filter", "statement": "x.filter(f).irreps == x.irreps.filter(f) and the data are those of the kept terms. (False for callables that look at the multiplicity: raises.)", "quantifier": "all arrays and filters", "why_tests_cant": "all inputs", "anchors": ["e3nn_jax/_src/irreps_array.py:IrrepsArray.filter"]}
{"id": "C19", "title": "extend_with_zeros embeds", "statement": "extend_with_zeros(new) succeeds iff the terms of x.irreps are a subsequence of new; the result restricted to the matched terms is x, the other terms are zero.", "quantifier": "all arrays, all new irreps", "why_tests_cant": "greedy matching must be complete for every subsequence", "anchors": ["e3nn_jax/_src/irreps_array.py:IrrepsArray.extend_with_zeros"]}
{"id": "C20", "title": "IrrepsArray.slice_by_mul is list slicing of the irreps blocks", "statement": "For start<=stop and no zero-flagged chunk cut in the middle, slice_by_mul[start:stop] selects exactly blocks start..stop-1 (irreps and data). slice_by_chunk selects terms.", "quantifier": "all arrays and bounds", "why_tests_cant": "all borders", "anchors": ["e3nn_jax/_src/irreps_array.py:_MulIndexSliceHelper", "e3nn_jax/_src/irreps_array.py:_ChunkIndexSliceHelper"]}
{"id": "C21", "title": "mul_to_axis and axis_to_mul are inverse", "statement": "axis_to_mul(mul_to_axis(x, f)) == x for every factor f dividing all multiplicities; mul_to_axis with the default factor always succeeds; a factor not dividing some multiplicity raises.", "quantifier": "all arrays and factors", "why_tests_cant": "all multiplicities", "anchors": ["e3nn_jax/_src/irreps_array.py:IrrepsArray.mul_to_axis", "e3nn_jax/_src/irreps_array.py:IrrepsArray.axis_to_mul"]}
{"id": "C22", "title": "Structural operations are equivariant", "statement": "sort, regroup, simplify, filter, slicing by irreps/mul/chunk, concatenate, extend_with_zeros, mul_to_axis commute with transforming every irrep block by its representation matrix.", "quantifier": "all arrays, all group actions (any linear action per irrep)", "why_tests_cant": "infinite group", "anchors": ["e3nn_jax/_src/irreps_array.py:IrrepsArray.transform_by_angles", "e3nn_jax/_src/irreps_array.py:IrrepsArray.sort", "e3nn_jax/_src/basic.py:concatenate"]}
{"id": "C23", "title": "concatenate", "statement": "concatenate(arrays) on the irreps axis has irreps = sum of irreps and data = concatenation; chunk views agree.", "quantifier": "all lists of arrays", "why_tests_cant": "any number of arrays", "anchors": ["e3nn_jax/_src/basic.py:concatenate"]}
{"id": "C24", "title": "Permutation group laws", "statement": "compose and inverse make permutations of n a group: associativity, identity, inverse on both sides; compose(p,q)[i]==p[q[i]]; inverse(compose(p,q)) == compose(inverse(q),inverse(p)); is_perm decides being a bijection of range(n).", "quantifier": "all n, all permutations", "why_tests_cant": "all n", "anchors": ["e3nn_jax/perm.py:compose", "e3nn_jax/perm.py:inverse", "e3nn_jax/perm.py:is_perm", "e3nn_jax/perm.py:identity"]}
{"id": "C25", "title": "Permutation ranking is a bijection", "statement": "from_int(.,n) is a bijection from range(n!) to permutations of n with inverse to_int; group(n) is the whole symmetric group and has n! elements.", "quantifier": "all n", "why_tests_cant": "factorial growth", "anchors": ["e3nn_jax/perm.py:from_int", "e3nn_jax/perm.py:to_int", "e3nn_jax/perm.py:group"]}
{"id": "C26", "title": "germinate computes the generated subgroup", "statement": "germinate(S) terminates and returns the smallest set of permutations containing S and closed under composition and inverse; is_group(germinate(S)) for non-empty S.", "quantifier": "all finite sets of permutations of the same length", "why_tests_cant": "closure loop with unbounded number of rounds", "anchors": ["e3nn_jax/perm.py:germinate", "e3nn_jax/perm.py:is_group"]}
{"id": "C27", "title": "sign is the permutation parity", "statement": "sign(p) is a homomorphism to {+1,-1}, -1 on transpositions; to_cycles gives disjoint cycles that reproduce p.", "quantifier": "all permutations", "why_tests_cant": "all n", "anchors": ["e3nn_jax/perm.py:sign", "e3nn_jax/perm.py:to_cycles"]}
{"id": "C28", "title": "Linear is equivariant for every weight", "statement": "FunctionalLinear with default instructions commutes with any group action: L(D_in x) = D_out L(x), whatever the weights, normalisations and multiplicities; biases touch only 0e outputs.", "quantifier": "all irreps_in/out, all weights, all inputs, all actions", "why_tests_cant": "weights and group elements are continuous", "anchors": ["e3nn_jax/_src/linear.py:FunctionalLinear"]}
{"id": "C29", "title": "Linear.matrix equals the call", "statement": "x @ linear.matrix(w) equals linear(w, x) (without biases) for every weight and input.", "quantifier": "all irreps, weights, inputs", "why_tests_cant": "all sizes", "anchors": ["e3nn_jax/_src/linear.py:FunctionalLinear.matrix", "e3nn_jax/_src/linear.py:FunctionalLinear.__call__"]}
{"id": "C30", "title": "Linear normalisation", "statement": "For each output, sum over its incoming paths of mul_in * (path_weight*weight_std)^2 = 1 whatever path_normalization and gradient_normalization exponents in [0,1].", "quantifier": "all instruction lists, all multiplicities > 0, all exponents", "why_tests_cant": "continuous exponents", "anchors": ["e3nn_jax/_src/linear.py:FunctionalLinear.__init__"]}
{"id": "C31", "title": "Linear default instructions and output mask", "statement": "Default instructions connect exactly the pairs (i_in,i_out) with equal irreps; output components with mask 0 are zero for every weight and input.", "quantifier": "all irreps_in/out", "why_tests_cant": "all inputs", "anchors": ["e3nn_jax/_src/linear.py:FunctionalLinear.__init__"]}
{"id": "C32", "title": "Flat weights split into path weights", "statement": "split_weights cuts a flat weight vector into the shapes of the paths, in order, losing and sharing no entry; the number of weights is the sum of the sizes.", "quantifier": "all instruction lists", "why_tests_cant": "all sizes", "anchors": ["e3nn_jax/_src/linear.py:FunctionalLinear.split_weights", "e3nn_jax/_src/linear.py:FunctionalLinear.num_weights"]}
{"id": "C33", "title": "tensor_product output irreps", "statement": "tensor_product(irreps1, irreps2) has dimension dim1*dim2 and count(ir) = sum over pairs of mul1*mul2*[ir in ir1*ir2]; with filter_ir_out only the listed irreps, same counts; regroup does not change counts; symmetric in its arguments.", "quantifier": "all pairs of Irreps", "why_tests_cant": "unbounded", "anchors": ["e3nn_jax/_src/tensor_products.py:tensor_product"]}
{"id": "C34", "title": "tensor_square output irreps", "statement": "tensor_square(irreps) has dimension dim(dim+1)/2.", "quantifier": "all Irreps", "why_tests_cant": "unbounded", "anchors": ["e3nn_jax/_src/tensor_products.py:tensor_square"]}
{"id": "C35", "title": "Tensor products are equivariant", "statement": "If the Clebsch-Gordan tensors intertwine the representations then tensor_product, elementwise_tensor_product commute with the group action.", "quantifier": "all irreps, inputs, group elements", "why_tests_cant": "infinite group", "anchors": ["e3nn_jax/_src/tensor_products.py:tensor_product"]}
{"id": "C36", "title": "Euler angles, matrices", "statement": "angles_to_matrix yields a rotation (orthogonal, det 1); matrix_to_angles followed by angles_to_matrix is the identity on every rotation matrix, including gimbal-locked ones; inverse_angles gives the transpose; compose_angles gives the product.", "quantifier": "all angles, all rotation matrices", "why_tests_cant": "continuous group with degenerate points", "anchors": ["e3nn_jax/_src/rotation.py:angles_to_matrix", "e3nn_jax/_src/rotation.py:matrix_to_angles", "e3nn_jax/_src/rotation.py:inverse_angles", "e3nn_jax/_src/rotation.py:compose_angles"]}
{"id": "C37", "title": "Quaternions", "statement": "quaternion_to_matrix(compose_quaternion(q1,q2)) = quaternion_to_matrix(q1) @ quaternion_to_matrix(q2) on unit quaternions, inverse_quaternion gives the transpose, q and -q give the same matrix, axis_angle_to_quaternion is unit.", "quantifier": "all unit quaternions", "why_tests_cant": "continuous", "anchors": ["e3nn_jax/_src/rotation.py:compose_quaternion", "e3nn_jax/_src/rotation.py:inverse_quaternion", "e3nn_jax/_src/rotation.py:quaternion_to_matrix"]}
{"id": "C38", "title": "Axis-angle round trip", "statement": "axis_angle_to_matrix is a rotation by the right-hand rule fixing its axis; matrix_to_axis_angle inverts it for angles strictly between 0 and pi. (False at pi: the recovered axis is 0.)", "quantifier": "all axes and angles", "why_tests_cant": "continuous; singular at pi", "anchors": ["e3nn_jax/_src/rotation.py:axis_angle_to_matrix", "e3nn_jax/_src/rotation.py:matrix_to_axis_angle"]}
{"id": "C39", "title": "The Wigner matrices are the irreducible representations of O(3)", "statement": "Irrep.D_from_matrix is a homomorphism O(3) -> orthogonal matrices for every l and parity (D(RS)=D(R)D(S), D(1)=1, D(R)^T=D(R^T)); 1o is the defining action, 0e trivial, inversion multiplies by the parity; D_from_angles, D_from_quaternion, D_from_log_coordinates and D_from_axis_angle (unit axis) agree with D_from_matrix of the corresponding rotation times p^k; the irreps are irreducible and pairwise inequivalent; clebsch_gordan intertwines them. (D_from_axis_angle does not normalise its axis.)", "quantifier": "all l (including the range l<12 served by a table), both parities, all elements of O(3), all angles", "why_tests_cant": "all l and a continuous group; the table-driven and exponential code paths must agree everywhere", "anchors": ["e3nn_jax/_src/irreps.py:Irrep.D_from_matrix", "e3nn_jax/_src/irreps.py:Irrep.D_from_angles", "e3nn_jax/_src/irreps.py:Irrep.D_from_quaternion", "e3nn_jax/_src/irreps.py:Irrep.D_from_log_coordinates", "e3nn_jax/_src/irreps.py:Irrep.D_from_axis_angle", "e3nn_jax/_src/irreps.py:_wigner_D_from_angles", "e3nn_jax/_src/J.py:Jd"]}
{"id": "C40", "title": "su(2) generators", "statement": "For every j the su2 generators satisfy [X_i,X_j]=X_k, are anti-Hermitian, and X.X = -j(j+1).", "quantifier": "all j", "why_tests_cant": "all j", "anchors": ["e3nn_jax/_src/su2.py:su2_generators"]}
{"id": "C41", "title": "Real basis change", "statement": "The change of basis from real to complex spherical harmonics is unitary for every l, so so(3) generators obey the commutation relations and are anti-Hermitian.", "quantifier": "all l", "why_tests_cant": "all l", "anchors": ["e3nn_jax/_src/so3.py:change_basis_real_to_complex", "e3nn_jax/_src/so3.py:generators"]}
{"id": "C42", "title": "Segment sums", "statement": "scatter_sum(data, dst) gives for each output i the sum of the rows with dst==i, out of range dropped, total preserved when all in range; scatter_mean divides by the count; with nel each segment gets its consecutive rows; map_back returns the per-segment value to each element.", "quantifier": "all data, all index arrays, all segment sizes", "why_tests_cant": "all inputs", "anchors": ["e3nn_jax/_src/scatter.py:scatter_sum", "e3nn_jax/_src/scatter.py:scatter_mean"]}
{"id": "C43", "title": "radius_graph", "statement": "radius_graph returns exactly the pairs with distance below the cutoff in the same batch (and different nodes when loop=False), padded to size with the fill value; truncation keeps a prefix. (loop=False also drops distinct coincident nodes.)", "quantifier": "all point clouds and sizes", "why_tests_cant": "all inputs", "anchors": ["e3nn_jax/_src/radius_graph.py:radius_graph"]}
{"id": "C44", "title": "Activation parity and irreps", "statement": "scalar_activation applies, to each l=0 term, its activation (rescaled when normalize_act) pointwise and leaves the other terms alone; a term of parity +1 keeps parity +1; a term of parity -1 gets the detected parity of its activation; it raises ValueError exactly when an activation is given for an l>0 term or for an odd scalar when the activation has no detected parity; if every activation used on odd scalars really has the parity that was detected, the result commutes with all of O(3). norm_activation multiplies each block by the activation of its norm (or of its component norm), keeps the irreps and commutes with O(3). (Parity is detected on 256 points of [0,10]: a witness shows a function with no parity that is accepted as even.)", "quantifier": "all irreps, all lists of activations, all functions, all inputs, all R in O(3)", "why_tests_cant": "continuous inputs, arbitrary functions", "anchors": ["e3nn_jax/_src/activation.py:scalar_activation", "e3nn_jax/_src/activation.py:parity_function", "e3nn_jax/_src/activation.py:normalize_function", "e3nn_jax/_src/activation.py:norm_activation"]}
{"id": "C45", "title": "Gate", "statement": "Let S be the scalar blocks of the input and V the others. gate(x) raises ValueError iff 0 < |V| and |S| < |V|; without V it activates all scalars; otherwise the last |V| scalars are gates and the result is the other scalars, activated, followed by the blocks of V in order, each multiplied componentwise by its activated gate (parities multiply). If the functions applied to odd scalars really have the detected parity, gate commutes with all of O(3).", "quantifier": "all irreps with positive multiplicities, all inputs without zero-flagged scalar terms, all activation functions, all R in O(3)", "why_tests_cant": "all inputs, continuous group", "anchors": ["e3nn_jax/_src/gate.py:gate", "e3nn_jax/_src/irreps_array.py:IrrepsArray.__mul__"]}
{"id": "C46", "title": "Zero chunks are treated as zeros", "statement": "Two IrrepsArrays with the same irreps and the same .array, whichever of their zero chunks are flagged (None) and whether or not chunks are cached, give results with the same irreps and the same .array, or both raise, under: rechunk, simplify, unify, sort, regroup, filter, indexing, slice_by_chunk, concatenate, transform_by_*, Linear, tensor_product, tensor_square, elementwise_tensor_product, norm_activation; under gate when no scalar term is flagged; under scalar_activation when the flagged terms have activations with f(0)=0. (False of scalar_activation when f(0)!=0 on a flagged term: the code applies act to ones; and of slice_by_mul when it cuts through a flagged term: TypeError. Witness theorems.)", "quantifier": "all arrays, all patterns of None, cached or uncached chunks", "why_tests_cant": "all patterns of None", "anchors": ["e3nn_jax/_src/activation.py:scalar_activation", "e3nn_jax/_src/irreps_array.py:IrrepsArray", "e3nn_jax/_src/tensor_products.py:tensor_product", "e3nn_jax/_src/linear.py:FunctionalLinear"]}
{"id": "C47", "title": "norm and dot are invariant", "statement": "norm(x) has one 0e scalar per irrep of x, equal to the Euclidean norm of that irrep's components (its square with squared=True); dot(x, y), for inputs with the same irreps (up to grouping), is the sum of the products of the components per irrep, and raises when the irreps differ; per_irrep=False sums them; both are unchanged when x (and y) are transformed by any orthogonal representation, in particular by any R in O(3). Zero-flagged chunks give zero.", "quantifier": "all irreps, arrays, zero flags, leading axes, all R in O(3)", "why_tests_cant": "continuous", "anchors": ["e3nn_jax/_src/basic.py:norm", "e3nn_jax/_src/basic.py:dot"]}
{"id": "C48", "title": "Spherical harmonics", "statement": "spherical_harmonics(irreps_out, input, normalize, normalization, algorithm) with any accepted algorithm returns, for each requested degree l, the unique homogeneous polynomials of degree l that follow O(3) by the irrep (l, p^l) and take the value (0..,c,..0) at the pole (0,1,0), c = sqrt((2l+1)/4pi), sqrt(2l+1), 1 for integral, component, norm; such polynomials exist for every l; |Y^l(x)| = c |x|^l; with normalize the input is first divided by its norm, so the result depends only on the direction; multiplicities repeat the block; the result commutes with all of O(3); invalid inputs (not one vector, irreps_out incompatible with the parity, unknown algorithm) raise ValueError.", "quantifier": "all degrees l, all vectors, all R in O(3), all normalisations and algorithms, all requested irreps", "why_tests_cant": "all l and a continuous group", "anchors": ["e3nn_jax/_src/spherical_harmonics/__init__.py:spherical_harmonics", "e3nn_jax/_src/spherical_harmonics/__init__.py:sh", "e3nn_jax/_src/spherical_harmonics/recursive.py:recursive_spherical_harmonics", "e3nn_jax/_src/spherical_harmonics/legendre.py:legendre_spherical_harmonics"]}
{"id": "C49", "title": "Radial functions", "statement": "sus is smooth, zero on x<=0; soft_envelope is smooth, value_at_origin at 0 and zero beyond x_max; soft_one_hot_linspace returns number values, regularly spaced profiles; the cosine and smooth_finite bases vanish exactly outside one spacing around their centers, hence beyond start (end) when start_zero (end_zero), the sum of squares of the cosine basis is 1 between the extreme centers and at most 1 elsewhere, smooth_finite is infinitely differentiable, the Fourier functions are orthogonal; bessel obeys int_0^c r^2 B_n B_m dr = delta, is continuous and vanishes at c; poly_envelope(n0,n1,x_max) never fails (its linear system is invertible), equals 1 at 0 with n0 vanishing derivatives, is C^n1 with n1 vanishing derivatives at x_max, zero beyond, decreasing; u(p,.) is poly_envelope(p-1,2). (The gaussian basis is never zero, even with cutoff=True.)", "quantifier": "all real inputs, all numbers of functions, all n0, n1, p, all cutoffs", "why_tests_cant": "continuous inputs, all orders of derivatives", "anchors": ["e3nn_jax/_src/radial.py:sus", "e3nn_jax/_src/radial.py:soft_envelope", "e3nn_jax/_src/radial.py:soft_one_hot_linspace", "e3nn_jax/_src/radial.py:bessel", "e3nn_jax/_src/radial.py:u", "e3nn_jax/_src/radial.py:poly_envelope", "e3nn_jax/_src/radial.py:solve_polynomial"]}
{"id": "C50", "title": "limit_denominator", "statement": "For arrays of integers n, d with d >= 1 and every bound max >= 1, limit_denominator(n, d, max) returns for each entry, after reduction by the gcd: the reduced fraction itself if its denominator is < max, and a best rational approximation with denominator <= max if its denominator is > max; the loop always ends. When the reduced denominator is exactly max the code returns 0/1 instead (a defect, proved as a witness).", "quantifier": "all integer arrays n, d, all bounds max", "why_tests_cant": "the domain is all integers; the interesting cases are rare", "anchors": ["e3nn_jax/_src/utils/math_numpy.py:limit_denominator"]}
{"id": "C51", "title": "Dead code removal preserves meaning", "statement": "remove_deadcode(jaxpr, output_indices) returns a jaxpr that, applied to the inputs it lists, returns exactly the requested outputs of the original, with xla_call bodies pruned at every depth; the listed inputs are increasing positions; every remaining equation, call output and input is read later or returned.", "quantifier": "all well-formed jaxprs of every size and nesting depth, all meanings of the primitives, constants, arguments, output selections", "why_tests_cant": "programs and nestings are unbounded", "anchors": ["e3nn_jax/_src/utils/optimize_jaxpr.py:remove_deadcode"]}
{"id": "C52", "title": "Removal of duplicates and optimize_jaxpr preserve meaning", "statement": "remove_duplicate_constants, remove_duplicate_equations and optimize_jaxpr return a jaxpr with the same outputs for every input whenever constants and equations that the code finds equal denote equal values; no pair found equal is left (equations: in programs without nested jaxprs). The code's comparison does not always meet that condition: literals of equal value and different dtype, 0.0 and -0.0, closed jaxprs differing only in constant values and functions of equal __name__ are merged and change the result (witnesses).", "quantifier": "all well-formed jaxprs of every size and nesting depth, all meanings of the primitives, constants, arguments", "why_tests_cant": "programs and nestings are unbounded", "anchors": ["e3nn_jax/_src/utils/optimize_jaxpr.py:optimize_jaxpr", "e3nn_jax/_src/utils/optimize_jaxpr.py:remove_duplicate_equations", "e3nn_jax/_src/utils/optimize_jaxpr.py:remove_duplicate_constants", "e3nn_jax/_src/utils/optimize_jaxpr.py:replace_var"]}
{"id": "C53", "title": "Configuration", "statement": "After any sequence of calls config(name[, value]), config(k) returns the last value set for k or its default; config(k, v) affects no other option; an unknown name raises (KeyError when reading, ValueError when setting) and changes nothing.", "quantifier": "all sequences of calls, all names and values", "why_tests_cant": "histories are unbounded", "anchors": ["e3nn_jax/_src/config.py:config"]}
{"id": "C54", "title": "Dropout", "statement": "For every bernoulli outcome, dropout multiplies each irrep as a whole by one factor (0 or 1/(1-p)), keeps the irreps, is the identity when not training or p<=0, gives zero when p>=1 and commutes with every representation. The docstring's independent masks are not delivered: the same key is used for every term, so terms of equal multiplicity share one mask, and a mask is shared over the leading axes; empty irreps raise (witnesses).", "quantifier": "all irreps, arrays, zero flags, p, bernoulli outcomes, representations", "why_tests_cant": "random outcomes and a continuous group", "anchors": ["e3nn_jax/_src/dropout_haiku.py"]}
{"id": "C55", "title": "Index symmetries of reduced tensor products", "statement": "A formula such as ijk=-jik=ikj is accepted exactly when the first word is unsigned and every word is a rearrangement of distinct index names (AssertionError / RuntimeError otherwise); the loop ends with the group of signed permutations the words generate; the rows computed for it are orthonormal (the internal check never fails), have the chosen sign, and span exactly the tensors T with T[names] = +-T[word] for every word; the same for the subgroup fixing all indices outside a subset (and its dimension), and for fully symmetric and antisymmetric tensors of every degree.", "quantifier": "all formulas, ranks, dimensions, subsets of indices, tensors", "why_tests_cant": "unbounded ranks and dims; closure of a generated group", "anchors": ["e3nn_jax/_src/reduced_tensor_product.py:germinate_perm_repr", "e3nn_jax/_src/reduced_tensor_product.py:subrepr_permutation", "e3nn_jax/_src/reduced_tensor_product.py:reduce_subgroup_permutation", "e3nn_jax/_src/reduced_tensor_product.py:reduce_permutation_base", "e3nn_jax/_src/reduced_tensor_product.py:reduce_permutation_matrix"]}
{"id": "C56", "title": "generate_tuples_with_fixed_sum", "statement": "For every length n >= 1 and every sum the generator yields each tuple of n non-negative integers with that sum exactly once, (n-1+sum choose sum) tuples in total.", "quantifier": "all lengths n >= 1 and all sums", "why_tests_cant": "combinatorial, unbounded", "anchors": ["e3nn_jax/_src/reduced_tensor_product.py:generate_tuples_with_fixed_sum"]}
{"id": "C57", "title": "Log coordinates", "statement": "log_coordinates_to_matrix(v) is the rotation by |v| around v; all conversions from log coordinates agree; compose and inverse correspond to product and transpose; conversion from a matrix that is not a half turn round-trips.", "quantifier": "all vectors and rotations", "why_tests_cant": "continuous group, singular at 0 and pi", "anchors": ["e3nn_jax/_src/rotation.py:log_coordinates_to_matrix", "e3nn_jax/_src/rotation.py:compose_log_coordinates"]}
{"id": "C58", "title": "Clebsch-Gordan coefficients", "statement": "clebsch_gordan(l1,l2,l3) is defined (every factorial argument is non-negative), real up to the phase the code removes, intertwines the generators and the rotations of the three representations, its slices are orthogonal with C C^T = 1/(2 l3 + 1), its total norm is 1 inside the triangle |l1-l2|<=l3<=l1+l2 and it is zero outside; a nonzero coefficient obeys the selection rules |m3| = |m1|+|m2| or ||m1|-|m2|| and a sign rule.", "quantifier": "all l1, l2, l3", "why_tests_cant": "all degrees; the code evaluates a closed formula with factorials and a complex basis change", "anchors": ["e3nn_jax/_src/so3.py:clebsch_gordan", "e3nn_jax/_src/su2.py:su2_clebsch_gordan"]}
{"id": "C59", "title": "O(3) acts on IrrepsArray and the library commutes with the action", "statement": "x.transform_by_matrix(R) multiplies every block by the Wigner matrix of its irrep and is a left action of O(3) (transforming by S then R is transforming by RS, the identity does nothing, a 1x1o array is a vector); transform_by_angles (also inverse=True, and k parity operations), transform_by_quaternion, transform_by_axis_angle and transform_by_log_coordinates agree with it; Irreps.D_from_* are the corresponding block-diagonal matrices; tensor_product, elementwise_tensor_product, tensor_square, Linear and the structural operations commute with it, with no assumption left on the Clebsch-Gordan tensors or the representation matrices.", "quantifier": "all irreps, arrays, zero flags, leading axes, all R in O(3), all angles, all weights", "why_tests_cant": "continuous group, unbounded irreps", "anchors": ["e3nn_jax/_src/irreps_array.py:IrrepsArray.transform_by_matrix", "e3nn_jax/_src/irreps_array.py:IrrepsArray.transform_by_angles", "e3nn_jax/_src/irreps_array.py:IrrepsArray.transform_by_quaternion", "e3nn_jax/_src/irreps_array.py:IrrepsArray.transform_by_log_coordinates", "e3nn_jax/_src/irreps.py:Irreps.D_from_matrix", "e3nn_jax/_src/tensor_products.py:tensor_product", "e3nn_jax/_src/linear.py:FunctionalLinear"]}
{"id": "C60", "title": "soft_normalization and key_value_activation", "statement": "soft_normalization(x, M), M > 0, multiplies every block by a factor in (0,1] after which its component norm is at most M; it keeps the irreps and zero flags and commutes with O(3). key_value_activation commutes with every orthogonal matrix acting on key and value.", "quantifier": "all irreps, inputs, R in O(3), all phi", "why_tests_cant": "continuous", "anchors": ["e3nn_jax/_src/activation.py:soft_normalization", "e3nn_jax/_src/activation.py:key_value_activation"]}
{"id": "C61", "title": "cross product", "statement": "cross(x, y) of two arrays of vectors (every irrep has l=1, positive multiplicities) with the same number of vectors is, irrep by irrep, the cross product, with the product of the parities; it raises ValueError when an irrep is not a vector or the numbers differ; it commutes with all of O(3) (an axial factor det R for the polar result). A trailing zero-multiplicity term raises AssertionError although the numbers match (witness).", "quantifier": "all irreps with l=1, all arrays, all R in O(3)", "why_tests_cant": "continuous group, unbounded irreps", "anchors": ["e3nn_jax/_src/basic.py:cross"]}
{"id": "C62", "title": "sum and mean", "statement": "sum(x, axis=-1) and mean(x, axis=-1) return, for each term mul x ir, the sum or mean of its mul irreps as 1 x ir and commute with every representation; reductions over leading axes act componentwise, keep irreps and zero flags, and commute with every representation.", "quantifier": "all irreps, arrays, zero flags, leading axes, representations", "why_tests_cant": "continuous, unbounded", "anchors": ["e3nn_jax/_src/basic.py:sum_", "e3nn_jax/_src/basic.py:mean"]}
{"id": "C63", "title": "stack", "statement": "stack of arrays with equal irreps gives an array whose k-th slice along the new leading axis is the k-th input; a term is flagged zero only when it is flagged in every input; different irreps raise.", "quantifier": "all lists of arrays", "why_tests_cant": "all zero-flag patterns", "anchors": ["e3nn_jax/_src/basic.py:stack"]}
{"id": "C64", "title": "Spherical harmonics are orthogonal on the sphere", "statement": "Over the unit sphere the integral of Y^l_m Y^j_n is 0 unless l=j and m=n; the integral of the square is 1 for normalization integral, 4pi for component and 4pi/(2l+1) for norm.", "quantifier": "all degrees l, j, all components, the three normalisations", "why_tests_cant": "an integral over a continuous domain for every degree", "anchors": ["e3nn_jax/_src/spherical_harmonics/__init__.py:spherical_harmonics"]}
{"id": "C65", "title": "The custom derivative of the spherical harmonics is the derivative", "statement": "With algorithm custom_jvp the differentiation rule supplied by the library returns the value and the exact directional derivative of the spherical harmonics, for every requested list of degrees, every point and every tangent; the harmonics are harmonic functions (zero Laplacian). (custom_jvp with legendre but neither dense nor sparse evaluates but raises ValueError when differentiated.)", "quantifier": "all degrees, points, tangents, normalisations", "why_tests_cant": "continuous; a wrong derivative rule silently changes gradients", "anchors": ["e3nn_jax/_src/spherical_harmonics/__init__.py:_custom_jvp_spherical_harmonics", "e3nn_jax/_src/spherical_harmonics/__init__.py:_jvp"]}
{"id": "C66", "title": "All spherical harmonics algorithms agree", "statement": "recursive dense, recursive sparse and legendre evaluations give equal results for every degree and vector; in particular the Legendre implementation in spherical coordinates, the recursive one by Clebsch-Gordan products and the degree 0, 1 closed forms are the same functions.", "quantifier": "all degrees, all vectors including the origin and the poles", "why_tests_cant": "all l; singular coordinates at the poles", "anchors": ["e3nn_jax/_src/spherical_harmonics/legendre.py:legendre_spherical_harmonics", "e3nn_jax/_src/spherical_harmonics/recursive.py:recursive_spherical_harmonics"]}
{"id": "C67", "title": "Tensor products keep the promised normalisation", "statement": "If the components of each irrep of the inputs have zero correlation between different components and blocks and variance 1 (component) or 1/(2l+1) (norm), and the two inputs are independent, every irrep of tensor_product and elementwise_tensor_product again has this property, for every filter. tensor_square of an input whose irreps are independent and isotropic with the 4th moments of normal_input=True (Gaussian) or False (uniform on the sphere) has variance 1 (1/(2l+1)) in every component.", "quantifier": "all irreps, filters, joint distributions with these moments, both normalisations, both values of normal_input", "why_tests_cant": "a statement about every distribution and every degree; sampling can only estimate it", "anchors": ["e3nn_jax/_src/tensor_products.py:tensor_product", "e3nn_jax/_src/tensor_products.py:tensor_square"]}
{"id": "C68", "title": "normal has the promised distribution", "statement": "With standard normal draws, normal(irreps, key, normalization=component) has independent standard normal components; with norm the variance is 1/(2l+1) so that the expected squared norm of an irrep is 1; with normalize=True every irrep has norm 1 almost surely and is isotropic; hence tensor_square(x, normalized_input=normalize) and tensor_product of two such arrays are normalised. Other normalisations raise ValueError.", "quantifier": "all irreps, all degrees, both flags", "why_tests_cant": "distributions", "anchors": ["e3nn_jax/_src/basic.py:normal"]}
{"id": "C69", "title": "Nothing is lost in a tensor product", "statement": "With irrep_normalization=component and no filter |tensor_product(x,y)|^2 = |x|^2 |y|^2; exchanging x and y only permutes the blocks and multiplies the block of degree l from degrees l1, l2 by (-1)^(l1+l2+l); the odd-degree product of an irrep with itself (which tensor_square omits) is zero; the scalar part of the product of two irreps of the same degree is the dot product over sqrt(2l+1).", "quantifier": "all irreps and arrays", "why_tests_cant": "all degrees, all inputs", "anchors": ["e3nn_jax/_src/tensor_products.py:tensor_product", "e3nn_jax/_src/so3.py:clebsch_gordan"]}
{"id": "C70", "title": "where", "statement": "where(mask, x, y) equals x at the leading indices where the mask holds and y elsewhere, keeps the irreps, all views of the result agree whatever terms are flagged zero in x and y, a term is flagged zero exactly when it is in both, and it commutes with every representation. Different irreps or a mask of wrong last dimension raise ValueError; a mask with one entry per irrep, although documented, raises NotImplementedError.", "quantifier": "all masks, irreps, arrays, zero flags, representations", "why_tests_cant": "all zero-flag patterns, continuous group", "anchors": ["e3nn_jax/_src/basic.py:where"]}
{"id": "C71", "title": "tensor_product_with_spherical_harmonics", "statement": "For every input with at least one term, every nonzero vector (1o or 1e, including directions near the pole) and degree, tensor_product_with_spherical_harmonics(input, v, degree) returns; its result is tensor_product(input, spherical_harmonics(range(degree+1), v, True), regroup_output=False) regrouped, hence the documented expression itself when the irreps of input are regrouped; the assertions inside (only the middle harmonic is nonzero at the pole, the slice of the Clebsch-Gordan tensor is diagonal or anti-diagonal) never fail; the result commutes with O(3). At the zero vector the result is the one for the z axis, different from the documented expression (witness). Other irreps of the vector raise ValueError, an empty input raises UnboundLocalError.", "quantifier": "all irreps, inputs, nonzero vectors, degrees, R in O(3), algorithms of spherical_harmonics", "why_tests_cant": "all degrees and a continuous domain with singular points", "anchors": ["e3nn_jax/_src/tensor_product_with_spherical_harmonics.py:tensor_product_with_spherical_harmonics"]}
{"id": "C72", "title": "grad", "statement": "grad(fun) of a differentiable equivariant function is equivariant: grad(fun)(R x) = R grad(fun)(x) for all R in O(3), with or without regrouping, also with other arguments transformed along; for a scalar function the result (not regrouped) has the irreps of x and its entries are the partial derivatives with respect to the entries of x in the same order (half the squared norm has gradient x); no information is lost: the sum of squares of the result is the sum of squares of all partial derivatives; the zero flags of the argument do not matter. When fun returns an array with a zero-flagged term grad raises TypeError.", "quantifier": "all irreps of argument and result, all leading axes, all differentiable functions, all R in O(3), all points", "why_tests_cant": "a statement about every differentiable function and a continuous group", "anchors": ["e3nn_jax/_src/grad.py:grad"]}
{"id": "C73", "title": "batch_norm", "statement": "batch_norm divides every irrep by sqrt((1-eps) var + eps), where var is the mean (or maximum over the samples) of its squared norm over the batch, after subtracting the mean from even scalars only, multiplies it with its weight and shifts even scalars by their bias; the running statistics returned are (1-momentum) old + momentum new, with the entry of each irrep found by its position. It commutes with every R in O(3), and the statistics do not change under R; without affine parameters the valid part of the output has mean 0 on even scalars and mean squared size v/((1-eps) v + eps). A boolean mask gives exactly the result of removing the masked elements, entries that are not read do not influence those that are; parameters of wrong length or unknown options raise. Terms flagged as zero reset their running statistics to 0 and 1 and get no bias (witness).", "quantifier": "all irreps, arrays, flags, options, parameters, masks, R in O(3)", "why_tests_cant": "all batch shapes, masks and option combinations, continuous group", "anchors": ["e3nn_jax/_src/batchnorm/bn.py:batch_norm"]}
{"id": "C74", "title": "BatchNorm modules (haiku, flax): histories of calls", "statement": "A freshly initialised BatchNorm evaluated on its statistics returns its input. After any history of calls the running mean of every even scalar and variance of every irrep are the exponential averages of the means and variances of the training batches in order (weight m (1-m)^j for the batch j steps back, weights sum to 1; constant batches: convergence for 0 < m < 2). With haiku evaluations leave the statistics unchanged. With flax initialisation leaves them unchanged, but every later call, also with use_running_average=True, writes them (witness), and raises when batch_stats is immutable. instance=True with use_running_average=True raises ValueError.", "quantifier": "all histories of calls of any length with any batch shapes, masks, irreps, options", "why_tests_cant": "a statement about every history of calls", "anchors": ["e3nn_jax/_src/batchnorm/bn_flax.py:BatchNorm", "e3nn_jax/_src/batchnorm/bn_haiku.py:BatchNorm"]}
{"id": "C75", "title": "Grid on the sphere: quadrature and integrate", "statement": "The points of the grid are on the unit sphere. The soft quadrature with an even number n of points has nodes in (-1,1), positive weights of sum 1 and is exact for polynomials of degree < n; the Gauss-Legendre one for degree < 2n. SphericalSignal.integrate of a band-limited signal is its integral over the sphere for the area measure, a scalar of parity p_val; a constant 1 gives 4 pi on every grid. An odd res_beta with soft is refused.", "quantifier": "all resolutions, both quadratures, all band-limited functions, all parities", "why_tests_cant": "exactness for every polynomial and every resolution", "anchors": ["e3nn_jax/_src/s2grid.py:_quadrature_weights", "e3nn_jax/_src/s2grid.py:_s2grid_vectors", "e3nn_jax/_src/s2grid.py:SphericalSignal.integrate"]}
{"id": "C76", "title": "to_s2grid evaluates the series of spherical harmonics", "statement": "to_s2grid(coeffs, res_beta, res_alpha, ...) with pairwise distinct irreps in any order, of parities p_val * p_arg**l, gives at every grid point the value of the series of spherical harmonics with these coefficients in the requested normalisation; with fft (res_alpha odd and at least 2 lmax + 1) the values are the same as without. Repeated irreps, inconsistent, half-given or undeterminable parities, even res_alpha with fft are refused with ValueError, no irreps with IndexError. With fft and res_alpha < 2 lmax + 1 frequencies are silently dropped (witness).", "quantifier": "all coefficients, irreps, resolutions, normalisations, quadratures, parities, fft", "why_tests_cant": "all degrees and resolutions", "anchors": ["e3nn_jax/_src/s2grid.py:to_s2grid", "e3nn_jax/_src/s2grid.py:_irfft", "e3nn_jax/_src/s2grid.py:_expand_matrix", "e3nn_jax/_src/s2grid.py:_rollout_sh", "e3nn_jax/_src/s2grid.py:_check_parities"]}
{"id": "C77", "title": "from_s2grid inverts to_s2grid; resample", "statement": "from_s2grid(x, irreps) returns these irreps in this order, each coefficient being the quadrature of the signal against a spherical harmonic. On band-limited signals with enough resolution it returns the coefficients of the series exactly, zeros for absent degrees: from_s2grid(to_s2grid(c)) = c for all normalisations, with and without fft; when the greatest degrees differ the factor is 1 (integral), sqrt((lmax_in+1)/(Lin+1)) (norm), sqrt((lmax+1)/(Lin+1)) (component: lmax_in is ignored). resample gives the values on the new grid of the same function cut to degree lmax. s2_irreps lists the degrees 0..lmax. Repeated irreps and wrong parities are refused.", "quantifier": "all signals, coefficients, irreps, resolutions, normalisations, quadratures, fft", "why_tests_cant": "all degrees and resolutions, all coefficients", "anchors": ["e3nn_jax/_src/s2grid.py:from_s2grid", "e3nn_jax/_src/s2grid.py:_rfft", "e3nn_jax/_src/s2grid.py:_normalization", "e3nn_jax/_src/s2grid.py:SphericalSignal.resample", "e3nn_jax/_src/s2grid.py:s2_irreps"]}
{"id": "C78", "title": "Signals can be evaluated at points and rotated", "statement": "to_s2point gives the value, in the direction of the point, of the series of spherical harmonics with the given coefficients, as a 0e or 0o scalar of parity p_val (one set of coefficients or one point; with several of both, the values are not at the documented places). It is equivariant: transformed coefficients at the transformed point give the transformed value. transform_by_matrix of a band-limited signal gives the signal of x -> +-f(R'^-1 x) on the same grid; the angles, quaternion and axis-angle versions are the same rotation.", "quantifier": "every set of distinct irreps, lmax, normalisation, number of points, grid, band-limited function and orthogonal matrix", "why_tests_cant": "The statement ranges over all coefficients, points and rotations; tests sample a few with tolerance.", "anchors": ["e3nn_jax/_src/s2grid.py: to_s2point, SphericalSignal._transform_by, transform_by_angles, transform_by_matrix, transform_by_axis_angle, transform_by_quaternion"]}
{"id": "C79", "title": "s2_dirac reproduces band-limited functions", "statement": "For p_val = 1 the coefficients returned by s2_dirac(position, lmax) are those of a function whose integral over the sphere against any function of degree up to lmax is the value of that function in the direction of the position; its own integral is 1. With p_val = -1 the call always raises AssertionError.", "quantifier": "every position, lmax, parity of the argument and band-limited function", "why_tests_cant": "An identity between integrals for all positions and functions.", "anchors": ["e3nn_jax/_src/s2grid.py: s2_dirac, s2_irreps"]}
{"id": "C80", "title": "Arithmetic of signals on the sphere is arithmetic of functions, with the right parities", "statement": "If signals hold the values of functions on their grid, then sums, differences, opposites, products, products and quotients by numbers and apply(func) hold the values of the resulting functions, their parities are how the resulting functions transform under rotations and reflections, and operands for which this would fail (different grids, quadratures, parities) are refused. apply of an even function to a signal with p_val = -1 is the exception: the result keeps p_val = -1.", "quantifier": "all signals, functions, grids and orthogonal matrices", "why_tests_cant": "Equivariance of every composition for all functions cannot be sampled.", "anchors": ["e3nn_jax/_src/s2grid.py: SphericalSignal.__mul__, __truediv__, __add__, __sub__, __neg__, apply, replace_values, from_function"]}
{"id": "C81", "title": "Legendre transforms are the axially symmetric case of the transforms on the sphere", "statement": "legendre_transform_to_s2grid gives the values on the grid of the series of spherical harmonics with the given m = 0 coefficients (independent of alpha); with m0_values_to_irrepsarray and betas_to_signal (repeating along alpha) it agrees with to_s2grid; legendre_transform_from_s2grid is the quadrature against the dual basis, and gives the coefficients back when 2 lmax is at most the degree of the quadrature. m0_values_to_irrepsarray places each value at the m = 0 entry of its degree and zero elsewhere.", "quantifier": "every lmax, resolution, quadrature, normalisation and coefficients", "why_tests_cant": "Identities over all resolutions and coefficients; tests check a few sizes with tolerance.", "anchors": ["e3nn_jax/_src/s2grid.py: legendre_transform_to_s2grid, legendre_transform_from_s2grid, m0_values_to_irrepsarray"]}
{"id": "C82", "title": "Signals on the rotations: exact integrals, arithmetic, greatest value", "statement": "SO3Signal.from_function(f, ...).integrate() is exactly the mean of f over uniformly distributed rotations when f is a polynomial of degree at most L in the entries of the rotation matrix, 2 L is at most the degree of the quadrature over the axes, 2 L < res_alpha and L + 3 <= res_theta; entries of Wigner matrices are orthogonal for the discrete inner product with squared norm 1/(2l+1). Products, quotients, opposites and apply act pointwise; grids of different sizes (and, for products, quadratures) are refused. argmax returns the first grid rotation of greatest value.", "quantifier": "every polynomial, grid, quadrature, pair of irreps, signal and function", "why_tests_cant": "Exactness of a quadrature for all polynomials, and invariance of the Haar measure, are statements over infinite sets.", "anchors": ["e3nn_jax/_src/so3grid.py: SO3Signal.from_function, integrate, integrate_over_angles, __mul__, __truediv__, __neg__, apply, argmax, replace_values"]}
{"id": "C83", "title": "Sampling a signal draws grid points with the documented probabilities", "statement": "SphericalSignal.sample draws each grid point with probability proportional to its value times the quadrature weight, so that the mean of any function of the sampled direction is integrate(signal * function) / integrate(signal), which for band-limited signals is the mean over the sphere with the signal as density. SO3Signal.sample draws the axis with the marginal distribution of the axis, and the angle with probability proportional to the values only (the factor 1 - cos(theta) of the uniform measure is missing): the constant signal does not give uniform rotations. With leading axes it raises.", "quantifier": "every non-negative signal, grid, quadrature and function", "why_tests_cant": "Statements about distributions; a test can only compare histograms.", "anchors": ["e3nn_jax/_src/s2grid.py: SphericalSignal.sample, integrate", "e3nn_jax/_src/so3grid.py: SO3Signal.sample"]}
{"id": "C84", "title": "A linear layer parametrises all equivariant linear maps, once each", "statement": "For every input and output irreps, a linear map of flat arrays commutes with every rotation and reflection if and only if it is the default Linear layer without bias for some weights of the shapes the layer asks for; these weights (the list of blocks, or the flat array of num_weights numbers) are unique. num_weights is the sum of mul_in * mul_out over the pairs of an input and an output term with the same irrep.", "quantifier": "every pair of irreps (any terms, repeated, unsorted, zero multiplicities), every linear map, every weights, every path and gradient normalisation", "why_tests_cant": "Completeness quantifies over all linear maps and rests on Schur's lemma over the reals; a test can only count dimensions for a few irreps.", "anchors": ["e3nn_jax/_src/linear.py: FunctionalLinear.__init__, __call__, num_weights", "e3nn_jax/_src/irreps_array.py: transform_by_matrix"]}
{"id": "C85", "title": "The legacy tensor product is the sum its instructions describe, and commutes with O(3)", "statement": "FunctionalTensorProduct.left_right returns, in component k of copy w of output term o, the sum over the instructions ending at o of path_weight times the sum over the connected copies (u, v, w) of the connection mode (uvw, uvu, uvv, uuw, uuu, uvuv, uvu<v, u<vw) of the entry of the weight times the Clebsch-Gordan product of copy u with copy v. The weights may be a list or one flat array; fused=True returns the same array for the modes it accepts; inputs grouped in another way give the same result; components whose output_mask is False are 0. The result commutes with every rotation and reflection for all weights. FunctionalFullyConnectedTensorProduct has exactly one uvw instruction for every allowed triple of terms.", "quantifier": "every irreps, every list of instructions of all modes with fitting multiplicities, all weights, all inputs (flags and cached chunks included), all normalisation options, every orthogonal matrix", "why_tests_cant": "The tests compare a few products with fixed irreps; modes, multiplicities, groupings and flags combine without bound, and equivariance ranges over O(3).", "anchors": ["e3nn_jax/_src/legacy/core_tensor_product.py: FunctionalTensorProduct.__init__, left_right, _block_left_right, _fused_left_right", "e3nn_jax/_src/legacy/functional_fully_connected_tensor_product.py"]}
{"id": "C86", "title": "Normalisation of a legacy tensor product", "statement": "With irrep_normalization='component' and default path weights, if the inputs are independent with the declared variances (1 by default) and every weight is drawn with standard deviation weight_std, then every component of every output term that some instruction reaches has the declared output variance, whatever path_normalization and gradient_normalization are; each instruction contributes the share load^(1-a)/sum, where load is the variances of its inputs times the number of products it adds and a is path_normalization, times its path weight. With 'norm' the squared norm of every output copy has the declared mean when those of the inputs have.", "quantifier": "every irreps, every list of instructions of all modes with fitting multiplicities and non-empty weights, all positive variances, all real path_normalization and gradient_normalization, all families of independent entries", "why_tests_cant": "A test can only estimate variances by sampling, for a few products.", "anchors": ["e3nn_jax/_src/legacy/core_tensor_product.py: _normalize_instruction_path_weights, Instruction.num_elements, FunctionalTensorProduct.left_right"]}
{"id": "C87", "title": "The fully connected tensor product is complete", "statement": "Let f = FunctionalFullyConnectedTensorProduct(irreps1, irreps2, irreps_out) with non-empty terms. Every bilinear map from arrays of types irreps1 and irreps2 to arrays of type irreps_out that commutes with all rotations and reflections is f.left_right(weights, ., .) for exactly one choice of weights, given as a list or as one array, with fused=True or not; conversely for all weights f.left_right is such a map. The number of weights is the sum of mul1*mul2*mul_out over the triples of terms allowed by the selection rules.", "quantifier": "every irreps with positive multiplicities, every normalization argument, every equivariant bilinear map, all weights", "why_tests_cant": "Completeness quantifies over all equivariant bilinear maps: no test can enumerate them, and a missing path or a duplicated one is invisible to equivariance tests.", "anchors": ["e3nn_jax/_src/legacy/functional_fully_connected_tensor_product.py: FunctionalFullyConnectedTensorProduct", "e3nn_jax/_src/legacy/core_tensor_product.py: FunctionalTensorProduct.left_right", "e3nn_jax/_src/fc_tp_haiku.py: FullyConnectedTensorProduct"]}
{"id": "C88", "title": "The FullyConnectedTensorProduct module is total, equivariant and complete", "statement": "e3nn.haiku.FullyConnectedTensorProduct(irreps_out)(x1, x2) returns an array of irreps irreps_out (as written, not regrouped) for every pair of inputs and all parameters; rotating or reflecting both inputs rotates or reflects the output, with the same parameters (the module asks for the same parameter names); the value is the documented sum over the paths of the terms that are not marked as zero, each path taking the parameter of its name; on arrays without terms marked as zero every equivariant bilinear map is obtained for some parameters.", "quantifier": "every irreps (empty terms, repeated terms, terms marked as zero), every parameter value, every normalization and fused option, every rotation and reflection", "why_tests_cant": "The product is rebuilt at every call from the irreps left after removing zero chunks and regrouping; equivariance and completeness quantify over all inputs, parameters and group elements.", "anchors": ["e3nn_jax/_src/fc_tp_haiku.py: FullyConnectedTensorProduct.__call__", "e3nn_jax/_src/legacy/functional_fully_connected_tensor_product.py: FunctionalFullyConnectedTensorProduct"]}
{"id": "C89", "title": "The Linear module is total, equivariant and complete, for every kind of weights", "statement": "e3nn.flax.Linear / e3nn.haiku.Linear(irreps_out, ...) applied to an array returns for every input, with parameters of the shapes it asks for: the output irreps are irreps_out (force_irreps_out) or the simplified irreps_out restricted to the irreps of the input; every output copy is the documented normalised combination of the input copies of the same irrep plus the bias; indexed weights, mixed weights and per-channel mixed weights give the plain layer with the selected or combined parameters; rotating or reflecting the input (and scalar weights) rotates or reflects the output, also with channel_out (the channel axis is merged and split again); on arrays without terms marked as zero every equivariant linear map is obtained for some parameters; an input of other irreps than the announced irreps_in raises ValueError.", "quantifier": "every input and output irreps, every term order and zero mark, every parameter value, kind of weights, normalization, bias option, number of channels, every rotation and reflection", "why_tests_cant": "The layer is rebuilt from the irreps of each input after dropping zero terms and regrouping; the claims quantify over all irreps, parameters, inputs and group elements.", "anchors": ["e3nn_jax/_src/linear_flax.py: Linear.__call__", "e3nn_jax/_src/linear_haiku.py: Linear.__call__", "e3nn_jax/_src/linear.py: linear_vanilla, linear_indexed, linear_mixed, linear_mixed_per_channel, validate_inputs_for_instructions"]}
{"id": "C90", "title": "MultiLayerPerceptron computes the documented network on scalars only", "statement": "e3nn.flax/haiku.MultiLayerPerceptron(list_neurons, act, ...) returns for every input whose layers are not empty, with parameters of the shapes it asks for: the output has list_neurons[-1] entries and is computed layer by layer by x -> act(n^(-g/2) (x W + b)) with the normalised activation, the last layer using output_activation (True: act, False: none); on an IrrepsArray the output irreps are Nx0e; anything containing another irrep than 0e (or no irreps) raises ValueError; rotating or reflecting the input changes nothing; at initialisation the input of every activation has as second moment the mean square of the layer before, whatever the gradient normalization.", "quantifier": "every list of layer sizes, activation, parameter values, input, gradient normalization, rotation and reflection", "why_tests_cant": "A statement about every depth, width, parameter value and activation; a test runs one network.", "anchors": ["e3nn_jax/_src/mlp_flax.py: MultiLayerPerceptron.__call__", "e3nn_jax/_src/mlp_haiku.py: MultiLayerPerceptron.__call__"]}
{"id": "C91", "title": "MessagePassingConvolution is equivariant, local and independent of the numbering of the graph", "statement": "For every graph, parameters, radial basis and features on which MessagePassingConvolution returns: rotating or reflecting positions and features by any R in O(3), and translating all positions by any vector, rotates the result by R; the value at a node depends only on the edges that arrive at it, their senders and the positions: for a map of graphs that is a bijection on the edges arriving at a node, the values at the node and at its image agree (so renumbering nodes and edges renumbers the result, other components of a batch and padding have no effect). With parameters of the shapes it asks for it returns irreps among the target irreps, for every position array that is one vector, unless no message irreps exist; other position irreps are refused.", "quantifier": "every finite graph, positions, features, parameters, radial basis, lmax, target irreps, R in O(3), translation, map of graphs", "why_tests_cant": "Statements over all graphs, all rotations and all parameters; tests sample one graph and one rotation.", "anchors": ["e3nn_jax/experimental/point_convolution.py: _call, MessagePassingConvolutionHaiku, MessagePassingConvolutionFlax"]}
{"id": "C92", "title": "Operations act row by row on the leading axes", "statement": "Leading axes are batch axes: for every array x (coherent, with any number of rows) and every choice of rows (any number, any order, with repetitions), applying the operation to the chosen rows x[i] returns, with the same irreps, zero flags and chunks, the chosen rows of op(x), for rechunk, sort, regroup, filter, remove_zero_chunks, slice_by_mul, +, -, multiplication by a number, products of arrays, norm, dot, cross, concatenate, tensor_product, tensor_square, elementwise_tensor_product, Linear, MultiLayerPerceptron, norm_activation, scalar_activation (activations of zero-flagged terms vanishing at 0), gate (no scalar term flagged zero) and spherical_harmonics. So no row influences another and mapping over rows equals batching.", "quantifier": "every number of rows, choice of rows, coherent array(s), irreps, parameters", "why_tests_cant": "For all batch sizes, all index maps and all values; a test compares one batch with its rows.", "anchors": ["e3nn_jax/_src/irreps_array.py: IrrepsArray", "e3nn_jax/_src/tensor_products.py", "e3nn_jax/_src/basic.py", "e3nn_jax/_src/activation.py", "e3nn_jax/_src/linear_flax.py", "e3nn_jax/_src/mlp_flax.py", "e3nn_jax/_src/spherical_harmonics/__init__.py"]}
{"id": "C93", "title": "gram_schmidt and basis_intersection are exact within their tolerances", "statement": "The rows returned by gram_schmidt(A, epsilon) are orthonormal, are combinations of the rows of A, and every row of A is within epsilon of a combination of them (same span for epsilon = 0). For orthonormal bases such that the projection onto the second space maps the first into itself (the case of reduced_tensor_product_basis), basis_intersection returns P1, P2 such that P1 @ basis1 and P2 @ basis2 are orthonormal bases of the intersection: the two cut-offs on eigenvalues and norms lose nothing and add nothing as soon as epsilon <= 1 and 4 n epsilon^2 < 1 (n rows).", "quantifier": "every array, every tolerance, every pair of orthonormal bases with the stated property, and every eigendecomposition that numpy may return", "why_tests_cant": "Tests compare a few intersections at the default tolerance; they cannot show that the thresholds separate the zero eigenvalues and norms from the others for all bases.", "anchors": ["e3nn_jax/_src/utils/math_numpy.py: gram_schmidt", "e3nn_jax/_src/utils/math_numpy.py: basis_intersection"]}
{"id": "C94", "title": "reduced_tensor_product_basis always returns, and its columns transform as its irreps say", "statement": "For every list of irreps, every group of signed index permutations that preserves the dimensions, every keep_ir and every tolerance, the general algorithm behind reduced_tensor_product_basis (and its symmetric and antisymmetric variants) terminates: the greedy loop and its recursive calls end after at most (n-1)^2 + n turns, without an exception, when there is at least one index and no irreps has dimension zero. The IrrepsArray it returns is equivariant: transforming its last axis with transform_by_matrix(R) and every other axis i with D_i(R) gives the same array, for every rotation or reflection R, whatever orthonormal (or even wrong) eigenvectors the numerical eigensolver returns. Without indices a RuntimeError is raised.", "quantifier": "all numbers of indices, irreps, groups of signed permutations, keep_ir, tolerances, eigensolver outputs and orthogonal matrices", "why_tests_cant": "Tests check a handful of formulas with small irreps for random rotations; the greedy order, the recursion and the eigensolver's choices vary with every input.", "anchors": ["e3nn_jax/_src/reduced_tensor_product.py: _reduced_tensor_product_basis", "e3nn_jax/_src/reduced_tensor_product.py: reduce_basis_product", "e3nn_jax/_src/reduced_tensor_product.py: constrain_rotation_basis_by_permutation_basis"]}
{"id": "C95", "title": "The columns of reduced_tensor_product_basis are an orthonormal basis of the tensors with the symmetries of the formula", "statement": "Without keep_ir, for every list of irreps and every group of signed index permutations that exchanges only indices with the same irreps, the columns of the IrrepsArray returned by the general algorithm are orthonormal arrays of shape (d1, ..., dn), every column satisfies T[x_p(0), x_p(1), ...] = sign * T[x_0, x_1, ...] for every symmetry, and every tensor with these symmetries is the sum over the columns of its scalar product with the column times the column. The number of columns depends neither on the eigenvectors the eigensolver returns nor on the tolerance. Exception found: with a single index the symmetries are ignored, and for 'i=-i' the identity is returned although only the zero tensor has the symmetry.", "quantifier": "all numbers of indices, irreps, groups of signed permutations, tolerances with 4*prod(dims)*eps^2 < 1, eigensolvers returning orthonormal eigenvectors, and all tensors", "why_tests_cant": "Tests check the span of a few small formulas numerically; completeness is a statement about every tensor, and the numerical intersection of two spaces depends on thresholds and on the eigenvectors returned.", "anchors": ["e3nn_jax/_src/reduced_tensor_product.py: _reduced_tensor_product_basis", "e3nn_jax/_src/reduced_tensor_product.py: reduce_basis_product", "e3nn_jax/_src/reduced_tensor_product.py: constrain_rotation_basis_by_permutation_basis", "e3nn_jax/_src/reduced_tensor_product.py: reduce_subgroup_permutation"]}
{"id": "C96", "title": "reduced_tensor_product_basis completes the irreps of the formula and returns a basis of exactly the tensors the formula describes", "statement": "For every formula 'names=\u00b1w=...' and all keyword arguments, whatever the iteration order of the set of symmetries: the irreps of the indices are computed if and only if every keyword is a letter of the formula and exactly one assignment of irreps to the letters respects the keywords and gives equal irreps to indices that the formula exchanges, and then they are that assignment; otherwise RuntimeError (TypeError for a keyword longer than one character). With the irreps so determined the general algorithm returns an IrrepsArray whose columns are orthonormal, transform as the irreps say, satisfy T[names] = \u00b1T[w] for every part of the formula, and in which every tensor with these symmetries can be expanded. The same holds for a list of irreps (no symmetries), reduced_symmetric_tensor_product_basis and reduced_antisymmetric_tensor_product_basis.", "quantifier": "all formulas, keyword arguments, set iteration orders, irreps, degrees, tolerances with 4*prod(dims)*eps^2 < 1, correct eigensolvers and tensors", "why_tests_cant": "The propagation of irreps runs over a Python set in unspecified order, and completeness is a statement about every tensor; tests run a few formulas in one process.", "anchors": ["e3nn_jax/_src/reduced_tensor_product.py: reduced_tensor_product_basis", "e3nn_jax/_src/reduced_tensor_product.py: reduced_symmetric_tensor_product_basis", "e3nn_jax/_src/reduced_tensor_product.py: reduced_antisymmetric_tensor_product_basis", "e3nn_jax/_src/reduced_tensor_product.py: germinate_perm_repr"]}
{"id": "C97", "title": "The default (optimized) algorithm for symmetric tensor powers returns the same kind of basis", "statement": "With the default optimized implementation for totally symmetric index groups switched on (or off), reduced_tensor_product_basis / reduced_symmetric_tensor_product_basis returns, for every irreps and degree and without keep_ir, an IrrepsArray whose columns are orthonormal, are invariant under the permutations of the formula, span all such tensors, and transform as the returned irreps; both implementations return the same number of columns. With any keep_ir, whatever is returned is equivariant.", "quantifier": "all irreps, degrees, formulas and symmetry groups exchanging indices with the same irreps, both settings of _use_optimized_implementation, all iteration orders of the symmetry set, all eigh satisfying the eigen-decomposition contract, all tolerances below the stated bound", "why_tests_cant": "the optimized path multiplies powers of single irreps and symmetrizes over arrangements; that the result is complete and orthonormal is a statement about all irreps and degrees, tests compare a few small cases", "anchors": ["e3nn_jax/_src/reduced_tensor_product.py: _optimized_reduced_symmetric_tensor_product_basis", "e3nn_jax/_src/reduced_tensor_product.py: reduced_symmetric_tensor_product_basis", "e3nn_jax/_src/reduced_tensor_product.py: _reduced_tensor_product_basis"]}
{"id": "C98", "title": "SymmetricTensorProduct evaluates the weighted symmetric polynomials it documents and is equivariant", "statement": "SymmetricTensorProduct(orders, keep_irrep_out)(x) returns, for each channel separately, one copy of each irrep that occurs in the symmetric bases of the given orders, in increasing order; component i of irrep ir is the sum over the orders r and over the K copies of ir in reduced_symmetric_tensor_product_basis(x.irreps, r) of w[r, ir][k]/K times the degree-r polynomial in the components of x given by that column (the Horner-like evaluation, with its special case, changes nothing). Rotating or inverting x rotates or inverts the output by the representation of the output irreps. Without keep_irrep_out it always returns; order 0 and the empty tuple of orders are refused.", "quantifier": "all non-empty tuples of positive orders (repetitions and gaps included), all irreps of x, all channels, weights, inputs, all rotations and rotoinversions, all keep_irrep_out (equivariance and value), every choice of eigenvectors", "why_tests_cant": "A test evaluates one module with random weights on a few irreps and rotations; the claim is an identity between a nested evaluation and a polynomial for every tuple of orders and all irreps.", "anchors": ["e3nn_jax/_src/symmetric_tensor_product_haiku.py: SymmetricTensorProduct", "e3nn_jax/_src/reduced_tensor_product.py: reduced_symmetric_tensor_product_basis"]}
{"id": "C99", "title": "LinearSHTP and shtp are equivariant under rotations and reflections, and shtp spans all equivariant maps", "statement": "e3nn.experimental LinearSHTP(irreps_out, mix)(input, direction) and shtp(input, direction, filter): for every input, every nonzero direction of irreps 1o or 1e (including those in the gimbal lock region), every parameters and every orthogonal matrix, transforming input and direction transforms the output (and errors are the same). Only the direction of the vector matters. shtp returns for every irrep of the filter exactly as many copies as there are pairs of an input irrep and a degree of the spherical harmonics that couple to it; these copies span all equivariant maps: any equivariant family of linear maps T(d) from one irrep to another is a fixed linear combination of the copies. LinearSHTP with mix=True returns irreps_out.regroup(), and raises when an output irrep cannot be reached; its value is the documented polar formula with the normalisation one over the square root of the number of paths.", "quantifier": "all irreps, multiplicities, arrays, directions, parameters, filters and orthogonal matrices", "why_tests_cant": "continuous symmetry group, unbounded degrees and all real inputs; the code switches between two frames near the poles", "anchors": ["e3nn_jax/experimental/linear_shtp.py: LinearSHTP", "e3nn_jax/experimental/linear_shtp.py: shtp"]}
{"id": "C100", "title": "Transformer: equivariance, locality, cutoff and attention weights", "statement": "Transformer(...)(edge_src, edge_dst, edge_weight_cutoff, edge_attr, node_feat), whenever it returns: (1) rotating/reflecting the features and the edge attributes by R in O(3) rotates the result by R; (2) the result at a node is determined by the features of the node and of its neighbours and by the cutoff weights and attributes of the arriving edges: pulling back along a map of graphs that is a bijection on the arriving edges of a node gives the same value there, in particular renumbering nodes and edges renumbers the result; (3) with cutoff weights >= 0, edges with weight zero may be removed without any effect; (4) with cutoff weights >= 0 and normalisation component or norm, the input of the last Linear is, column by column, the sum over arriving edges of the value of the edge times the square root of the cutoff-weighted softmax of the logits of the head of that column (subtracting the maximum and guarding against zero is invisible), the squares of the weights of a head sum to one at every node that has an arriving edge with positive weight, and the number of heads divides every multiplicity of the values.", "quantifier": "all graphs, all features/attributes/weights, all parameters, all activation functions, any number of heads, all R in O(3)", "why_tests_cant": "continuous group, all graphs, all weights", "anchors": ["e3nn_jax/experimental/transformer.py: Transformer.__call__", "e3nn_jax/experimental/transformer.py: _index_max"]}
{"id": "C101", "title": "zoom resamples voxels by the centre convention", "statement": "zoom(input, output_size=..., interpolation=...): voxel k of m covers the same interval as the voxels of the source, so its centre is at (k+1/2)n/m - 1/2. 'linear': the value is obtained by following, axis after axis, the broken line through the voxels (constant outside of the centres of the border voxels); 'nearest': the value of the voxel nearest to the centre, the even one of two. Hence, in both modes: the same size gives the image back, every value is a convex combination of source values, leading axes are transformed linearly (zoom commutes with every linear map on them), permuting axes permutes the axes of the result, reducing by an odd factor keeps the central voxels; for 'linear': mirroring along an axis mirrors the result (so all 48 symmetries of the cube), affine images stay affine between border centres, halving is the mean over 2x2x2 blocks. resize_rate multiplies the sizes and rounds half to even; giving both or neither of rate and size, a size zero or another interpolation raises. (Mirroring is false for 'nearest': witness theorem.)", "quantifier": "all images with any leading axes, all positive sizes, all rates", "why_tests_cant": "all real images and all pairs of sizes", "anchors": ["e3nn_jax/experimental/voxel_pooling.py: zoom", "e3nn_jax/experimental/voxel_pooling.py: _zoom", "e3nn_jax/experimental/voxel_pooling.py: interpolate_trilinear", "e3nn_jax/experimental/voxel_pooling.py: interpolate_nearest"]}
{"id": "C102", "title": "right(weights, x2) of a legacy tensor product is the matrix of x1 -> left_right(weights, x1, x2)", "statement": "FunctionalTensorProduct.right returns a matrix with irreps_in1.dim rows and irreps_out.dim columns such that x1 @ right(weights, x2) equals left_right(weights, x1, x2) for every first input, in the modes uvw, uvu, uvv, uuw, uuu and uvuv; when x2 is transformed by a rotation or reflection the matrix intertwines the actions on the first input and on the output; a product that starts with one of the modes uvu<v or u<vw, which right does not compute, raises NameError.", "quantifier": "all irreps (also with empty terms), all lists of instructions in these modes with or without weights, all normalisations, all weights, all second inputs without None chunks, all first inputs, all orthogonal matrices", "why_tests_cant": "The identity is between a function and a matrix for every first input and every list of paths; the code assembles blocks by term, so that an offset or an order error shows only for particular shapes, and the unit test compares one product on random inputs.", "anchors": ["e3nn_jax/_src/legacy/core_tensor_product.py: FunctionalTensorProduct.right, _right"]}
{"id": "C103", "title": "The voxel convolution is a correlation with a short-range equivariant kernel, and commutes with the symmetries of the lattice of voxels", "statement": "Convolution(irreps_out, irreps_sh, diameter, num_radial_basis, relative_starts, steps)(x) with padding SAME returns, at every voxel, the correlation of x padded with zeros and of a kernel of 2 floor(diameter/2/step)+1 voxels per axis, on the terms of irreps_out that a product of a term of x with a term of irreps_sh reaches, and zero on the other terms; the kernel is the self-connection at the centre and, elsewhere, the fully connected tensor product with the spherical harmonics of the displacement, with weights that are functions of its length; it vanishes at displacements of length at least diameter/2; moving the image by a translation, or by an orthogonal symmetry of the lattice of voxels together with its action on the features, moves and transforms the output the same way, in particular a quarter turn of a cube.", "quantifier": "all output irreps and harmonics, all diameters, steps, numbers of radial functions and starts, all parameters, all images with any batch and any sides, all normalisations, all orthogonal matrices that preserve the lattice and all translations", "why_tests_cant": "Equivariance must hold for every image, set of parameters and lattice symmetry; the unit test rotates a one-voxel image once, with a tolerance.", "anchors": ["e3nn_jax/experimental/voxel_convolution.py: Convolution.__call__, kernel, _tp_weight, _kernel, _call"]}
{"id": "C104", "title": "The Equinox Linear module: parameters, values, equivariance, agreement with the Flax and Haiku modules, refusals", "statement": "equinox.Linear(irreps_out=, irreps_in=, linear_type=, ..., key=) returns a module with one parameter for each path, of distinct names, of the shape of the path with one set of weights per index / per mixing number / per channel, drawn as normal numbers times the standard deviation of the path; a missing argument raises as documented. After any training, calling it on an array whose irreps are those of the constructor up to their order returns the requested irreps that the input has, with the documented linear map; it commutes with rotations and reflections, with or without channel_out; its numbers are those of the Flax or Haiku module with the same parameters when the input has every irrep of irreps_out; other irreps or another channel size raise ValueError, and a term marked as zero raises AssertionError.", "quantifier": "all irreps, types of weights, normalisations, biases, channel numbers, random numbers, trained parameters, inputs and weights; all orthogonal matrices", "why_tests_cant": "The constructor and the call compute the names and shapes of the parameters separately and must agree for every configuration; the unit tests only check shapes and that no number is zero.", "anchors": ["e3nn_jax/_src/linear_equinox.py: Linear.__init__, _get_weights, __call__"]}
{"id": "C105", "title": "keep_ir of reduced_tensor_product_basis keeps exactly the requested irreps and loses nothing", "statement": "reduced_tensor_product_basis(..., keep_ir=l) and its symmetric form, with the optimized implementation (the default) or without: every irrep of the returned IrrepsArray is in l, its columns are orthonormal, have the index symmetries and transform as the irreps say, and they are complete: any IrrepsArray of arrays with the symmetries, with irreps in l and the right transformation has its columns in their span. Each irrep of l occurs as often as in the call without keep_ir, although the intermediate products are filtered. The general algorithm always returns; the optimized one returns exactly when some irrep of l occurs in the symmetric power and raises ValueError otherwise.", "quantifier": "all lists of irreps, groups of index symmetries between equal irreps, lists l of irreps, eigenvector choices and tolerances 0 < eps small against the size", "why_tests_cant": "The filter is applied at every intermediate product with a set of irreps computed from the other indices; whether it drops a path that would be needed depends on all irreps and orders of the products. The unit tests compare a few formulas.", "anchors": ["e3nn_jax/_src/reduced_tensor_product.py: _reduced_tensor_product_basis, subset_of_keep_ir, reduce_basis_product, _tp_ir_seq, _tp_ir_seq_pow, _optimized_reduced_symmetric_tensor_product_basis"]}
{"id": "C106", "title": "Random rotations are uniformly distributed", "statement": "When the three numbers drawn by the generator are independent and uniform on [0, 1), rand_matrix returns a rotation whose distribution is the Haar measure: it is unchanged by multiplying with any fixed rotation on either side and by inverting, and it is the only such distribution. rand_angles, rand_quaternion, rand_axis_angle and rand_log_coordinates return the same rotation in their own form (the last two except on the half turns, which have probability zero), so they are uniform too; a fixed vector rotated at random has no preferred direction; the angles are in [0, 2 pi), (0, pi] and [0, 2 pi).", "quantifier": "every fixed rotation, every measurable set of rotations, every vector", "why_tests_cant": "A distribution over a continuous group: a test can only compare a few sample statistics with a tolerance, and drawing beta uniformly, say, would pass every test of orthogonality.", "anchors": ["e3nn_jax/_src/rotation.py: rand_matrix, rand_angles, rand_quaternion, rand_axis_angle, rand_log_coordinates"]}
{"id": "C107", "title": "equivariance_test decides equivariance", "statement": "For arguments given by their irreps, equivariance_test draws them at random together with a random improper rotation and returns fun(R args) and R fun(args). An equivariant function gives two equal results for every draw, so assert_equivariant accepts it; a continuous function whose results agree with probability one commutes with every rotation and every reflection on all arguments (so one that is not equivariant is rejected with positive probability); with tolerances, acceptance with probability one bounds the defect for every improper rotation and all arguments. An argument given as an array is not varied: on an array of zeros every function that maps zero to zero is accepted.", "quantifier": "every function of any number of arguments of any irreps, every rotation or reflection, every argument; every draw for the first part, almost every draw for the converse", "why_tests_cant": "It is a statement about all functions and about the probability law of the test itself; running the test on some functions does not show that no wrong function slips through.", "anchors": ["e3nn_jax/_src/utils/test.py: equivariance_test, assert_equivariant", "e3nn_jax/_src/rotation.py: rand_matrix"]}
{"id": "C108", "title": "Calls on irreps announce the irreps of the result", "statement": "tensor_product, elementwise_tensor_product, tensor_square, scalar_activation and gate may be called on irreps instead of arrays and then return irreps. These are exactly the irreps of the result on any arrays with those irreps, whatever their leading shape, data and zero flags: whenever the call on arrays succeeds, so does the call on irreps, with the same irreps (for gate: no scalar of the array is zero-flagged). Conversely, if the elementwise product or the activation of the irreps succeeds, so does the one of the (unflagged, for the activation) arrays.", "quantifier": "all irreps, all coherent arrays with those irreps, all options (filter, normalization, regroup_output, activations)", "why_tests_cant": "Networks are built from the announced irreps before any data is seen; that the announcement never depends on the data, for all irreps and options, cannot be tested case by case.", "anchors": ["e3nn_jax/_src/utils/decorators.py: overload_for_irreps_without_array", "e3nn_jax/_src/tensor_products.py: tensor_product, elementwise_tensor_product, tensor_square", "e3nn_jax/_src/activation.py: scalar_activation", "e3nn_jax/_src/gate.py: gate"]}
{"id": "C109", "title": "vmap over a leading axis", "statement": "For every function that acts row by row (C92), e3nn.utils.vmap of the function returns exactly what the function returns on the whole array: same irreps, data, zero flags and chunks; in_axes=(0, None) amounts to copying the second argument along the axis. Plain jax.vmap gives the same irreps and data, with no zero flag, when the data returned by the function do not depend on the flags (C46).", "quantifier": "all functions that act row by row (in particular tensor products and activations), all coherent arrays, all non-empty mapped axes", "why_tests_cant": "It relates two ways of running arbitrary functions on arbitrary arrays, with the flags and the cached chunks carried by the wrapper.", "anchors": ["e3nn_jax/_src/utils/vmap.py: vmap, _VIA", "e3nn_jax/_src/irreps_array.py: register_pytree_node"]}
{"id": "C110", "title": "The generators of irreps generate their representation", "statement": "For every Irreps with at least one copy, Irreps.generators() returns three antisymmetric dim x dim matrices X_x, X_y, X_z with [X_x,X_y]=X_z and cyclic; D_from_log_coordinates(v) of the same Irreps is exp(v_x X_x + v_y X_y + v_z X_z), its derivative at the identity in direction v is v_x X_x + v_y X_y + v_z X_z, and a linear map between two Irreps commutes with all rotations if and only if it commutes with the generators. With no copy of any irrep generators() raises ValueError.", "quantifier": "all irreps, all log coordinates, all linear maps", "why_tests_cant": "For all irreps and a continuum of rotations; a test evaluates a few l and a few rotations to within a tolerance.", "anchors": ["e3nn_jax/_src/irreps.py:Irrep.generators", "e3nn_jax/_src/irreps.py:Irreps.generators", "e3nn_jax/_src/so3.py:generators", "e3nn_jax/_src/irreps.py:Irreps.D_from_log_coordinates"]}
{"id": "C111", "title": "== compares copy by copy, exactly and invariantly", "statement": "x == y of two IrrepsArrays with equal Irreps returns one boolean per copy of an irrep (as even scalars), true exactly when all components of that copy agree, chunks held as None counting as zeros; all booleans are true exactly when the arrays are equal; the comparison of the transformed arrays is the comparison of the arrays for every orthogonal transformation. Different Irreps raise ValueError. x == number raises ValueError if some degree is positive or there is no copy, and otherwise compares component by component with the Irreps of x.", "quantifier": "all irreps, all arrays over any leading index, all rotations and inversions", "why_tests_cant": "Every Irreps, every pattern of missing chunks and a continuum of rotations.", "anchors": ["e3nn_jax/_src/irreps_array.py:IrrepsArray.__eq__"]}
{"id": "C112", "title": "reshape, broadcast_to and axis_to_irreps keep the rows", "statement": "x.reshape(shape) succeeds for every complete shape of the right size (and for one unknown axis -1 when the rest divides, all multiplicities positive), and whatever it returns has the requested axes, the same Irreps and zero flags, and the same rows in row-major order, so reshaping back restores x. x.broadcast_to(shape) succeeds exactly when the last entry is the dimension (or -1) and the leading axes satisfy the broadcasting rule, and each row is the row of x at the index with 0 on axes of length one. x.axis_to_irreps() (axis=-2, and any axis whose removal leaves the axes shape[:-2]) writes the Irreps once per index of the axis, simplified, and each row is the concatenation of the rows along that axis. All three commute with every transformation.", "quantifier": "all irreps, all shapes with any number of axes, all arrays, all transformation matrices", "why_tests_cant": "Every number of axes, every shape (including axes of length zero and one) and every Irreps.", "anchors": ["e3nn_jax/_src/irreps_array.py:IrrepsArray.reshape", "e3nn_jax/_src/irreps_array.py:IrrepsArray.broadcast_to", "e3nn_jax/_src/irreps_array.py:IrrepsArray.axis_to_irreps"]}
{"id": "C113", "title": "Powers of scalars", "statement": "x ** n with an integer n is accepted exactly on scalars (irreps without any copy excepted, unless all terms are 0e), takes the n-th power of every component, returns even scalars when n is even and keeps the parities when n is odd; a non-integer power of anything but even scalars and every power of an irrep of positive degree raise ValueError. The power of the transformed array is the transformed power for every orthogonal transformation. The result's chunks and flags agree with its array exactly when no None chunk was cached in x.", "quantifier": "all irreps, all arrays over any leading index, all integer exponents, all rotations and inversions", "why_tests_cant": "All exponents, irreps and states of the cache, and a continuum of rotations.", "anchors": ["e3nn_jax/_src/irreps_array.py:IrrepsArray.__pow__"]}
{"id": "C114", "title": "Irreps as module attributes", "statement": "e3nn_jax.irrep.<name> is the irrep ir exactly when the name is the letter l followed by a text of ir (in the grammar of Irrep(str)); in particular every irrep is reachable as l followed by its printed form. Every other non-empty name raises AttributeError, so hasattr and getattr with a default work; the empty name raises ValueError.", "quantifier": "all names (strings of ASCII characters), all irreps", "why_tests_cant": "Infinitely many names and irreps.", "anchors": ["e3nn_jax/irrep/__init__.py:__getattr__", "e3nn_jax/_src/irreps.py:Irrep.__init__"]}
{"id": "C115", "title": "Default odd activation and the sample points of the normalisation", "statement": "normalspace(n) returns n strictly increasing points, symmetric around zero, the i-th of which is the quantile i/(n+1) of the standard normal distribution, and none farther than sqrt(n+1) from zero. soft_odd is odd, strictly increasing, has the sign of its argument and is smaller in absolute value. Used as the default activation of odd scalars it is detected as an odd function, with the normalisation over normalspace(1000001) as well as without, and maps zero to zero, so odd scalars stay odd scalars.", "quantifier": "all n, all real arguments, every inverse of the error function", "why_tests_cant": "Quantiles for every n, and a property of a function on all real numbers.", "anchors": ["e3nn_jax/_src/activation.py:normalspace", "e3nn_jax/_src/activation.py:soft_odd", "e3nn_jax/_src/activation.py:normalize_function", "e3nn_jax/_src/activation.py:parity_function", "e3nn_jax/_src/activation.py:scalar_activation"]}
{"id": "C116", "title": "Rounding to square roots of rationals", "statement": "round_to_sqrt_rational(x, N) replaces every entry x whose square is within 1/(4(N^2+1)q) of a fraction p/q with q <= N^2 and 4(N^2+2)(p+1) <= 2^51 by exactly sign(x) sqrt(p/q), entry by entry, and complex entries by real and imaginary parts; in particular these numbers themselves are unchanged. The docstring (denominator of sqrt(p)/q at most N) is not what is computed, and numbers with x^2 > 2^51 become infinite.", "quantifier": "all maximal denominators, all arrays of real or complex numbers near such square roots, all p and q", "why_tests_cant": "All fractions and all perturbations of them, arrays of any size, a loop whose length depends on the input.", "anchors": ["e3nn_jax/_src/utils/math_numpy.py:round_to_sqrt_rational", "e3nn_jax/_src/utils/math_numpy.py:as_approx_integer_ratio", "e3nn_jax/_src/utils/math_numpy.py:limit_denominator"]}
{"id": "C117", "title": "Peaks of a signal on the sphere", "statement": "find_peaks(lmax) of a band-limited signal returns exactly the local maxima (in rows and columns) of its values on the grid turned by a fixed rotation, together with the local maxima on the original grid that are at least 2 pi / max(res_beta, res_alpha) away from all of these; every returned point is a unit vector, and its value is the value of the signal's function at that point. If one of the two grids has no inner local maximum (for example a constant signal) it raises ValueError.", "quantifier": "all band-limited signals, resolutions fine enough for lmax, both parities, both quadratures", "why_tests_cant": "All signals and resolutions; involves a rotated resampling of the signal.", "anchors": ["e3nn_jax/_src/s2grid.py:SphericalSignal.find_peaks", "e3nn_jax/_src/s2grid.py:_find_peaks_2d", "e3nn_jax/_src/s2grid.py:SphericalSignal.transform_by_angles"]}
{"id": "C118", "title": "Padding a signal on the sphere for a plot", "statement": "pad_to_plot returns a closed surface: the inner rows and columns keep the directions and values of the grid, the last column repeats the first one, the first and the last row are one point each (the south and the north pole of the y axis) with the mean value of the neighbouring row; every point lies at distance radius (times the amplitude, divided by the greatest amplitude, as the flags say) from the translation vector.", "quantifier": "all signals with at least one row and one column, translations, radii and flags (not the signal zero when the amplitude is normalised)", "why_tests_cant": "All signals, resolutions and flags.", "anchors": ["e3nn_jax/_src/s2grid.py:SphericalSignal.pad_to_plot", "e3nn_jax/_src/s2grid.py:_s2grid_vectors"]}
{"id": "C119", "title": "Signals on the sphere with use_s2fft=True", "statement": "For coefficients that have every degree up to lmax once, to_s2grid(..., use_s2fft=True) returns the same signal as without s2fft; for a signal of degree at most lmax, from_s2grid(..., use_s2fft=True) returns the same coefficients as without; so the two are inverse to each other. Another quadrature than soft, another resolution than (2 lmax + 2, 2 lmax + 1) and fft=False raise ValueError. The coefficients of from_s2grid always carry the irreps 0e+1o+2e+..., also when others were asked for or p_val = -1; and to_s2grid of coefficients of degree two alone silently returns another signal.", "quantifier": "all lmax, coefficients and batches, normalisations, parities, and every s2fft package that meets its documentation", "why_tests_cant": "All degrees and coefficients; two conventions for spherical harmonics (phases, real and complex, direction of the polar axis) must agree in every degree.", "anchors": ["e3nn_jax/_src/s2grid.py:_to_s2grid_s2fft", "e3nn_jax/_src/s2grid.py:_from_s2grid_s2fft", "e3nn_jax/_src/s2grid.py:_check_compatibility_with_s2fft", "e3nn_jax/_src/s2grid.py:get_s2fft_grid_resolution", "e3nn_jax/_src/so3.py:change_basis_real_to_complex"]}
{"id": "C120", "title": "einsum and its custom derivative", "statement": "The library's einsum succeeds exactly when the equation fits the operands, and then returns, at each position of the output, the sum over all assignments of the letters of the products of the entries. The derivative rule attached to it returns the same value together with the derivative: along every differentiable family of operands that passes through xs with the velocity x_dots, the returned tangent is the derivative of each entry of the result. The tangent is linear in x_dots, and operands that are refused by einsum are refused by the rule.", "quantifier": "all equations with any number of operands and letters (also repeated ones), all sizes, all operands and tangents, all differentiable families", "why_tests_cant": "Equations, numbers of operands and sizes are unbounded; a derivative is a limit that finite differences only approximate.", "anchors": ["e3nn_jax/_src/utils/einsum.py:einsum", "e3nn_jax/_src/utils/einsum.py:einsum_jvp", "e3nn_jax/_src/legacy/core_tensor_product.py:_left_right (custom_einsum_jvp)"]}
{"id": "C121", "title": "perm.rand is uniform", "statement": "perm.rand(n) returns every permutation of 0, ..., n-1 with probability 1/n! and never anything else; composing with a fixed permutation does not change the distribution.", "quantifier": "all n and all permutations", "why_tests_cant": "A distribution over n! outcomes, for every n, cannot be settled by drawing samples.", "anchors": ["e3nn_jax/perm.py:rand", "e3nn_jax/perm.py:from_int"]}
{"id": "C122", "title": "mul_to_axis and axis_to_mul with any axis and any leading shape", "statement": "axis_to_mul(axis) removes the axis, multiplies the multiplicities by its length, and copy k * mul + j of the result is copy j at position k of the axis, whenever the axes from that one on have equal lengths (always for the default axis). mul_to_axis(factor, axis) inserts the new axis, and copy j at position k is copy k * (mul / factor) + j, under the same kind of condition; otherwise it raises ValueError as soon as one chunk is not zero-flagged. Under the conditions axis_to_mul(axis) undoes mul_to_axis(factor, axis). The irreps axis and axes out of range are refused by axis_to_mul. For axes of other lengths axis_to_mul silently returns the entries at wrong places, and mul_to_axis(axis=-1) is not always refused.", "quantifier": "all shapes of the leading axes, axes (positive and negative), factors, irreps and arrays with any zero flags", "why_tests_cant": "Shapes and axes are unbounded; errors appear only for particular lengths of the axes.", "anchors": ["e3nn_jax/_src/irreps_array.py:IrrepsArray.mul_to_axis", "e3nn_jax/_src/irreps_array.py:IrrepsArray.axis_to_mul", "e3nn_jax/_src/irreps_array.py:_standardize_axis"]}
{"id": "C123", "title": "A number divided by an array of scalars", "statement": "number / x, for scalars of any parity none of which is marked as zero, returns the same irreps with every entry inverted, and agrees with x ** -1 for the number one; it commutes with rotations and reflections. array / x with one number for each component divides component by component. Irreps that are not scalars, scalars marked as zero, and empty irreps raise ValueError. An array with one number for each row is not divided row by row (as x / array is).", "quantifier": "all scalar irreps, arrays, leading axes, numbers and orthogonal matrices", "why_tests_cant": "All irreps, values and transformations.", "anchors": ["e3nn_jax/_src/irreps_array.py:IrrepsArray.__rtruediv__"]}
{"id": "C124", "title": "Numbers recognised as square roots of rationals", "statement": "sqrtQ_to_sympy(x) returns exactly plus or minus sqrt(p/q), with the sign of x, whenever the floating point square of x is within 1/(2 q 10^6) of p/q and q is at most 10^6. For every x the square of the result is a rational with denominator at most 10^6 within 1/(2 * 10^6) of the square of x, and the sign is right. Arrays are converted entry by entry with the same shape.", "quantifier": "all floats (rationals), rationals p/q, arrays of any number of axes, every floating point square and every implementation of Fraction.limit_denominator that meets its documentation", "why_tests_cant": "All floats and all rationals; closeness of the best approximation is an inequality over all fractions.", "anchors": ["e3nn_jax/_src/utils/sympy.py:Q_to_sympy", "e3nn_jax/_src/utils/sympy.py:sqrtQ_to_sympy", "e3nn_jax/_src/utils/sympy.py:sqrtQarray_to_sympy"]}
{"id": "C125", "title": "IrrepsArrays in jax pytrees", "statement": "tree_map(f, tree), for any nesting of containers holding IrrepsArrays, Irreps and plain arrays, applies f to every array in place and keeps all irreps, if f keeps the last axis of the arrays of IrrepsArrays (or removes all axes), and raises ValueError if it changes the length of one of these last axes. It keeps the tree structure, and mapping twice is mapping once with the composition. An IrrepsArray that is flattened and unflattened (jit, vmap, scan) keeps its irreps, its array and the agreement of its views; only the zero flags are lost. Two IrrepsArrays have the same structure exactly when their irreps are equal, whatever their zero flags; Irreps have no leaves.", "quantifier": "all trees of any depth, all functions on arrays, all irreps and arrays with any zero flags", "why_tests_cant": "Trees are nested without bound and the function is arbitrary.", "anchors": ["e3nn_jax/_src/irreps_array.py:IrrepsArray", "e3nn_jax/_src/irreps.py:Irreps", "e3nn_jax/_src/irreps.py:MulIrrep", "e3nn_jax/_src/irreps.py:Irrep"]}
{"id": "C126", "title": "Indexing the leading axes", "statement": "x[index], for every index made of integers, slices, None and ... that leaves the irreps axis alone, has the irreps and zero flags of x, its array is x.array[index], its chunks (if stored) show exactly that array and its flagged terms are zero; it raises what x.array[index] raises. x[index, irreps] with irreps that occur exactly once is x[index, :] restricted to the columns of these terms. list(x) are the rows of the first axis; without a leading axis it raises ValueError. An integer on the irreps axis and a new axis at the end are refused. This holds for indices without None, with ..., shorter than the number of axes, ending in ':', or ending in None; with None elsewhere the library miscounts the axes (witnesses).", "quantifier": "all shapes, irreps, arrays, zero flags, cached or uncached chunks, and all indices of any length", "why_tests_cant": "Indices and shapes are unbounded; the array and the chunks are indexed separately and must agree for every index.", "anchors": ["e3nn_jax/_src/irreps_array.py:IrrepsArray.__getitem__", "e3nn_jax/_src/irreps_array.py:IrrepsArray.__iter__"]}
{"id": "C127", "title": "Indexing a batch of signals on the sphere", "statement": "signal[index], for every index that leaves the two axes of the grid alone, is a batch of whole signals of the original batch, with the same resolutions, quadrature and parities, and its grid values are grid_values[index]; it raises what that raises. signal[k] is signal number k, also for negative k, and raises IndexError out of range. A single signal indexed by a number raises ValueError. An index of the grid axes that leaves two axes is not refused: signal[:, 0] of a batch is accepted as one signal on a grid made of the batch axis.", "quantifier": "all batch shapes, resolutions, values and indices of any length (integers, slices with positive step, None, ...)", "why_tests_cant": "Batch shapes and indices are unbounded.", "anchors": ["e3nn_jax/_src/s2grid.py:SphericalSignal.__getitem__"]}
{"id": "C128", "title": "x.at[index].set and x.at[index].add", "statement": "x.at[index].set(values) and x.at[index].add(values), for every index made of integers, slices, None and ... that leaves the irreps axis alone and values with equivalent irreps and the shape of x[index], keep the irreps of x; reading the same index afterwards gives the values (the sums), no position outside of the index changes, and the zero flags of the result (both were flagged) are true. An integer on the irreps axis raises IndexError, a slice of it NotImplementedError.", "quantifier": "all shapes, irreps, arrays, zero flags, values and indices of any length (integers, slices with positive step, None, ...), any update operation that maps zeros to zero", "why_tests_cant": "Indices and shapes are unbounded; a stride or a flag mistake shows only for particular positions.", "anchors": ["e3nn_jax/_src/irreps_array.py:_IndexUpdateRef.set", "e3nn_jax/_src/irreps_array.py:_IndexUpdateRef.add"]}
