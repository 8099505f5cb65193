# DESIGN

Subject: e3nn/e3nn-jax at the pinned commit (source in /repo, read as text, never built or run).
Tool: Lean 4.33.0 with Mathlib, imported one module at a time. Project in `lean/`, library `Verif`.

* `lean/Verif/Model/` — the model, function by function; every definition cites the file and lines of /repo it models and says
  where it simplifies. Paths are relative to `e3nn_jax/` or `e3nn_jax/_src/`.
* `lean/Verif/Spec/` — small specifications written without the model's helpers (what "a sequence of irreps", "an O(3) action",
  "the generated subgroup", "a well-formed jaxpr" mean).
* `lean/Verif/Lemmas/` — proofs.
* `lean/Verif/Props/` — the theorems `Cnn_…` listed in MANIFEST.json, each with a concrete example meeting its hypotheses.
* `seeded/LOG.jsonl` — wrong programs the theorems were tested against.

## Trusted base

1. **Lean's kernel.** No `native_decide`, no `bv_decide`, no compiled evaluation; `decide`/`decide +kernel` is used only on closed
   statements about concrete data (examples, the literal tables of `J.py`), and is checked by the kernel.
2. **Axioms.** At most `propext`, `Classical.choice` and `Quot.sound` for every theorem of MANIFEST.json (Lean's and Mathlib's
   standard ones; `#print axioms` shows nothing else). No axiom is declared in this project, no proof is left open.
3. **The reading of the Python source** into the definitions of `Model/`, as cited there.
4. **The meaning of the primitives of Python, numpy and jax** that the code calls, written down in the model:
   lists, tuples, `sorted` (a stable sort), `slice.indices`, `int(str)`/`str.split`/`str.strip` on ASCII text, dictionaries and sets
   (up to order, except where noted), `reshape`, `concatenate`, `einsum`, `cumsum`, `repeat`, `.at[].add/max`, `jnp.where(size=…)`,
   `block_diag`, `linalg.det/norm`, `linalg.solve`, `expm`, trigonometric functions, `lpmn_values` (associated Legendre functions,
   by its documentation), `jax.random.bernoulli` (an arbitrary outcome), jaxpr evaluation.

### What the model deliberately leaves out
* **Floating point.** Arrays hold elements of an abstract ring, module or of the reals; rounding, overflow, NaN, dtypes and
  tolerances are not modelled. Statements are about the exact mathematical function the code computes. Where the code itself
  compares with a tolerance (`jnp.allclose`) the tolerance is modelled as an exact real inequality.
* **jit, vmap, tracing, devices, sharding, dtype promotion, randomness quality.**
* **Leading axes** are abstracted: an entry of the modelled array ("column") is an element of an arbitrary type carrying all leading axes,
  so pointwise statements hold for every leading shape. Broadcasting between different leading shapes is not modelled; `axis`
  arguments are modelled only where a definition says so. Real-valued code with its own leading axes (rotation.py,
  spherical harmonics) is modelled for one point and lifted pointwise.
* **Module wrappers** of haiku, flax and equinox (parameter creation and storage) except where a property says otherwise.



## Per property: what is modelled, how it is proved

* **C01 Irrep order and iterator** (proved) — `Irrep` as (l, parity); `__lt__` and the iterator as written. Order by arithmetic on the key; completeness and monotonicity of the enumeration by the index map.
* **C02 Selection rules of the irrep product** (proved) — The range list of `__mul__`; membership by arithmetic, dimension by induction on the length of the range (Gauss sum).
* **C03 Irreps text round trip** (proved) — `int()`, `strip`, `split` and the parser at the level of characters; the grammar is a separate specification; round trip by induction on digits and terms.
* **C04 Slices tile the irreps dimension** (proved) — The `slices` loop as a recursion on the offset; induction.
* **C05 unify / remove_zero_multiplicities / simplify preserve the representation** (proved) — Specification `expand` (every term written mul times); loops as folds; induction; canonicity by reconstructing the runs.
* **C06 sort is a stable sorting permutation** (proved) — `sorted` as a stable insertion sort on (irrep, index); `List.Perm`, `Pairwise`; the two permutations by index computations.
* **C07 regroup is a canonical form** (proved) — Canonical form proved from counts: strictly increasing and positive lists with equal counts are equal.
* **C08 filter keeps exactly the requested terms** (proved) — The three optional arguments and the raising branches as a sum type.
* **C09 Irreps.slice_by_mul is list slicing of the irreps** (proved) — `slice.indices` over the integers, the loop as written; specification take/drop of `expand`; witness for reversed bounds.
* **C10 Irreps.slice_by_dim: which cuts it accepts and what it returns** (proved) — Loop invariant over the terms: the loop succeeds exactly when every cut term is cut at a multiple of the dimension, which is equivalent to the two geometric cases of `C10_accepts_iff` (Props/C10.lean). That only equivariant cuts are accepted is false of the code (`C10_unsound_witness`).
* **C11 Algebra of Irreps** (proved) — Direct inductions.
* **C12 Array and chunk views agree** (proved) — Array columns as a list over any type with zero; chunk = optional list of rows; constructor checks as in the code.
* **C13 rechunk preserves the data** (proved) — The while loop of `rechunk` branch by branch (integer placeholder versus array) with a loop invariant; failure iff the simplified irreps differ.
* **C14 Zero flags are sound in every history** (proved) — State = irreps, array, optional flags, optional chunk cache; `Inv` is preserved by each operation, then induction on histories. `__pow__` breaks it (witnesses).
* **C15 Indexing by irreps** (proved) — Loop over positions; specification: exactly one occurrence. The empty pattern differs (witness).
* **C16 Indexing the irreps axis by a slice** (proved) — The scan with break and the recursive rechunk with fuel; termination theorem shows the fuel suffices; accepted iff both bounds are irrep borders.
* **C17 sort/regroup/simplify of arrays move whole irreps** (proved) — Specification: the list of (irrep, block) pairs.
* **C18 IrrepsArray.filter agrees with Irreps.filter** (proved) — The membership test as written; witness for callables looking at the multiplicity.
* **C19 extend_with_zeros embeds** (proved) — Greedy loop proved complete against `List.Sublist`.
* **C20 IrrepsArray.slice_by_mul is list slicing of the irreps blocks** (proved) — Loop; specification take/drop of the block list; witness for cutting a zero chunk.
* **C21 mul_to_axis and axis_to_mul are inverse** (proved) — Reshape as list regrouping; inverse both ways; the default factor.
* **C22 Structural operations are equivariant** (proved) — For any family of maps per irrep with f 0 = 0.
* **C23 concatenate** (proved) — List induction.
* **C24 Permutation group laws** (proved) — Permutations as lists; `List.Perm (range n)`.
* **C25 Permutation ranking is a bijection** (proved) — Lehmer code with the pool; induction on n.
* **C26 germinate computes the generated subgroup** (proved) — The closure loop with fuel n!+1; fixpoint by counting; smallest closed set; independence of set order.
* **C27 sign is the permutation parity** (proved) — `to_cycles` as written; agreement with `Equiv.Perm.sign` and `cycleType`-style disjointness.
* **C28 Linear is equivariant for every weight** (proved) — Linear over any commutative ring, columns in a module; block action by matrices; weights arbitrary.
* **C29 Linear.matrix equals the call** (proved) — Kronecker blocks; finite sums.
* **C30 Linear normalisation** (proved) — Reals with powers; witness for zero multiplicities.
* **C31 Linear default instructions and output mask** (proved) — Direct; mask from the instruction list.
* **C32 Flat weights split into path weights** (proved) — take/drop recursion.
* **C33 tensor_product output irreps** (proved) — Loop model; counts and dimensions by induction; values by the bilinear formula.
* **C34 tensor_square output irreps** (proved) — The triangular loops; counts and dimension.
* **C35 Tensor products are equivariant** (proved) — Clebsch-Gordan tensors as a parameter with the intertwining property as hypothesis; discharged for the code's own tensors in C59.
* **C36 Euler angles, matrices** (proved) — Real 3x3 matrices, `Complex.arg`, `Real.arccos`; all branches including gimbal lock.
* **C37 Quaternions** (proved) — Quaternion formulas as in the code, compared with rotation matrices.
* **C38 Axis-angle round trip** (proved) — Rodrigues form; what happens at half turns is proved exactly.
* **C39 The Wigner matrices are the irreducible representations of O(3)** (proved) — rot_y with the code's write order, the J tables literally (l < 12, related to the generators by exact integer certificates) and expm for l >= 12; homomorphism through the Lie algebra and an exponential argument; irreducibility by weights.
* **C40 su(2) generators** (proved) — Matrices over the complex numbers with the code's entries; arithmetic on square roots.
* **C41 Real basis change** (proved) — Change of basis as in the code.
* **C42 Segment sums** (proved) — Segment sums as sums over index sets; jax's out-of-bounds rules for each mode; `_distinct_but_small`.
* **C43 radius_graph** (proved) — Mask, `nonzero` with size and fill value, batch filter.
* **C44 Activation parity and irreps** (proved) — Decision logic with arbitrary activations; parity detection as the sampled test; equivariance under the true parity; aliasing witness.
* **C45 Gate** (proved) — Composition of filter, slices, activation and elementwise product.
* **C46 Zero chunks are treated as zeros** (proved) — Two arrays with equal values and different flags are compared operation by operation; witnesses where the code differs.
* **C47 norm and dot are invariant** (proved) — Finite sums under orthogonal actions.
* **C48 Spherical harmonics** (proved) — Recursion with the context dictionary; uniqueness and existence of the harmonic polynomials; equivariance from the Clebsch-Gordan intertwiner.
* **C49 Radial functions** (proved) — Real analysis (smoothness of exp(-1/x), integrals of sines, linear systems).
* **C50 limit_denominator** (proved) — The loop on integers with fuel; invariants of continued fractions; best approximation; witness at equality.
* **C51 Dead code removal preserves meaning** (proved) — Jaxprs with nested call bodies over arbitrary primitives; simulation between the original and the pruned program.
* **C52 Removal of duplicates and optimize_jaxpr preserve meaning** (proved) — Key functions as a parameter with soundness hypothesis `KeySound`; the witnesses show where the code's keys violate it.
* **C53 Configuration** (proved) — State machine over the dictionary.
* **C54 Dropout** (proved) — Bernoulli outcomes arbitrary.
* **C55 Index symmetries of reduced tensor products** (proved) — Signed permutations as lists; closure loop; orbits; orthonormal rows and spanning.
* **C56 generate_tuples_with_fixed_sum** (proved) — Recursion; completeness, no repetition, count.
* **C57 Log coordinates** (proved) — Matrix exponential of the hat map (Rodrigues by an ODE/uniqueness-free power series argument).
* **C58 Clebsch-Gordan coefficients** (proved) — Racah's formula as in the code over exact reals, raising/lowering recursion, orthogonality.
* **C59 O(3) acts on IrrepsArray and the library commutes with the action** (proved) — Representation matrices of C39 acting on blocks; all library operations with the code's own Clebsch-Gordan tensors.
* **C60 soft_normalization and key_value_activation** (proved) — Norm estimates.
* **C61 cross product** (proved) — Cross product rows; axial parity.
* **C62 sum and mean** (proved) — Row sums.
* **C63 stack** (proved) — Families of arrays indexed by the new axis.
* **C64 Spherical harmonics are orthogonal on the sphere** (proved) — Mathlib's surface measure; Schur's lemma via invariance.
* **C65 The custom derivative of the spherical harmonics is the derivative** (proved) — Derivative formula through the gradient intertwiner, uniqueness of equivariant polynomials.
* **C66 All spherical harmonics algorithms agree** (proved) — Rodrigues formula against the recursion.
* **C67 Tensor products keep the promised normalisation** (proved) — Second and fourth moments of random arrays (Spec/Normalisation); orthogonality and completeness of the Clebsch-Gordan tensors.
* **C68 normal has the promised distribution** (proved) — Product Gaussian measure of Mathlib, rotation invariance, moments of the uniform direction.
* **C69 Nothing is lost in a tensor product** (proved) — Completeness and exchange symmetry of the Clebsch-Gordan tensors.
* **C70 where** (proved) — Column selection on arrays, flags and chunks; one invariant for all views.
* **C71 tensor_product_with_spherical_harmonics** (proved) — Alignment of the vector with the pole by Euler angles (two charts), selection rules and middle slices of the Clebsch-Gordan tensor, equivariance of the product; flags are irrelevant (C46).
* **C72 grad** (proved) — Frechet derivative in the coordinates of the chunks; chain rule with the Wigner matrices, intertwining and completeness of the Clebsch-Gordan tensors.
* **C73 batch_norm** (proved) — Loop state in step with a positional specification per irrep; transport through the representation, the mask and restrictions.
* **C74 BatchNorm modules (haiku, flax): histories of calls** (proved) — The modules as state transformers on the statistics; induction over the list of calls, closed form of the exponential average.
* **C75 Grid on the sphere: quadrature and integrate** (proved) — Discrete trigonometric sums for soft; existence of Gauss nodes from the eigenvalues of the Jacobi matrix; orthogonality of C64 for the area measure.
* **C76 to_s2grid evaluates the series of spherical harmonics** (proved) — Expand matrices as sums over blocks, angular functions and inverse Fourier transform, identification with the unique spherical harmonics of C48/C66; refusals by case analysis on the parity sets.
* **C77 from_s2grid inverts to_s2grid; resample** (proved) — Discrete orthogonality of the spherical harmonics on the grid from the exactness of the quadrature and of the sums over alpha.
* **C78 Signals can be evaluated at points and rotated** (proved) — toS2Point and transformSignal modelled on exact reals; value by reduction to C48_degrees block by block; equivariance from the defining equivariance of the spherical harmonics and orthogonality of the representation matrices.
* **C79 s2_dirac reproduces band-limited functions** (proved) — Orthogonality of the spherical harmonics on the sphere (C64) and linearity.
* **C80 Arithmetic of signals on the sphere is arithmetic of functions, with the right parities** (proved) — Signals as functions of the grid indices; Represents relates them to functions of a vector; actOn is the action on functions.
* **C81 Legendre transforms are the axially symmetric case of the transforms on the sphere** (proved) — Reduction to the m = 0 entry of the spherical harmonics (mid) on the grid and C76.
* **C82 Signals on the rotations: exact integrals, arithmetic, greatest value** (proved) — Entries of Wigner matrices as functions of the axis expand in spherical harmonics (equivariance); mean over axes by C75, sum over angles of the character times 1 - cos by geometric sums; Haar side by Schur (C39); polynomials are spanned by entries by Clebsch-Gordan.
* **C83 Sampling a signal draws grid points with the documented probabilities** (proved) — Preimages of choice are intervals; product measure; positivity of both kinds of weights (Abel summation for soft, squares of Lagrange polynomials for Gauss-Legendre).
* **C84 A linear layer parametrises all equivariant linear maps, once each** (proved) — The (i,u),(o,v) block of the matrix of the map intertwines the Wigner matrices, so it is a multiple of the identity or zero; divide by the path weight, which is positive.
* **C85 The legacy tensor product is the sum its instructions describe, and commutes with O(3)** (proved) — The loop over the instructions is related to the sum over paths by an invariant for the list of results (block) and for the big tensor (fused); equivariance from C39_clebsch_gordan path by path.
* **C86 Normalisation of a legacy tensor product** (proved) — Count the products per output copy in every mode, use the orthogonality of the Clebsch-Gordan coefficients (C58) and the definition of alpha; second moments by expanding the square.
* **C87 The fully connected tensor product is complete** (proved) — Schur's lemma for bilinear maps (expand a block in all Clebsch-Gordan slices, C39 irreducible/inequivalent), then solve for the weights; uniqueness from the norm of the coefficients (C58) and distinct instructions (C85).
* **C88 The FullyConnectedTensorProduct module is total, equivariant and complete** (proved) — Compose remove_zero_chunks/simplify/rechunk (C14-C16 lemmas) with C85/C87; the zero flags are preserved by the transformation, so the module is rebuilt identically.
* **C89 The Linear module is total, equivariant and complete, for every kind of weights** (proved) — Compose remove_zero_chunks/regroup/rechunk/axis_to_mul/mul_to_axis lemmas with C28 and C84; the permutation made by regroup transports equivariant maps.
* **C90 MultiLayerPerceptron computes the documented network on scalars only** (proved) — Induction over the layers; scalars are fixed by O(3) (C59).
* **C91 MessagePassingConvolution is equivariant, local and independent of the numbering of the graph** (proved) — Columns are functions of the node; every step commutes with reindexing (Lemmas/Natural.lean) and with O(3) (C22, C35, C61, C89).
* **C92 Operations act row by row on the leading axes** (proved) — Naturality of the operations under homomorphisms of the algebra of columns (Lemmas/Natural.lean, NaturalMore.lean).
* **C93 gram_schmidt and basis_intersection are exact within their tolerances** (proved) — Model gram_schmidt as the fold over the rows and basis_intersection with eigh as a parameter. Invariant of the fold: orthonormality, span, distance. With C the cross Gram matrix, C C^T C = C gives p(p-1)(p-2) = 0, so the selected eigenvectors are the kernel and x1 x1^T = C C^T / 2; a unit vector of the range orthogonal to the output would have all coordinates below 2 epsilon.
* **C94 reduced_tensor_product_basis always returns, and its columns transform as its irreps say** (proved) — Arrays with several tensor axes are functions of the index on each axis. Induction over the loop and the recursion with the invariant that every block of every intermediate basis is an equivariant family on its set of axes; products by the intertwining of the Clebsch-Gordan coefficients, the constraint step because it mixes copies only.
* **C95 The columns of reduced_tensor_product_basis are an orthonormal basis of the tensors with the symmetries of the formula** (proved) — Induction over the loop with the invariant: orthonormal and complete for the tensors with the symmetries that fix the other axes. Products by the orthogonality and completeness of the Clebsch-Gordan coefficients; the constraint step by Schur's lemma (the average over the group commutes with rotations, hence mixes copies of an irrep with one matrix), so that intersecting only the first components is enough, and C93 for the intersection.
* **C96 reduced_tensor_product_basis completes the irreps of the formula and returns a basis of exactly the tensors the formula describes** (proved) — The pairs of letters visited by the loops are the orbit relation of the group, so one pass over the set in any order propagates every given value to its orbit and compares any two given values of an orbit; then C55 (formula to group) and C95.
* **C97 The default (optimized) algorithm for symmetric tensor powers returns the same kind of basis** (proved) — The powers of single irreps come from C95; products of bases on consecutive axes, then symmetrization over the distinct arrangements: orthonormality and completeness by the decomposition of the index ranges into slices (RTPOpt* lemmas).
* **C98 SymmetricTensorProduct evaluates the weighted symmetric polynomials it documents and is equivariant** (proved) — Model/SymTP is the dictionary loop of the module (with the "special" mark and the TypeError it would cause), Spec/SymTP the polynomial. Loop invariant: before order r the entry of ir is the sum over the orders s > r of the coefficient arrays with the axes r..s-1 contracted. Equivariance: the contraction with a rotated x is the contraction of the array rotated on all axes (adjoint), which C97 relates to the irrep.
* **C99 LinearSHTP and shtp are equivariant under rotations and reflections, and shtp spans all equivariant maps** (proved) — model of the loops on the aligned input and of the frame; the stabiliser of the pole (rotations about y with a reflection or the inversion), all matrices that commute with it; equivariance, number of copies, completeness, value at the pole.
* **C100 Transformer: equivariance, locality, cutoff and attention weights** (proved) — Model/Transformer.lean follows __call__ line by line, composing the models of filter, tensor_product, concatenate, regroup, MultiLayerPerceptron, mul_to_axis, *, axis_to_mul, scatter_sum and Linear. Equivariance: each step maps transformed arrays to transformed arrays; logits are scalars, hence invariant; weightHeads acts on blocks. Locality: each step commutes with pulling back along the map of graphs; alpha depends on the fibre only. Attention: a fold of max from zero cancels in the quotient, and the guard only fires when all terms of the fibre are zero.
* **C101 zoom resamples voxels by the centre convention** (proved) — Model/Zoom.lean follows the eight weights and the flattened grids literally. The eight terms factor into three one-dimensional interpolations; the broken line is characterised by its own specification and is unique. Flattening and reshaping of the grid: indices of nested flatMaps of constant length.
* **C102 right(weights, x2) of a legacy tensor product is the matrix of x1 -> left_right(weights, x1, x2)** (proved) — Model the contraction of each mode, the block assembly and the short-cuts; prove that row r is the product with the r-th basis vector, then linearity.
* **C103 The voxel convolution is a correlation with a short-range equivariant kernel, and commutes with the symmetries of the lattice of voxels** (proved) — Model the lattice, the weights, the matrices (C102 right, functional linear), the padding and the correlation; prove the kernel intertwines R, re-index the sum over the box by the symmetry.
* **C104 The Equinox Linear module: parameters, values, equivariance, agreement with the Flax and Haiku modules, refusals** (proved) — Model the constructor and the call; reduce the call to the layer of C89 (names, shapes), then C28 and the transfer lemmas.
* **C105 keep_ir of reduced_tensor_product_basis keeps exactly the requested irreps and loses nothing** (proved) — Invariant of all bases of the loop: the blocks are part of a full equivariant orthonormal basis whose missing irreps cannot lead to a kept irrep (triangle rule is associative); Schur's lemma for the completeness.
* **C106 Random rotations are uniformly distributed** (proved) — Model: rand_* as functions of the three uniform numbers. Proof: the mean of every entry of every Wigner matrix of degree at least one is zero (the azimuths project on the middle index, where the entry is a Legendre polynomial of 2z - 1), the entries span the polynomials, and a distribution on the compact group is determined by its polynomial moments (subalgebra separating points); so the law is the Haar measure built from the sphere of quaternions.
* **C107 equivariance_test decides equivariance** (proved) — Model: equivariance_test as a function of its random numbers. Proof: the matrices D(-R) are continuous in the three uniform numbers, every rotation is the image of a point of the closed cube, the law charges every open set of the cube times the space of arguments, so a closed condition that holds almost surely holds everywhere; improper rotations generate O(3).
* **C108 Calls on irreps announce the irreps of the result** (proved) — Model: overload_for_irreps_without_array for one and two arguments. Proof: each function is shown to compute the irreps of its result from the irreps of its arguments alone, through regroup, sort, align, slice_by_mul and concatenate.
* **C109 vmap over a leading axis** (proved) — Model: slicing and stacking through _VIA (array, cached chunks, irreps, flags). Proof: the rows of the result on the whole array determine the stacked array, flags and cache.
* **C110 The generators of irreps generate their representation** (proved) — Model generators as block_diag of the so3 generators (Model/Generators.lean); the inclusions of the copies reduce products, transposes and exponentials of block diagonal matrices to C41.
* **C111 == compares copy by copy, exactly and invariantly** (proved) — Model eq per chunk pair (Model/Compare.lean), then read off the blocks with fromChunks_pairs; the equivariance uses that D(R) is injective (C39).
* **C112 reshape, broadcast_to and axis_to_irreps keep the rows** (proved) — Model arrays with a list of leading axis lengths and row-major positions (Model/Shape.lean); prove that positions enumerate the indices in lexicographic order, and read the rows through mapCols.
* **C113 Powers of scalars** (proved) — Model both branches (Model/Pow.lean); the constructor receives the cached chunks but no flags, so coherence is characterised by comp; equivariance from D of scalars being a sign.
* **C114 Irreps as module attributes** (proved) — Model the module __getattr__ on top of parseIrrep (Model/IrrepAttr.lean) and reuse the grammar of C03.
* **C115 Default odd activation and the sample points of the normalisation** (proved) — Define erf by its integral (Spec/Erf.lean), relate it to Mathlib's Gaussian measure, and get the quantiles by inverting it; monotonicity of soft_odd from its derivative; the size of the normalisation constant from Chebyshev's inequality.
* **C116 Rounding to square roots of rationals** (proved) — Model as_approx_integer_ratio with floor and round-half-even on reals (Model/SqrtRational.lean); bound its error; combine with the best approximation theorem C50.
* **C117 Peaks of a signal on the sphere** (proved) — Model _find_peaks_2d and find_peaks (Model/FindPeaks.lean); the rotated values by the transform theorem of C78, the turned vectors by C59.
* **C118 Padding a signal on the sphere for a plot** (proved) — Model the paddings index by index (Model/PadToPlot.lean) and use the unit vectors of C75.
* **C119 Signals on the sphere with use_s2fft=True** (proved) — Specify the package by complex spherical harmonics; model the change of basis entry by entry (Model/S2fft.lean); a column of the matrix combines two complex harmonics, seen from the other pole, into one real harmonic; then reuse C76 and C77.
* **C120 einsum and its custom derivative** (proved) — Model the contraction as nested sums (Model/Einsum.lean), specify it as a sum over assignments (Spec/Einsum.lean), prove the product rule by induction over the operands and exchange it with the nested sums.
* **C121 perm.rand is uniform** (proved) — Push the uniform distribution on range(n!) through from_int, which is a bijection onto the permutations by C25.
* **C122 mul_to_axis and axis_to_mul with any axis and any leading shape** (proved) — Model chunks with their leading shape (Model/AxisMove.lean) as functions of multi-indices; moveaxis and reshape act on row-major positions; use unflat_flat of C112.
* **C123 A number divided by an array of scalars** (proved) — Model the checks and the broadcasting of the last axis (Model/RDiv.lean); a scalar transforms by a sign, which is its own inverse.
* **C124 Numbers recognised as square roots of rationals** (proved) — Two fractions closer than the inverse of the product of their denominators are equal; the closest fraction is at most twice the error away (Model/Sympy.lean).
* **C125 IrrepsArrays in jax pytrees** (proved) — Model flattening and unflattening with the registered functions (Model/Pytree.lean); mutual induction over trees and lists of trees.
* **C126 Indexing the leading axes** (proved) — Model numpy indexing as a map of positions (Model/Index.lean); the index of a chunk is that of the array with one more ':', which moves the same rows.
* **C127 Indexing a batch of signals on the sphere** (proved) — The position map of C126 applied to an array with two untouched last axes (Model/SigIndex.lean).
* **C128 x.at[index].set and x.at[index].add** (proved) — The position map of C126 is injective, with an explicit partial inverse (Model/AtIndex.lean).

## What is modelled and what is not

Modelled (function by function, see the citations in `Model/`):

* `irreps.py`: Irrep, MulIrrep, Irreps with parser and printer, algebra, slices, sort, regroup, filter, D matrices, generators; `irrep/__init__.py` (attributes).
* `irreps_array.py`: constructor, chunks, zero flags, arithmetic, powers, comparison, indexing, `at[]`, rechunk, simplify, unify, sort, regroup, filter,
  extend_with_zeros, slices, reshape, broadcast_to, axis_to_irreps, mul_to_axis/axis_to_mul (any axis: C122), transform_by_*, vmap over a leading axis, indexing of the leading axes, iteration and updates with `.at` (C126, C128; index arrays, negative steps and broadcast values excepted).
* `basic.py`: from_chunks, zeros, reductions, concatenate, stack, norm, dot, cross, where, normal; calls on irreps only.
* `linear.py`, `linear_flax.py`, `linear_haiku.py` (same body), `linear_equinox.py`, `fc_tp_haiku.py`, `mlp_flax.py`/`mlp_haiku.py`, `dropout_haiku.py`, `batchnorm/`,
  `symmetric_tensor_product_haiku.py`, `activation.py` (with `normalspace`), `gate.py`.
* `tensor_products.py`, `legacy/core_tensor_product.py` (left_right, right; the values do not depend on `custom_einsum_jvp`, whose rule is C120; `sparse` not modelled),
  `legacy/functional_fully_connected_tensor_product.py`, `reduced_tensor_product.py`, `tensor_product_with_spherical_harmonics.py`.
* `scatter.py`, `radius_graph.py`, `radial.py`, `rotation.py` (random rotations too), `su2.py`, `so3.py`, `J.py`, `spherical_harmonics/`, `perm.py`, `grad.py`, `config.py`.
* `s2grid.py`: grids, to_s2grid, from_s2grid (also with s2fft), to_s2point, s2_dirac, integrate, resample, transforms, arithmetic, sampling, peaks, pad_to_plot, Legendre transforms;
  `so3grid.py` (the batch axes of `from_function` as one index; random numbers are arguments).
* pytree registration of `IrrepsArray`, `Irreps`, `MulIrrep`, `Irrep` (C125; `jax.tree_util` by its documented behaviour).
* `utils/math_numpy.py`, `utils/optimize_jaxpr.py`, `utils/einsum.py`, `utils/test.py` (equivariance_test), `utils/vmap.py`, `utils/sympy.py`.
* `experimental/`: point_convolution, linear_shtp, transformer, voxel_convolution (padding SAME), voxel_pooling (zoom).

External code that is a parameter with its documented contract: `np.polynomial.legendre.leggauss`, the package `s2fft`, `jax.random`/`random` (draws from the documented laws or
arguments), `erfinv`, `scipy` peak finding (its documented result; the order is a parameter), `jnp.einsum` (modelled for explicit equations).

Not modelled: floating point rounding (all arrays have exact real entries), dtypes, plotting with plotly, printing of arrays, deprecation wrappers, `utils/jit.py`,
`utils/dtype.py`, `sparse` legacy tensor products, the machinery of haiku/flax/equinox/jax transformations (modules are modelled as functions of their parameters and state).

## Where the code and the documented behaviour differ (proved as witnesses)

* C03 `repr` of the empty Irreps, `Irreps()`, is not accepted by the parser.
* C09 `slice_by_mul` with reversed bounds inside one term raises instead of returning nothing.
* C10 `slice_by_dim` accepts `2x1e[1:4]`, cutting two irreps.
* C14 `__pow__` drops the zero flags but keeps `None` chunks: later operations see zeros that are not there, or raise.
* C15 an empty pattern of irreps does not behave like an empty slice.
* C18 `filter` with a callable that looks at the multiplicity raises.
* C20, C46 `slice_by_mul` cutting a `None` chunk raises TypeError.
* C21 covers the default axis; other axes: C122.
* C28 explicit instructions of Linear are not checked: 1o -> 1e is accepted and breaks parity.
* C30 a zero multiplicity with path normalisation breaks the normalisation.
* C33, C61 a trailing zero-multiplicity term raises AssertionError in `elementwise_tensor_product` and `cross`.
* C36 `rotation_angle_from_angles` uses `.T`, right only without leading axes (leading axes are outside the model).
* C38 at half turns `matrix_to_axis_angle` returns the zero axis and `matrix_to_quaternion` the zero quaternion.
* C39 `D_from_axis_angle` does not normalise its axis.
* C42 with `nel` summing to less than the number of rows the rest goes to the last segment.
* C43 `loop=False` drops distinct coincident nodes; padding edges pass the batch test.
* C44 parity detection samples [0, 10]: an aliasing function is misclassified.
* C46 `scalar_activation` on a zero chunk evaluates the activation at one, not at zero.
* C49 the gaussian basis never vanishes, also with `cutoff=True`.
* C50 `limit_denominator` returns 0/1 when the reduced denominator equals the bound.
* C52 equal keys for different values: dtype of literals, 0.0 and -0.0, constants of closed jaxprs.
* C54 masks are shared by terms of equal multiplicity; empty irreps raise.
* C55 frozensets of indices are iterated in hash order: sorted only below 9 indices (assumed in the model).
* C56 `generate_tuples_with_fixed_sum(n, 0)` with n > 0 never ends.
* C59 D of empty irreps has shape (1, 0).
* C65 `legendre` alone under `custom_jvp` evaluates but cannot be differentiated.
* C71 at the zero vector the result is the one for the z axis.
* C72 a result with a zero-flagged term makes `grad` raise TypeError.
* C73 a term flagged as zero resets its running statistics and gets no bias.
* C74 the flax BatchNorm writes `batch_stats` also in evaluation, and raises when they are immutable.
* C76 with `fft` and `res_alpha < 2 lmax + 1` the frequencies that do not fit are dropped without an error.
* C77 `lmax_in` is ignored by the normalisation "component".
* C78 `to_s2point` with several sets of coefficients and several points returns the values in another order than its documented shape.
* C79 `s2_dirac` with `p_val=-1` always raises AssertionError.
* C80 `SphericalSignal.apply` of an even function on a signal with `p_val=-1` keeps `p_val=-1`.
* C81 `m0_values_to_irrepsarray` without a leading axis raises IndexError; one value is broadcast to all degrees.
* C82 `SO3Signal.integrate` with `res_theta <= 2` is zero for every signal; quotients of signals do not compare the quadratures.
* C83 `SO3Signal.sample` chooses the angle without the factor `1 - cos(theta)`: the constant signal is not sampled uniformly; with leading axes it raises AssertionError.
* C85 `left_right` of a legacy tensor product with a term of multiplicity 0 shifts the results of the following instructions; `fused=True` does not check the multiplicities of the modes.
* C88 marking a zero term as zero changes the result of the `FullyConnectedTensorProduct` module (path normalisation).
* C89 `Linear` with `irreps_in` and `channel_out` refuses every input with a number of channels other than 1; with `irreps_in`, an input with a term marked as zero is refused; explicit `instructions` are applied to the filtered output irreps, so their indices shift.
* C92-C99 `LinearSHTP(mix=True)` raises AttributeError for an output that no path reaches; a zero direction is treated as the z axis; the antisymmetric copies of `shtp` have the opposite sign to those of `LinearSHTP`.
* C95-C97 from 9 indices on the order of a frozenset is not sorted; the formula "i=-i" returns the identity basis; `keep_ir` that matches nothing raises on the optimised path.
* C98 `SymmetricTensorProduct((1,2,3), keep_irrep_out={"0e"})` on "1o+3o" fails at order 3.
* C100 an `irrep_normalization` other than component/norm changes the scale of the attention when V has one irrep per head.
* C101 `zoom` "nearest" is not mirror symmetric; another interpolation raises UnboundLocalError.
* C102 the modes `uvu<v` and `u<vw` of `right` raise NameError or reuse a stale value.
* C103 outputs reachable only through the self-connection are zero when `irreps_sh` lacks 0e.
* C104 the Equinox Linear refuses an array with a None chunk; `channel_out` does not mix input channels.
* C111 `x == number` accepts odd scalars and keeps their label.
* C112, C122 `axis_to_irreps` and `axis_to_mul` with another axis than -2 reshape to the wrong leading shape without an error; `mul_to_axis(axis=-1)` is not refused.
* C113, C114 powers with a cached None chunk; `getattr(irrep, "")` raises ValueError.
* C116 the docstring bounds the denominator of sqrt(p)/q, the code the one under the root.
* C117 `find_peaks` raises ValueError when one grid has no inner maximum. C118 `pad_to_plot` divides 0 by 0 for the signal zero.
* C119 `from_s2grid(use_s2fft=True)` ignores the requested irreps and parities; `to_s2grid(use_s2fft=True)` silently misreads coefficients with missing degrees.
* C125 an array without axes is accepted as the array of any IrrepsArray (`tree_map(jnp.sum, x)`).
* C126 with `None` in the index the axes are miscounted: `x[None, 0]` is refused, `x[None, 0:1]` cuts the irreps axis, `x[None, :, 0]` can return mislabelled data.
* C127 `signal[:, 0]` of a batch of signals is accepted as a signal on a grid made of the batch axis.
