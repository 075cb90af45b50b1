{"id": "C01", "title": "Permutation numbering is a bijection", "statement": "For every n, from_int(., n) maps {0..n!-1} one-to-one onto the permutations of {0..n-1}, and to_int is its inverse in both directions; consequently group(n) is exactly the set of all n! permutations and rand(n) returns every one of them for exactly one of the n! equally likely draws of randint.", "quantifier": "every n, every integer 0 <= i < n!, every permutation tuple of length n", "why_tests_cant": "n! grows beyond enumeration; a test samples a few n.", "anchors": ["lie_nn/_src/discrete_groups/perm.py: from_int, to_int, group, rand, is_perm"]}
{"id": "C02", "title": "compose / inverse / identity obey the group laws", "statement": "On permutation tuples of one length: compose(p1,p2) is again a permutation and sends i to p1[p2[i]]; compose is associative, identity(n) is neutral on both sides, inverse(p) is a two-sided inverse; compose raises AssertionError exactly when an argument is not a permutation or the lengths differ.", "quantifier": "every length n and all permutation tuples of that length; for rejection, every pair of integer tuples", "why_tests_cant": "unbounded n; all pairs/triples.", "anchors": ["lie_nn/_src/discrete_groups/perm.py: compose, inverse, identity, is_perm"]}
{"id": "C03", "title": "germinate terminates and returns the generated group", "statement": "For every set of permutation tuples of one length, germinate halts and returns the smallest set containing the input and closed under inverse and compose; if the input is non-empty the result contains the identity and is_group(result) is True.", "quantifier": "every n, every set of permutation tuples of length n; every number of loop iterations", "why_tests_cant": "termination and minimality over all subsets of S_n cannot be sampled.", "anchors": ["lie_nn/_src/discrete_groups/perm.py: germinate, is_group"]}
{"id": "C04", "title": "is_group decides exactly the subgroup property", "statement": "For every set g of permutation tuples of one length, is_group(g) is True iff g is non-empty, contains the identity and is closed under inverse and composition; the empty set gives False.", "quantifier": "every n and every set of permutation tuples of length n", "why_tests_cant": "quantifies over all subsets of S_n.", "anchors": ["lie_nn/_src/discrete_groups/perm.py: is_group"]}
{"id": "C05", "title": "The two sign functions agree and are multiplicative", "statement": "For every permutation tuple, perm.sign (parity of even cycles found by to_cycles) and util.permutation_sign (parity of inversions) return the same value in {1,-1}, equal to the mathematical signature; sign(compose(p,q)) = sign(p)*sign(q); to_cycles terminates.", "quantifier": "every permutation tuple of every length, and all pairs", "why_tests_cant": "two different algorithms must agree on all of S_n for every n.", "anchors": ["lie_nn/_src/discrete_groups/perm.py: sign, to_cycles", "lie_nn/_src/util.py: permutation_sign"]}
{"id": "C06", "title": "normalize_integer_ratio returns lowest terms with positive denominator", "statement": "For all integers n and d != 0, normalize_integer_ratio(n, d) = (n', d') with d' > 0, gcd(n', d') = 1 and n' * d = n * d'.", "quantifier": "all integers n, all non-zero integers d (mathematical integers; int64 wrap-around excluded)", "why_tests_cant": "infinite integer domain.", "anchors": ["lie_nn/_src/util.py: normalize_integer_ratio"]}
{"id": "C07", "title": "limit_denominator returns a best rational approximation", "statement": "For n/d in lowest terms (d > 0), max_denominator M >= 1 and d != M, limit_denominator(n, d, M) halts without dividing by zero inside its loop and returns p/q with 1 <= q <= M such that no fraction with denominator <= M is strictly closer to n/d. (At d == M the shipped code returns 0/1: the claim fails there.)", "quantifier": "all coprime n, d with d > 0, all M >= 1, every number of continued-fraction steps", "why_tests_cant": "optimality against all fractions and termination for all inputs; the test draws d < 1e6 with M = 1e6, so it never reaches the loop.", "anchors": ["lie_nn/_src/util.py: limit_denominator"]}
{"id": "C08", "title": "limit_denominator on an array is the element-wise scalar function", "statement": "Calling limit_denominator on arrays of any length gives, at each position, exactly what a call on that single element gives: elements that have finished are not disturbed while others keep iterating.", "quantifier": "all arrays (lists) of coprime pairs of any length, all M >= 1", "why_tests_cant": "interaction between elements over all array contents and iteration counts.", "anchors": ["lie_nn/_src/util.py: limit_denominator (np.where / np.all(stop) loop)"]}
{"id": "C09", "title": "as_approx_integer_ratio is accurate, normalised and guarded", "statement": "In exact real arithmetic: for every x with |x| <= 2^51 the result (n, d) has d > 0, gcd(n,d) = 1, sign(n) in {0, sign(x)}, and |n/d - x| is at most 2^-51 (for |x| <= 1), resp. relative error bounded for |x| > 1; x = 0 gives (0, 1); for x > 2^51 the function raises AssertionError instead of returning a zero denominator.", "quantifier": "all real x", "why_tests_cant": "continuum of inputs; the test samples a grid.", "anchors": ["lie_nn/_src/util.py: as_approx_integer_ratio, _as_approx_integer_ratio"]}
{"id": "C10", "title": "round_to_sqrt_rational recovers square roots of small rationals", "statement": "In exact real arithmetic, for x = ±sqrt(p/q) with 0 <= p <= q and 1 <= q <= 4096^2, round_to_sqrt_rational(x) returns x itself (so rounding is a no-op on already-rational-square values).", "quantifier": "all integers p, q in that (16-million-denominator) range, both signs", "why_tests_cant": "about 10^14 fractions.", "anchors": ["lie_nn/_src/util.py: round_to_sqrt_rational, _round_to_sqrt_rational"]}
{"id": "C11", "title": "Matrix direct_sum is block diagonal and multiplicative", "statement": "direct_sum(A, B, ...) places the arguments as diagonal blocks in order and zeros elsewhere; direct_sum(A,B) @ direct_sum(C,D) = direct_sum(A@C, B@D); it is associative, sends identities to the identity, and agrees with block_diagonal.", "quantifier": "all matrices of all compatible sizes, all numbers of arguments", "why_tests_cant": "unbounded sizes and arity.", "anchors": ["lie_nn/_src/util.py: direct_sum, block_diagonal"]}
{"id": "C12", "title": "gram_schmidt returns an orthonormal family with the span of its input up to epsilon", "statement": "For every complex matrix A and epsilon >= 0 (round_fn = identity) the rows returned are orthonormal, lie in the row span of A, there are at most min(rows, cols) of them, and every row of A is within epsilon of their span; with epsilon = 0 the spans are equal.", "quantifier": "all matrices of all shapes, all epsilon >= 0", "why_tests_cant": "continuum of matrices.", "anchors": ["lie_nn/_src/util.py: gram_schmidt"]}
{"id": "C13", "title": "extend_basis completes to a full orthonormal basis", "statement": "For every A with n columns and epsilon with n*epsilon^2 < 1, extend_basis(A) returns exactly n orthonormal rows, the first of which are gram_schmidt(A); returns='E' gives the added rows, and raises when nothing has to be added.", "quantifier": "all matrices of all shapes, all such epsilon", "why_tests_cant": "continuum of matrices, all n.", "anchors": ["lie_nn/_src/util.py: extend_basis"]}
{"id": "C14", "title": "nullspace returns an orthonormal basis of the kernel", "statement": "Whatever orthonormal eigenbasis eigh returns, if no eigenvalue of A^H A lies in (0, epsilon) and n*epsilon^2 < 1, the rows of nullspace(A) are orthonormal and span exactly {x : A x = 0}; without the gap hypothesis every returned row r still satisfies |A r|^2 < epsilon.", "quantifier": "all complex matrices, all epsilon, every valid eigendecomposition", "why_tests_cant": "continuum, and eigh's basis choice is not deterministic across platforms.", "anchors": ["lie_nn/_src/util.py: nullspace"]}
{"id": "C15", "title": "sequential_nullspace equals the nullspace of all constraints consumed", "statement": "When sequential_nullspace returns, its rows are an orthonormal basis of the common kernel of the matrices consumed so far, whose dimension is <= the requested one and it consumed no more matrices than needed; it raises ValueError exactly when the common kernel of all supplied matrices (and of every prefix) is still larger than requested.", "quantifier": "all finite lists of matrices, all requested dimensions", "why_tests_cant": "all lists and prefixes.", "anchors": ["lie_nn/_src/util.py: sequential_nullspace"]}
{"id": "C16", "title": "infer_change_of_basis returns exactly the intertwiners", "statement": "With an exact nullspace, infer_change_of_basis(X1, X2) returns a Frobenius-orthonormal family S_1..S_m such that a matrix S satisfies X1[a] S = S X2[a] for all a iff S is a combination of the S_i; m is the dimension of the intertwiner space. The Rep-level function gives Q rho1 = rho2 Q for every continuous and discrete generator.", "quantifier": "all pairs of generator stacks of all sizes", "why_tests_cant": "continuum; needs completeness, not only that returned matrices work.", "anchors": ["lie_nn/_src/util.py: infer_change_of_basis", "lie_nn/_src/infer_change_of_basis.py: infer_change_of_basis"]}
{"id": "C17", "title": "is_irreducible is correct for unitary representations", "statement": "For a family of anti-hermitian/unitary generators, is_irreducible returns True iff there is no proper non-zero invariant subspace; for arbitrary (non-unitary) generators irreducible implies True, but the converse fails.", "quantifier": "all unitary generator families of every dimension >= 1", "why_tests_cant": "quantifies over all subspaces and all representations.", "anchors": ["lie_nn/_src/is_irreducible.py: is_irreducible", "lie_nn/_src/util.py: is_irreducible"]}
{"id": "C18", "title": "infer_algebra_from_generators is sound and complete", "statement": "If it returns A then [X_i,X_j] = A_ijk X_k (up to the stated tolerance); in exact arithmetic with linearly independent real generators it returns a value iff the span is closed under commutators, and then that value is the unique structure constant tensor; GenericRep.from_generators returns None exactly when it does.", "quantifier": "all stacks of generators of all sizes", "why_tests_cant": "continuum of inputs.", "anchors": ["lie_nn/_src/util.py: infer_algebra_from_generators, check_algebra_vs_generators", "lie_nn/_src/rep.py: GenericRep.from_generators"]}
{"id": "C19", "title": "unique_with_tol produces a stable partition", "statement": "When unique_with_tol returns, every element has exactly one cluster index, cluster indices are 0..k-1 in order of first appearance, each element is within tol of the first element of its cluster, elements within tol of a cluster's first element are in that cluster, centers are the cluster means; otherwise it raises ValueError.", "quantifier": "all finite lists of points, all tol > 0", "why_tests_cant": "all point sets and orderings; greedy order dependence.", "anchors": ["lie_nn/_src/util.py: unique_with_tol, eigenspaces"]}
{"id": "C20", "title": "decompose_rep_into_irreps returns sub-representations", "statement": "Whatever eigendecomposition eig returns, each returned block is the compression of the generators to an invariant subspace, hence satisfies the same algebra, provided the eigenspaces are closed under complex conjugation (e.g. real case); without that proviso the shipped B X B^H restricts to the conjugate subspace and the claim fails.", "quantifier": "all generator stacks, all eigendecompositions of commuting matrices", "why_tests_cant": "random weights and eig's basis choice; continuum.", "anchors": ["lie_nn/_src/util.py: decompose_rep_into_irreps, eigenspaces"]}
{"id": "C21", "title": "regular_representation is a faithful permutation representation", "statement": "For the multiplication table of any finite group, regular_representation gives D with D(g)D(h) = D(gh), D(e) = I, each D(g) a permutation matrix, and D injective; D(g)e_h = e_{gh}.", "quantifier": "all finite group tables of all orders", "why_tests_cant": "all groups.", "anchors": ["lie_nn/_src/util.py: regular_representation"]}
{"id": "C22", "title": "change_basis preserves the Lie algebra and the group action", "statement": "For invertible Q (more generally any Q whose pinv is a left inverse), change_basis(rep, Q) satisfies the same commutation relations with the same A, exp_map of the result is Q exp_map Q^-1 for all parameters, changing basis twice composes, and changing by Q then Q^-1 gives the generators back.", "quantifier": "all representations of all sizes, all such Q, all group parameters", "why_tests_cant": "continuum of Q, X and parameters.", "anchors": ["lie_nn/_src/change_basis.py: change_basis", "lie_nn/_src/rep.py: Rep.exp_map"]}
{"id": "C23", "title": "change_algebra preserves the commutation relations", "statement": "For Q whose pinv is a left inverse, change_algebra(rep, Q) has generators X'_i = Q_ia X_a which satisfy [X'_i,X'_j] = A'_ijk X'_k with the returned A'; discrete generators are untouched.", "quantifier": "all representations, all such Q", "why_tests_cant": "continuum.", "anchors": ["lie_nn/_src/change_algebra.py: change_algebra"]}
{"id": "C24", "title": "conjugate is a representation of the same algebra when A is real", "statement": "conjugate(rep) satisfies the relations with A whenever rep does and A is real; exp_map of it is the entrywise conjugate for real parameters; conjugating twice is the identity.", "quantifier": "all representations with real structure constants, all real parameters", "why_tests_cant": "continuum.", "anchors": ["lie_nn/_src/conjugate.py: conjugate"]}
{"id": "C25", "title": "direct_sum of representations is a representation", "statement": "direct_sum(rep1, rep2) satisfies the common algebra, has dimension dim1+dim2, exp_map is the block-diagonal of the exp_maps; it raises AssertionError when the algebras or the number of discrete generators differ.", "quantifier": "all pairs of representations, all parameters", "why_tests_cant": "continuum.", "anchors": ["lie_nn/_src/direct_sum.py: direct_sum"]}
{"id": "C26", "title": "tensor_product of representations is a representation", "statement": "tensor_product(rep1, rep2) (generic) satisfies the common algebra, has dimension dim1*dim2, and exp_map(tensor_product) = kron(exp_map(rep1), exp_map(rep2)) for all continuous and discrete parameters; raises AssertionError on mismatch.", "quantifier": "all pairs of representations, all group parameters (including negative discrete powers)", "why_tests_cant": "continuum of group elements.", "anchors": ["lie_nn/_src/tensor_product.py: tensor_product(Rep, Rep)"]}
{"id": "C27", "title": "tensor_power is the n-fold tensor product", "statement": "For every n >= 0, tensor_power(rep, n) of a GenericRep halts, has dimension dim^n and group action equal to the n-fold Kronecker power; n = 0 gives the trivial representation. (For negative n the loop never ends.)", "quantifier": "all representations, all n >= 0, all parameters", "why_tests_cant": "unbounded n.", "anchors": ["lie_nn/_src/tensor_product.py: tensor_power"]}
{"id": "C28", "title": "group_product represents the product group", "statement": "group_product(rep1, rep2) has block algebra A1 (+) A2, generators satisfying it (the two factors commute), discrete generators of one factor commute with everything of the other, and exp_map on concatenated parameters is kron of the two exp_maps; the tabulated version (TabulatedIrrepProduct) has the same A, X, H, dim.", "quantifier": "all pairs of representations of possibly different groups, all parameters", "why_tests_cant": "continuum.", "anchors": ["lie_nn/_src/group_product.py: group_product, TabulatedIrrepProduct"]}
{"id": "C29", "title": "Unitarity is preserved by the constructions", "statement": "In exact arithmetic is_unitary holds for direct_sum, tensor_product, tensor_power, group_product, conjugate and change_basis by a unitary Q whenever it holds for the inputs; and is_unitary implies that exp_map at real parameters is a unitary matrix.", "quantifier": "all unitary representations, all real parameters", "why_tests_cant": "continuum.", "anchors": ["lie_nn/_src/properties.py: is_unitary", "lie_nn/_src/rep.py: Rep.exp_map"]}
{"id": "C30", "title": "create_trivial is trivial and a tensor unit", "statement": "GenericRep.create_trivial() has the same algebra, passes is_trivial, acts as the 1x1 identity for all parameters, and tensoring with it on either side leaves the generators unchanged.", "quantifier": "all representations, all parameters", "why_tests_cant": "continuum.", "anchors": ["lie_nn/_src/rep.py: GenericRep.create_trivial, Rep.is_trivial"]}
{"id": "C31", "title": "Generic clebsch_gordan returns all and only equivariant maps", "statement": "With an exact nullspace, every solution C[z] of clebsch_gordan(rep1, rep2, rep3) intertwines rep1 x rep2 -> rep3 for all continuous and discrete generators, i.e. passes the identity tested by check_representation_triplet, and every such equivariant tensor is a combination of the returned ones.", "quantifier": "all triples of representations", "why_tests_cant": "completeness over a continuum.", "anchors": ["lie_nn/_src/clebsch_gordan.py: clebsch_gordan", "lie_nn/_src/rep.py: check_representation_triplet"]}
{"id": "C32", "title": "is_real / make_explicitly_real", "statement": "make_explicitly_real succeeds only with real generators equivalent to the input ones; is_real(rep) is True iff there is a non-zero intertwiner to the conjugate, which is necessary for a real form but not sufficient (spin 1/2 of SU2 gives True although it has no real form).", "quantifier": "all representations", "why_tests_cant": "continuum; includes the negative claim that no real basis exists.", "anchors": ["lie_nn/_src/real.py: is_real, make_explicitly_real"]}
{"id": "C33", "title": "MulIrrep and ReducedRep generators", "statement": "A MulIrrep(m, rep) acts as m diagonal copies and a ReducedRep as Q (sum of its MulIrreps) Q^-1: dim is sum of mul*dim, the generators satisfy the algebra if each irrep does and Q is invertible; mul = 0, an empty list, or lie_dim = 0 in ReducedRep.X raise instead of returning arrays.", "quantifier": "all lists of multiplicities and irreps, all invertible Q", "why_tests_cant": "all lists, continuum of Q.", "anchors": ["lie_nn/_src/reduced_rep.py: MulIrrep, ReducedRep"]}
{"id": "C34", "title": "Reduced tensor products equal the generic tensor product", "statement": "For tabulated irreps whose Clebsch-Gordan blocks are equivariant and jointly invertible, tensor_product on TabulatedIrrep, MulIrrep and ReducedRep arguments returns a ReducedRep whose generators are exactly X1 (x) 1 + 1 (x) X2 (and H1 (x) H2) of the arguments, as long as the tolerance tests on the final Q fire only on exact equalities. Without that condition the stored Q differs from an exact one by at most 1e-8 per entry, or, when it is dropped, the exact one is within 1e-5 + 2e-8 of the identity on the diagonal and 2e-8 off it.", "quantifier": "all irreps, all multiplicities, all lists of blocks, all change-of-basis matrices Q1, Q2", "why_tests_cant": "the test tries mul in {2,3} on four irreps.", "anchors": ["lie_nn/_src/tensor_product.py: tensor_product overloads"]}
{"id": "C35", "title": "tensor_product(ReducedRep, MulIrrep) has its factors swapped", "statement": "The argument order of the mixed overloads: tensor_product(a, b) acts as rho_a (x) rho_b. Holds for (MulIrrep, ReducedRep) and (TabulatedIrrep, ReducedRep); fails for (ReducedRep, MulIrrep) and (ReducedRep, TabulatedIrrep), which return rho_b (x) rho_a.", "quantifier": "all ReducedRep / MulIrrep pairs", "why_tests_cant": "no test covers the mixed overloads' generators.", "anchors": ["lie_nn/_src/tensor_product.py: lines 100-127"]}
{"id": "C36", "title": "SU2 irreps satisfy the su(2) algebra and are unitary for every spin", "statement": "For every j >= 0 the three generators of SU2(j) are (j+1)x(j+1), anti-hermitian, traceless, and satisfy [X_i,X_j] = A_ijk X_k with SU2.algebra(); the Casimir is -(j/2)(j/2+1) I; the representation is irreducible (is_irreducible's commutant is one-dimensional).", "quantifier": "all natural numbers j", "why_tests_cant": "tests check j <= 6.", "anchors": ["lie_nn/_src/irreps/su2.py: SU2.continuous_generators, SU2.algebra"]}
{"id": "C37", "title": "SO3 irreps are real, orthogonal representations for every l", "statement": "For every l >= 0 change_basis_real_to_complex(l) is unitary, the transformed generators have zero imaginary part (the assertion never fires), are antisymmetric and satisfy the SU2 algebra.", "quantifier": "all natural numbers l", "why_tests_cant": "tests check l <= 6.", "anchors": ["lie_nn/_src/irreps/so3_real.py: SO3, change_basis_real_to_complex"]}
{"id": "C38", "title": "O3 and Z2 irreps represent their groups", "statement": "O3(l,p): the parity generator p*I squares to the identity, commutes with all rotations, so exp_map is a group action of SO3 x Z2; selection rule multiplies parities; Z2 likewise.", "quantifier": "all l >= 0, p in {1,-1}", "why_tests_cant": "all l.", "anchors": ["lie_nn/_src/irreps/o3_real.py: O3", "lie_nn/_src/irreps/z2.py: Z2"]}
{"id": "C39", "title": "SL2C and SO13 algebras", "statement": "SL2C.algebra(), SO13.algebra() and SU2.algebra() are antisymmetric and satisfy the Jacobi identity; for every (l,k) the SL2C generators before the final orthogonal change of basis, and after it for any orthogonal C, satisfy SL2C.algebra(); multiplying the last three by i gives SO13.algebra(); four_vector() satisfies SO13.algebra() and preserves the Minkowski form.", "quantifier": "all l, k >= 0", "why_tests_cant": "tests check the first 7 irreps.", "anchors": ["lie_nn/_src/irreps/sl2c.py: SL2C", "lie_nn/_src/irreps/so13.py: SO13"]}
{"id": "C40", "title": "Iterators start at the trivial irrep, are strictly sorted and exhaustive", "statement": "For each tabulated class (Z2, SU2, SO3, O3, SU2Real, SL2C, SO13, SU2_, SU3, SU4): iterator() first yields the trivial irrep, consecutive elements are strictly increasing for __lt__, __lt__ is a strict total order on the class's irreps, and every valid irrep is eventually yielded, exactly once.", "quantifier": "the whole infinite enumeration and all irreps", "why_tests_cant": "infinite generators; tests look at 10 elements.", "anchors": ["lie_nn/_src/irreps/*.py: iterator, __lt__", "lie_nn/_src/irrep.py: TabulatedIrrep.iterator contract"]}
{"id": "C41", "title": "Selection rules conserve dimension", "statement": "For SU2, SO3, O3, Z2, SL2C, SO13 and products: the irreps listed by rep1*rep2 have no duplicates, their dimensions sum to dim(rep1)*dim(rep2), rep1*rep2 and rep2*rep1 list the same irreps, and multiplying by the trivial irrep returns [rep].", "quantifier": "all pairs of irreps", "why_tests_cant": "all labels.", "anchors": ["lie_nn/_src/irreps/su2.py: SU2.__mul__", "lie_nn/_src/irreps/so3_real.py", "lie_nn/_src/irreps/o3_real.py", "lie_nn/_src/irreps/sl2c.py", "lie_nn/_src/irreps/so13.py", "lie_nn/_src/group_product.py: TabulatedIrrepProduct.__mul__"]}
{"id": "C42", "title": "SU2 Clebsch-Gordan coefficients are equivariant for all spins", "statement": "SU2.clebsch_gordan(j1,j2,j3) has shape (1 or 0, j1+1, j2+1, j3+1) according to the selection rule, only couples m3 = m1+m2, and intertwines the generators of SU2(j1), SU2(j2) with those of SU2(j3).", "quantifier": "all j1, j2, j3", "why_tests_cant": "tests check j <= 3.", "anchors": ["lie_nn/_src/irreps/su2.py: clebsch_gordanSU2mat, clebsch_gordanSU2coeffs"]}
{"id": "C43", "title": "SUN.dim is an integer equal to the number of Gelfand-Tsetlin patterns", "statement": "For every valid S (non-increasing, non-empty), dim(S) never trips its denominator assertion and equals len(list(S_to_Ms(S))).", "quantifier": "all N >= 1 and all valid S", "why_tests_cant": "the source asserts it for one S.", "anchors": ["lie_nn/_src/irreps/sun.py: dim, S_to_Ms, S_to_Ss"]}
{"id": "C44", "title": "Pattern index is a bijection consistent with enumeration order", "statement": "For every valid S: index_to_M(S, i) is the i-th element of S_to_Ms(S) for 0 <= i < dim(S); M_to_index(index_to_M(S,i)) = i; and index_to_M(S, M_to_index(M)) = M for every pattern M with first row S.", "quantifier": "all valid S, all indices, all patterns", "why_tests_cant": "tests check 9 values of S.", "anchors": ["lie_nn/_src/irreps/sun.py: index_to_M, M_to_index"]}
{"id": "C45", "title": "S_to_Ms enumerates exactly the interlacing patterns without repetition", "statement": "For every valid S the patterns produced are distinct, sorted, satisfy the interlacing inequalities, and every triangular array with first row S satisfying them is produced; is_valid_M accepts exactly the non-negative interlacing arrays.", "quantifier": "all valid S, all triangular arrays", "why_tests_cant": "unbounded.", "anchors": ["lie_nn/_src/irreps/sun.py: S_to_Ss, S_to_Ms, triangular_triplet, is_valid_M"]}
{"id": "C46", "title": "SU(N) ladder operators are well defined and mutually adjoint", "statement": "For every valid pattern, compute_coeff_upper / compute_coeff_lower have non-zero denominators and pass their non-negativity assertions whenever the shifted pattern is valid, and <N|J(l)-|M> = <M|J(l)+|N> for all patterns; so the lowering matrices are the transposes of the raising ones.", "quantifier": "all N, all S, all l, all pairs of patterns", "why_tests_cant": "tests check 9 values of S.", "anchors": ["lie_nn/_src/irreps/sun.py: compute_coeff_upper, compute_coeff_lower, M_add_at_lk, upper_ladder, lower_ladder"]}
{"id": "C47", "title": "Ladder operators shift the z-weight", "statement": "[Jz_l, Jp_l] = Jp_l and [Jz_l, Jm_l] = -Jm_l for every S and l; p-weights sum to sum(S).", "quantifier": "all N, S, l", "why_tests_cant": "tests check 9 values of S.", "anchors": ["lie_nn/_src/irreps/sun.py: Jz_matrices, M_to_z_weight, M_to_p_weight, upper_ladder_matrices, lower_ladder_matrices"]}
{"id": "C48", "title": "mul_rep yields well-formed SU(N) labels", "statement": "Every tuple yielded by mul_rep(S1, S2) for valid S1,S2 of length n has length n, is non-increasing and ends in 0, so SUN's constructor accepts every element of rep1*rep2, which are sorted and duplicate-free.", "quantifier": "all n and all valid S1, S2 of length n", "why_tests_cant": "unbounded labels.", "anchors": ["lie_nn/_src/irreps/sun.py: mul_rep, SUN.__mul__, SUN.__post_init__"]}
{"id": "C49", "title": "SU(N) Clebsch-Gordan arrays: number, first array, further arrays", "statement": "clebsch_gordan_matrix(S1,S2,S3) should return a basis of the equivariant arrays. For all accepted labels it ends after at most dim(S3)-1 rounds without error, and the number of arrays is the dimension of the space of equivariant arrays. The first array is equivariant if and only if S3 is the label of a symmetric power, of the dual of one, or of an exterior power (S3[1]=0, S3[n-2]=S3[0] or S3[0]<=1): construct_lower_cg drops the components of other states of the same weight, so for example the octet of SU(3) is wrong. M_list is shared by the solutions, so every array after the first is zero outside the highest-weight column and is equivariant only if dim(S3)=1.", "quantifier": "all N >= 2, all accepted S1, S2, S3 of length N", "why_tests_cant": "unbounded labels; tests skip the consistency check for SU3 and SU4.", "anchors": ["lie_nn/_src/irreps/sun.py: construct_highest_weight_constraint, clebsch_gordan_eldest, search_state, construct_lower_cg, clebsch_gordan_matrix, SUN.clebsch_gordan"]}
{"id": "C50", "title": "germinate_perm_repr returns the signed group generated by the formula", "statement": "For every formula accepted by germinate_perm_repr the loop halts and returns the smallest set of (sign, permutation) pairs containing the formula's terms and closed under composition and inverse; malformed formulas raise RuntimeError.", "quantifier": "all formulas of all lengths", "why_tests_cant": "all formulas.", "anchors": ["lie_nn/_src/reduced_tensor_product.py: germinate_perm_repr"]}
{"id": "C51", "title": "The permutation basis spans exactly the tensors with the required symmetry", "statement": "For every signed permutation group and dims compatible with it, the rows of reduce_permutation_matrix(reduce_permutation_base(...)) are orthonormal (its internal assertion never fails) and span exactly {T : T[x∘p] = s T[x] for all (s,p)}; len(base) is the number of degrees of freedom. The sign of each row is chosen so that its entries have a nonnegative sum.", "quantifier": "all signed permutation groups, all dims", "why_tests_cant": "exponentially many groups and sizes.", "anchors": ["lie_nn/_src/reduced_tensor_product.py: reduce_permutation_base, reduce_permutation_matrix, full_base_fn"]}
{"id": "C52", "title": "subrepr_permutation is the restriction to a sub-index set", "statement": "For a signed permutation group and an index subset, subrepr_permutation returns a signed permutation group on |subset| indices: exactly the elements fixing all other indices, relabelled by rank.", "quantifier": "all groups, all subsets", "why_tests_cant": "all subsets of all groups.", "anchors": ["lie_nn/_src/reduced_tensor_product.py: subrepr_permutation"]}
{"id": "C53", "title": "IrrepsArray.sorted / simplify / reshape preserve the data", "statement": "sorted() permutes the blocks stably into non-decreasing (irrep, mul) order; simplify() merges exactly the runs of equal adjacent irreps, keeps the total dimension and the concatenated array unchanged, leaves no two adjacent equal irreps and is idempotent; reshape() to a leading shape of the same size keeps the irreps and, in row-major order, the entries, and raises ValueError for another size. An explicit last size must be the sum of the multiplicities: the length of the last axis of array is rejected whenever it differs from that sum (a defect).", "quantifier": "all lists of blocks", "why_tests_cant": "all lists.", "anchors": ["lie_nn/_src/reduced_tensor_product.py: IrrepsArray.sorted, IrrepsArray.simplify, IrrepsArray.reshape, IrrepsArray.array"]}
{"id": "C54", "title": "reduce_basis_product preserves equivariance", "statement": "If basis1 and basis2 are equivariant families of multilinear forms and the Clebsch-Gordan blocks are equivariant, then every block produced by reduce_basis_product is equivariant for the tensor product action.", "quantifier": "all equivariant bases, all irreps", "why_tests_cant": "continuum.", "anchors": ["lie_nn/_src/reduced_tensor_product.py: reduce_basis_product"]}
{"id": "C55", "title": "jax matrix_power computes F^n", "statement": "jax_utils.matrix_power(F, n) = F^n for every 0 <= n < 2^32 whatever the uninitialised placeholder contains; jax_utils.exp_map and Rep.exp_map agree for such exponents.", "quantifier": "all square matrices, all n < 2^32, all placeholder contents", "why_tests_cant": "2^32 exponents, undefined memory.", "anchors": ["lie_nn/_src/jax_utils.py: matrix_power, exp_map"]}
{"id": "C56", "title": "Root data of the classical algebras", "statement": "For every rank: cartan_matrix of the simple roots of RootsWeightsA/B/C/D is the Cartan matrix of that type; the fundamental weights are dual to the simple coroots (A, B, C) and sum to the Weyl vector; for D with rank >= 3 the shipped fundamental-weight list has the wrong length and its last Dynkin label picks the wrong weight.", "quantifier": "all ranks", "why_tests_cant": "unbounded rank.", "anchors": ["lie_nn/_src/lie_algebra_utils.py: RootsWeightsA, RootsWeightsB, RootsWeightsC, RootsWeightsD, cartan_matrix, structure_algebra"]}
{"id": "C57", "title": "Symmetric-group representations", "statement": "For every n, _permutation_matrix is a homomorphism from perm.compose, Sn_natural's generators are the permutation matrices of (0 1) and the n-cycle, and the standard representation embeds in the natural one by f_i = e_i - e_0 (intertwining both generators), so Sn_standard satisfies every relation Sn_natural does.", "quantifier": "all n >= 2, all permutations", "why_tests_cant": "unbounded n.", "anchors": ["lie_nn/_src/finite.py: Sn_natural, Sn_standard, Sn_trivial, _permutation_matrix, _transposition_matrix"]}
{"id": "C58", "title": "Textual irreps parse back", "statement": "Printing a list of (multiplicity, irrep) as 'mxIR+mxIR+...' and reading it with ReducedRep.from_string returns the same list, for SU2, SO3, O3, Z2, SL2C and SUN labels.", "quantifier": "all lists of multiplicities and labels", "why_tests_cant": "all strings in the grammar.", "anchors": ["lie_nn/_src/reduced_rep.py: ReducedRep.from_string, MulIrrep.from_string", "lie_nn/_src/irreps/*.py: from_string"]}
{"id": "C59", "title": "reduce returns an equivalent reduced form or fails", "statement": "When reduce(rep) on a generic representation returns, the ReducedRep acts as Q (sum of blocks) Q^-1 with every column block of Q an intertwiner; the blocks are those of decompose_rep_into_irreps in order of dimension, with multiplicity one; it raises ValueError when some irreducible block occurs with multiplicity > 1 (the reshape needs exactly one solution).", "quantifier": "all representations", "why_tests_cant": "continuum, random weights inside.", "anchors": ["lie_nn/_src/reduce.py: reduce"]}
{"id": "C60", "title": "limit_denominator is immune to int64 wrap-around", "statement": "For coprime n/d with |n|+1 < 2^63, 0 < d < 2^63 and 1 <= max_denominator < 2^63, running limit_denominator in wrapping 64-bit arithmetic gives exactly the result of unbounded integers, although intermediate products (silenced by np.errstate(over='ignore')) do overflow.", "quantifier": "all int64 triples (n, d, max_denominator) with gcd(n, d) = 1 in that range", "why_tests_cant": "2^190 inputs; the overflowing intermediates only show for large denominators.", "anchors": ["lie_nn/_src/util.py: limit_denominator"]}
{"id": "C61", "title": "SU2 Clebsch-Gordan coefficients are orthonormal and complete", "statement": "For all spins j1, j2 the arrays returned for the irreps of the selection rule form an orthogonal change of basis of the product space: sum over (m1,m2) of C[m1,m2,m3] C'[m1,m2,m3'] is 1 for equal outputs and 0 otherwise, and the sum over outputs of C[m1,m2,m3] C[m1',m2',m3] is 1 for equal inputs and 0 otherwise.", "quantifier": "all j1, j2, all outputs", "why_tests_cant": "an infinite family of identities between square roots of rationals; tests check small spins within tolerance.", "anchors": ["lie_nn/_src/irreps/su2.py: SU2.clebsch_gordan, SU2.__mul__"]}
{"id": "C62", "title": "tensor_product of SU2 irreps acts as the tensor product", "statement": "For all labels, tensor_product(SU2(i), SU2(j)) returns a ReducedRep whose blocks are the irreps of the selection rule with multiplicity one and whose generators are exactly X_i x 1 + 1 x X_j, with no hypothesis left on the Clebsch-Gordan coefficients; the same for MulIrrep arguments of non-zero multiplicity.", "quantifier": "all labels and multiplicities", "why_tests_cant": "all labels; combines the Racah formula with the block bookkeeping of tensor_product.", "anchors": ["lie_nn/_src/tensor_product.py: tensor_product", "lie_nn/_src/irreps/su2.py: SU2"]}
{"id": "C63", "title": "SO3, O3 and Z2 Clebsch-Gordan coefficients", "statement": "For all labels, SO3.clebsch_gordan returns a real array, one per irrep of the selection rule, which intertwines X1 x 1 + 1 x X2 with X3 and is orthonormal; O3's is equivariant under the rotations and the inversion; hence tensor_product of SO3 or O3 irreps acts exactly as the tensor product. For Z2 the block matrices and the inversion agree, but reading continuous_generators of the product raises because np.stack gets an empty list.", "quantifier": "all labels, both parities", "why_tests_cant": "an infinite family of labels; the complex-to-real change of basis is only tested within tolerance for small l.", "anchors": ["lie_nn/_src/irreps/so3_real.py: SO3.clebsch_gordan, change_basis_real_to_complex", "lie_nn/_src/irreps/o3_real.py: O3.clebsch_gordan", "lie_nn/_src/irreps/z2.py: Z2.clebsch_gordan"]}
{"id": "C64", "title": "SL2C Clebsch-Gordan coefficients, irreducibility and tensor products", "statement": "For all labels, SL2C.clebsch_gordan never raises and returns one real array when both labels satisfy the triangle rule and none otherwise; the array intertwines the generators and the arrays are orthonormal; hence tensor_product of SL2C irreps acts exactly as the tensor product; every SL2C irrep is irreducible and two different labels are not equivalent.", "quantifier": "all labels (l, k)", "why_tests_cant": "an infinite family of labels; the coefficients are a contraction of five arrays of square roots, tested within tolerance for small labels.", "anchors": ["lie_nn/_src/irreps/sl2c.py: SL2C.clebsch_gordan, clebsch_gordan_sl2mat", "lie_nn/_src/tensor_product.py: tensor_product"]}
{"id": "C65", "title": "Products of irreps have equivariant, complete Clebsch-Gordan coefficients", "statement": "If the Clebsch-Gordan coefficients of the two factor classes are equivariant (resp. jointly invertible) then so are those of TabulatedIrrepProduct.clebsch_gordan; hence tensor_product of two product irreps acts exactly as the tensor product of the representations; a product of irreps with scalar commutant has scalar commutant.", "quantifier": "all pairs of tables of irreps and all their labels", "why_tests_cant": "all classes and labels; the index order of the einsum and reshape only matters when all dimensions differ.", "anchors": ["lie_nn/_src/group_product.py: TabulatedIrrepProduct"]}
{"id": "C66", "title": "SU2Real generators and selection rule", "statement": "For every half integer j, SU2Real(j).continuous_generators() never raises and gives real antisymmetric matrices of size dim satisfying the su(2) brackets (for half-odd j, the realification of SU2(2j)); __mul__ lists j3 exactly when the triangle rule holds. Unlike the classes of C41, the listed dimensions do not sum to the product when a spin is half-odd. The constructor accepts exactly the non-negative half integers; round in is_integer and is_half_integer goes to the nearest integer, ties to even.", "quantifier": "all half integers", "why_tests_cant": "infinitely many spins; the realification layout is only tested for small j.", "anchors": ["lie_nn/_src/irreps/su2_real.py: SU2Real", "lie_nn/_src/util.py: is_integer, is_half_integer"]}
{"id": "C67", "title": "Dimensions of SPN and SON labels", "statement": "For every tuple of at least two non-negative Dynkin labels, SPN.dim (and SON.dim for an odd number of labels) equals Weyl's dimension of that irrep of Sp(2r) / SO(2r+1); the product of fractions is an exact positive integer, so int() rounds nothing; in particular trivial 1, defining 2r / 2r+1, Sp adjoint r(2r+1), spinor 2^r. For an even number r >= 4 of labels SON.dim is the dimension of another irrep (the last label is added to the first).", "quantifier": "all ranks, all non-negative labels", "why_tests_cant": "unbounded ranks and labels; integrality is a theorem, not an observation.", "anchors": ["lie_nn/_src/irreps/spn.py: root_weights, weights, SPN.dim", "lie_nn/_src/irreps/son.py: root_weights, weights, SON.dim", "lie_nn/_src/lie_algebra_utils.py: weyl_dim"]}
{"id": "C71", "title": "kron of several arguments and commutator", "statement": "kron(A1, ..., Ak) has as entry the product of the entries at the mixed-radix digits of the row and column index, with the first argument most significant; it is associative, multiplicative on matching shapes, and identity on identities; with no argument it raises TypeError; commutator(A, B) = AB - BA.", "quantifier": "all lists of matrices of all shapes", "why_tests_cant": "unbounded number and shapes of arguments; the order of the digits only matters for unequal shapes.", "anchors": ["lie_nn/_src/util.py: kron, commutator"]}
{"id": "C69", "title": "SU(N) generators are a unitary representation of su(N)", "statement": "For every label accepted by SUN with at least two entries, continuous_generators() never raises and returns N^2 - 1 matrices of size dim which are the images of the standard basis of the traceless skew-Hermitian N x N matrices under a linear map preserving commutators and adjoints; the property algebra returns the (integer) structure constants of that basis; so [X_i, X_j] = sum_k A_ijk X_k and X_i^dagger = -X_i. The generators are linearly independent unless the label is all zeros, in which case dim = 1 and they are zero.", "quantifier": "all N >= 1 and all labels", "why_tests_cant": "unbounded N and labels; the entries are square roots of rationals and the relations are only tested within tolerance for small labels.", "anchors": ["lie_nn/_src/irreps/sun.py: E_basis, generators, algebra, SUN.continuous_generators, SUN.algebra"]}
{"id": "C72", "title": "SU(N) irreps are irreducible and pairwise inequivalent", "statement": "For every label accepted by SUN the matrices of continuous_generators() have no invariant subspace except 0 and the whole space, so only multiples of the identity commute with all of them; two different labels with the same number of entries have no intertwiner between them except zero.", "quantifier": "all N >= 1 and all labels, or pairs of labels", "why_tests_cant": "unbounded N and labels; statement about all subspaces and all matrices.", "anchors": ["lie_nn/_src/irreps/sun.py: upper_ladder, lower_ladder, generators, SUN.continuous_generators"]}
{"id": "C68", "title": "SON_adjoint generators", "statement": "SON_adjoint(n).continuous_generators(): n<3 fails the assertion, n=3 raises ValueError (np.stack of nothing). For every even n=2m>=4 the m+3m(m-1) matrices span exactly the matrices that preserve the split symmetric form on 2m coordinates, so they are closed under the commutator; they are linearly dependent for every n>=4. For every odd n>=5 the shipped matrices are not closed under the commutator (no structure constants exist), one of them is zero, and no bilinear form other than zero is preserved by all of them.", "quantifier": "all n", "why_tests_cant": "unbounded n; the class has no test.", "anchors": ["lie_nn/_src/irreps/son.py: E, SON_adjoint"]}
{"id": "C73", "title": "basis_intersection", "statement": "For real bases basis1 (n1 rows) and basis2 (n2 rows) and every small enough tolerance, basis_intersection returns two orthonormal families P1, P2 of real rows: P1 spans exactly the coefficients of the combinations of basis1 that are combinations of basis2, and symmetrically P2, so the rows of P1 @ basis1 and of P2 @ basis2 each span the intersection of the two row spaces. The result does not depend on the tolerance below a positive bound, and explicit conditions (a gap in the spectrum of p and a bound on the coefficients) give this for a fixed tolerance. With no row in one of the bases it raises ValueError. For complex bases it is wrong: the transposes are not conjugated.", "quantifier": "all shapes, all real bases, all eigendecompositions with real eigenvectors", "why_tests_cant": "holds for all bases and every choice of eigenvectors eigh may return; the tests have one example.", "anchors": ["lie_nn/_src/util.py: basis_intersection, gram_schmidt"]}
{"id": "C70", "title": "_reduced_tensor_product_basis", "statement": "Let the m >= 2 indices carry representations (blocks of tabulated irreps, multiplicities not zero, real invertible change of basis if any) and let the signed permutations form a group that only exchanges indices with the same representation. For every small enough tolerance the function terminates and its outcome does not depend on the tolerance. If it returns, the blocks are equivariant from the irrep to the tensor product, their slices are linearly independent and span exactly the tensors with the symmetry, the blocks are sorted by irrep with one block per irrep and no empty block. Without minus signs it always returns. If no non-zero tensor has the symmetry it raises. With one index the symmetry is ignored (a formula i=-i returns all tensors), with no index it raises TypeError. With signs it may raise ValueError although the requested tensors exist: the antisymmetric square of Z2(1)+Z2(-1). The tables SU2, SO3, O3, Z2, SL2C and their products meet the hypotheses.", "quantifier": "all numbers of indices, all reduced representations over the tables, all signed permutation groups, all eigendecompositions", "why_tests_cant": "holds for every input and every order in which the greedy search merges the indices; the tests have a few symmetric products.", "anchors": ["lie_nn/_src/reduced_tensor_product.py: _reduced_tensor_product_basis, constrain_rotation_basis_by_permutation_basis, reduce_subgroup_permutation, IrrepsArray"]}
{"id": "C74", "title": "reduced_tensor_product_basis and reduced_symmetric_tensor_product_basis", "statement": "For a list of one or more representations, for a symmetric power of positive order, and for a formula with at least two indices whose keywords determine the representation of every index, the returned RepArray is correct for every small enough tolerance: rep is the direct sum of the irreps of the blocks in the standard basis, the last axis of array has its dimension, array intertwines rep with the tensor product of the input representations (X and H generators), its slices are a basis of the tensors with the symmetry group generated by the formula. The dimension is the product of the dimensions for a list and binomial(d + order - 1, order) for a symmetric power. Lists, symmetric powers and formulas without minus sign never raise. In a formula every index gets the representation of the keywords in its orbit, whatever the order of iteration over the set of permutations. RuntimeError exactly when a keyword is not a letter of the formula, an orbit has no keyword, or two keywords of an orbit are different objects (so i=ir, j=ir with ij=ji raises); AssertionError for an argument that is not a representation; TypeError for a keyword that is not one letter.", "quantifier": "all tables with the stated properties, all formulas, all keyword arguments, all iteration orders of the set of permutations", "why_tests_cant": "all orders of set iteration, all formulas and all inputs; the tests run one symmetric cube.", "anchors": ["lie_nn/_src/reduced_tensor_product.py: reduced_tensor_product_basis, reduced_symmetric_tensor_product_basis, _to_reducedrep, RepArray"]}
{"id": "C75", "title": "Reduced tensor products and group elements", "statement": "For every result of a reduced tensor product and all parameters of exp_map, continuous and discrete, array intertwines the group elements: sum_z' array[p, z'] D_out[z, z'] = sum_q prod_i D_in_i[q_i, p_i] array[q, z]. If the irreps of the table and the input representations are orthogonal, exp_map never raises and the relation of the repository's test holds, einsum('ijkx,xy->ijky', array, D_out) = einsum('ijkx,li,mj,nk->lmnx', array, D_in, D_in, D_in), with any number of axes; in particular for every direct sum of SO3 irreps, every positive order and all parameters.", "quantifier": "all results of reduced tensor products, all group parameters, all orders", "why_tests_cant": "a continuum of group elements and all representations and orders; the test samples one group element, one representation and order 3.", "anchors": ["lie_nn/_src/reduced_tensor_product.py: reduced_symmetric_tensor_product_basis", "lie_nn/_src/rep.py: Rep.exp_map", "lie_nn/_src/reduced_tensor_product_test.py"]}
{"id": "C76", "title": "The overloads of change_basis", "statement": "change_basis of a ReducedRep (in the standard basis or with an invertible Q), of a MulIrrep and of a tabulated irrep by an invertible matrix P never raises, keeps the algebra and the irreps, and the generators of the result are those of the generic overload, P X P^-1. Two changes of basis are one by the product. The matrix is not checked: in the standard basis the generators of the result raise LinAlgError/ValueError exactly when P is not a square invertible matrix of the dimension of the representation, although the generic overload accepts such matrices (pinv).", "quantifier": "all reduced representations, all irreps and multiplicities, all matrices", "why_tests_cant": "agreement of three overloads with the generic one for all invertible matrices; not tested in the repository.", "anchors": ["lie_nn/_src/change_basis.py: change_basis", "lie_nn/_src/reduced_rep.py: ReducedRep.continuous_generators"]}
{"id": "C77", "title": "The product of SU(N) labels is the decomposition of the tensor product", "statement": "For all accepted labels S1, S2, S3 of SU(N), N >= 2, of any size: mul_rep(S1, S2) yields S3 exactly as often as the representation S3 occurs in the tensor product of S1 and S2 (the dimension of the space of equivariant arrays, the Littlewood-Richardson rule), so S3 is in rep1 * rep2 exactly if there is a non-zero equivariant array, clebsch_gordan returns as many arrays as mul_rep yields the label, the dimensions of the yielded labels add up to the product of the dimensions, the order of the factors does not matter, and the trivial label is neutral.", "quantifier": "forall N >= 2 and all pairs and triples of labels accepted by the constructor", "why_tests_cant": "The labels and N are unbounded; the tests multiply a few small labels. The claim relates a loop over patterns to an invariant of representations that no test computes.", "anchors": ["lie_nn/_src/irreps/sun.py:mul_rep", "lie_nn/_src/irreps/sun.py:SUN.__mul__", "lie_nn/_src/irreps/sun.py:clebsch_gordan_matrix"]}
{"id": "C78", "title": "The generic clebsch_gordan recomputes the tabulated coefficients up to a sign", "statement": "For SU2, SO3, O3 and SL2C and all three labels with less than 10^8 matrix entries: the generic clebsch_gordan (tensor_product, infer_change_of_basis, reshape) applied to the three irreps returns the tabulated list of coefficients, with one common sign; it returns no array exactly when the table has none. The sign is the one for which the first entry above 1e-4*sqrt(dim) in the order (k, i, j) is positive. The equivariant arrays between three irreps are exactly the combinations of the tabulated ones, and none exist outside of the product.", "quantifier": "forall labels of SU2, SO3, O3, SL2C with dim1*dim2*dim3 < 10^8, and all eigenvalue decompositions meeting the specification of eigh", "why_tests_cant": "test_recompute_clebsch_gordan is dispatched to the tabulated overload and compares the table with itself; the labels are unbounded.", "anchors": ["lie_nn/_src/clebsch_gordan.py:clebsch_gordan", "lie_nn/_src/infer_change_of_basis.py:infer_change_of_basis", "lie_nn/_src/irrep_test.py:test_recompute_clebsch_gordan"]}
{"id": "C79", "title": "The generic clebsch_gordan on SU(N) irreps returns an orthonormal basis of all equivariant arrays", "statement": "For every N >= 2 and all three labels of SU(N): the generic clebsch_gordan (tensor_product, infer_change_of_basis, reshape) applied to the three representations given by SU(N).generators returns without error as many arrays as the third label occurs in the product computed by mul_rep. Every array is equivariant, the arrays are linearly independent and span all equivariant arrays. They are orthonormal: the sum over i, j of G_a[i,j,k] conj(G_b[i,j,l]) is 1 if a = b and k = l, else 0. Equivariant arrays for different third labels are orthogonal.", "quantifier": "forall N >= 2, all valid labels with dim1*dim2*dim3 < 10^8, all eigenvalue decompositions meeting the specification of eigh", "why_tests_cant": "N and the labels are unbounded; the dispatch sends three SU(N) irreps to the tabulated method, so no test of the repository runs the generic solver on them, and there the number of solutions exceeds one.", "anchors": ["lie_nn/_src/clebsch_gordan.py:clebsch_gordan", "lie_nn/_src/infer_change_of_basis.py:infer_change_of_basis", "lie_nn/_src/irreps/sun.py:mul_rep", "lie_nn/_src/irreps/sun.py:generators"]}
{"id": "C80", "title": "SO13.clebsch_gordan returns one orthonormal equivariant array exactly for the irreps of the product", "statement": "For all three labels of SO13 (dimension below 10^4 each): SO13.clebsch_gordan, which runs the generic solver on the numerically built generators, never raises. It returns exactly one array if the first weights and the second weights satisfy the triangle rule, else none; this number is the multiplicity of the third label in __mul__. The array is equivariant for the matrices of continuous_generators, its columns are orthonormal, and every equivariant array is a multiple of it. If l = k for all three irreps the array is real. SO13(l, k) raises AssertionError exactly when l < 0, k < 0 or l + k is odd.", "quantifier": "forall labels with dimensions < 10^4 and dim1*dim2*dim3 < 10^8, all eigh meeting its specification, all square root functions meeting theirs", "why_tests_cant": "labels are unbounded and the result passes through eigh, sqrtm and inv; the generators are not skew, so the usual argument for unitary representations does not apply directly.", "anchors": ["lie_nn/_src/irreps/so13.py:SO13.clebsch_gordan", "lie_nn/_src/irreps/so13.py:SO13.continuous_generators", "lie_nn/_src/irreps/so13.py:SO13.__mul__", "lie_nn/_src/irreps/so13.py:SO13.__post_init__"]}
{"id": "C81", "title": "SU2Real.clebsch_gordan on every spin: real, equivariant, spanning, with the multiplicities of the real irreps; tensor_product on mixed parity always raises", "statement": "For all half-integer spins: SU2Real.clebsch_gordan does not raise and its assertion on the imaginary part always holds, because the generic clebsch_gordan of three real representations is real. The returned arrays are equivariant for the returned generators and span all equivariant arrays. If the spins satisfy the triangle rule there are m1*m2*m3 arrays, where m is 1 for an integer spin and 2 for a half-odd one, otherwise there are none. On three integer spins the result is that of SO3. tensor_product of two irreps whose spins are both integer or both half-odd succeeds and acts as the tensor product. tensor_product of an integer and a half-odd spin always raises: there are four times as many rows as columns, so the matrix that is inverted is not square.", "quantifier": "forall half-integer spins with dim1*dim2*dim3 < 10^8, all eigh meeting its specification", "why_tests_cant": "spins are unbounded and the half-odd results pass through eigh; counting solutions needs the decomposition of the complexified real irrep into two copies of a complex one.", "anchors": ["lie_nn/_src/irreps/su2_real.py:SU2Real.clebsch_gordan", "lie_nn/_src/irreps/su2_real.py:SU2Real.__mul__", "lie_nn/_src/irreps/su2_real.py:SU2Real.continuous_generators", "lie_nn/_src/clebsch_gordan.py:clebsch_gordan", "lie_nn/_src/tensor_product.py:tensor_product"]}
{"id": "C82", "title": "SU2_.clebsch_gordan returns the same array as SU2.clebsch_gordan, sign included, up to a size at which the rounding breaks it", "statement": "For all n1, n2, n3: SU2_.clebsch_gordan((n1,0),(n2,0),(n3,0)), which solves for the highest column with nullspace and gram_schmidt under round_to_sqrt_rational and then lowers, equals SU2.clebsch_gordan(n1,n2,n3), which uses Racah's formula. It has the same number of arrays (one or none), the same entries and the same sign. This needs the labels to be small enough for the rounding: (n1+1)^2+(n2+1)^2 <= 32760, and if n1=q+r, n2=p+r, n3=p+q then binomial(p+q+r+1, r) <= 4096. In particular it holds for all n1, n2 <= 9 and all n3. For every SU(N) label every entry in the highest column of every returned array is the root of a fraction with denominator at most 4096^2+1. So the two functions disagree for large labels: if (4096^2+1)*binomial(q+r,q) < binomial(p+q+r+1,r) they return different arrays, for instance for (15,0),(29,0),(14,0).", "quantifier": "forall n1 n2 n3 within the stated size; forall eigh meeting its specification; the negative part forall labels beyond the stated size and every eigh", "why_tests_cant": "test_cg_su2 compares the two for j <= 4 only; the equality is between two unrelated algorithms, and it depends on the sign that gram_schmidt picks and on the values that the rounding keeps.", "anchors": ["lie_nn/_src/irreps/sun.py:SU2_", "lie_nn/_src/irreps/sun.py:SUN.clebsch_gordan", "lie_nn/_src/irreps/sun.py:clebsch_gordan_matrix", "lie_nn/_src/irreps/su2.py:SU2.clebsch_gordan", "lie_nn/_src/util.py:nullspace", "lie_nn/_src/util.py:gram_schmidt", "lie_nn/_src/util.py:round_to_sqrt_rational", "lie_nn/_src/irreps/sun_test.py:test_cg_su2"]}
{"id": "C83", "title": "check_representation_triplet passes on all labels whose coefficients are equivariant, and raises on SU(N) labels with several arrays", "statement": "check_representation_triplet(rep1, rep2, rep3, rtol, atol) returns exactly if the three algebras agree, the three sets of generators satisfy the commutators and every array of clebsch_gordan is equivariant under all continuous generators, each up to the tolerances; with zero tolerances these are the exact statements. For all labels and all non-negative tolerances it passes for SU2, SO3, O3, SL2C and SU2Real, for SO13 within the size bounds, and for SU2, SO3, O3, SL2C and SU(N) with the generic clebsch_gordan. With SUN.clebsch_gordan it passes if there is no array, if the output is trivial, or if there is one array and the output label has no branching. It raises AssertionError whenever there are two or more arrays and the output is not trivial, for instance for three octets of SU(3). It does not see the discrete generators: for every l it passes on the SO3 array for three O3 irreps (l,-1), although no non-zero array is equivariant.", "quantifier": "forall labels, rtol >= 0, atol >= 0 (for the raising part: atol with d1*d2*d3*atol^2 < 1 and any rtol), eigh and sqrtm by specification", "why_tests_cant": "the tests call the function on a few labels only; passing on all labels needs the equivariance of all coefficients, and raising on all labels with multiplicity needs a lower bound on the violated entry.", "anchors": ["lie_nn/_src/rep.py:check_representation_triplet", "lie_nn/_src/rep.py:Rep.check_algebra_vs_generators", "lie_nn/_src/util.py:check_algebra_vs_generators", "lie_nn/_src/irrep_test.py:test_irreps_clebsch_gordan_vs_generators"]}
{"id": "C84", "title": "Products of groups keep everything that holds for the factors, any number of times", "statement": "If a class of irreps has (1) one orthonormal real equivariant array for every irrep of a product and none for the others, jointly invertible, (2) Schur's lemma, (3) generators that represent one Lie algebra and (4) no eigenvalue of the normal matrix of the intertwiner equations strictly between 0 and the threshold 1e-4 of clebsch_gordan, and the same holds for a second class, then it holds for the class of TabulatedIrrepProduct of the two (group_product of two tabulated irreps; of three, nested to the left). It holds for SU2, SO3, O3, Z2 and SL2C, hence for all products of any number of them. For every such class and all labels: the generic clebsch_gordan, applied to the matrices, returns the tabulated arrays up to one common sign; the space of equivariant arrays has dimension one if the third irrep is in the product of the first two and zero otherwise, and this is also the number of tabulated arrays; check_representation_triplet passes with the tabulated and with the generic arrays.", "quantifier": "forall classes built by products from SU2, SO3, O3, Z2 and SL2C, all labels, all non-negative tolerances; the generic solver for d1*d2*d3 < 10^8", "why_tests_cant": "the tests call the check on five triplets of labels of two products, and for three of them there is no array, so that nothing is compared.", "anchors": ["lie_nn/_src/group_product.py:TabulatedIrrepProduct", "lie_nn/_src/group_product.py:TabulatedIrrepProduct.clebsch_gordan", "lie_nn/_src/group_product.py:TabulatedIrrepProduct.__mul__", "lie_nn/_src/group_product.py:group_product", "lie_nn/_src/clebsch_gordan.py:clebsch_gordan", "lie_nn/_src/group_product_test.py:test_group_product_SU2_SU2", "lie_nn/_src/group_product_test.py:test_group_product_SO3_Z2_Z2"]}
{"id": "C85", "title": "decompose_rep_into_irreps returns irreducible blocks for almost all random weights", "statement": "Let the generators be real and each anti-symmetric or orthogonal. For every choice of the random weights outside a set of Lebesgue measure zero, every eig that finds a basis of eigenvectors when there is one, and every small enough tolerance, decompose_rep_into_irreps returns without exception blocks that are irreducible; each is the restriction of the generators to a subspace with an orthonormal basis and the dimensions add up to d. The random commuting matrix then has a basis of eigenvectors, so that the assumption on eig is not empty, and every one of its eigenspaces is a minimal invariant subspace. Consequently, for almost all weights, reduce succeeds exactly for the representations free of multiplicities (the matrices commuting with the generators commute with each other), with irreducible irreps of multiplicity one, and raises ValueError for all others.", "quantifier": "forall real families of anti-symmetric or orthogonal matrices of every size, almost all weights in R^N, all eig with the specification, all tolerances below a positive bound that depends on these", "why_tests_cant": "the weights are random: a test sees one draw for one representation. C20 says that the blocks are sub-representations for every draw; that they are irreducible is a statement about the measure of the exceptional draws.", "anchors": ["lie_nn/_src/util.py:decompose_rep_into_irreps", "lie_nn/_src/util.py:eigenspaces", "lie_nn/_src/util.py:unique_with_tol", "lie_nn/_src/util.py:infer_change_of_basis", "lie_nn/_src/reduce.py:reduce"]}
{"id": "C86", "title": "vmap applies the function to the slices and stacks the results along out_axes", "statement": "For any number of arguments whose mapped axes all have one length n > 0, and a function that returns on the i-th slices an array out_i of one shape s, vmap(fun, in_axes, out_axes) returns an array whose shape is s with n inserted at out_axes, and whose slice i along that axis is out_i; tuples of arrays give the tuple of the stacks; an integer in_axes is the same axis for all arguments. Every exception is determined: AssertionError for a wrong number of axes, for no mapped axis and for different lengths, IndexError for an axis that does not exist, ValueError for results of different shapes, the first exception of the function otherwise. For n = 0 the function is never called and the result has a zero inserted in out_shape, or is np.empty(None) without out_shape. Consequently the nested vmap of check_algebra_vs_generators is the array of all commutators [X_i, X_j] with i the first and j the second index (and np.empty(None) for a group without continuous generators), and vmap(kron_add)(Xl, Xk) of SL2C is the stack of the kron_add of corresponding generators.", "quantifier": "forall functions, numbers of arguments, shapes, axes, out_axes, out_shape", "why_tests_cant": "the repository has no test of vmap; each use exercises one pattern of axes, and square commutator arrays hide a swap of the two mapped axes up to a sign.", "anchors": ["lie_nn/_src/util.py:vmap", "lie_nn/_src/util.py:commutator", "lie_nn/_src/util.py:check_algebra_vs_generators", "lie_nn/_src/irreps/sl2c.py:SL2C.continuous_generators"]}
{"id": "C87", "title": "nullspace, infer_change_of_basis, clebsch_gordan and is_irreducible with rounding errors", "statement": "Let every arithmetic step of gram_schmidt, the eigh factorisation of A^H A and the rows of the projection be off by an error of norm at most delta, arbitrary at each step. For every size n, tolerance eps with n eps^2 < 1, gap gamma > eps of the spectrum of A^H A and accuracy tau there is Delta > 0 such that for all delta <= Delta and all matrices every run of nullspace returns exactly dim ker A vectors, each within tau of the corresponding vector of an orthonormal basis of ker A. For kernels of dimension at most one delta <= eps^2 / (66 (1 + 1/gamma)) suffices and the result is the exact one up to a phase and an error of 10 (1 + 1/gamma) delta / eps; errors of 3 eps^2 can give two vectors for a one-dimensional kernel, so the order eps^2 is right. is_irreducible answers True exactly when only scalars commute with the generators for all delta <= eps / (120 (1 + 1/gamma) d), although its tolerance 1e-10 is far below the square root of the machine precision; for all irreps of SU2 of dimension below 10^9 this holds at the default tolerance for (j+1) delta <= 3.5e-13. The generic clebsch_gordan for spins with dimension product below 2.5e7 and delta <= 6e-11 raises its own AssertionError or returns the tabulated SU2 coefficients up to a phase and 2.4e5 delta sqrt(dim). With delta = 0 the runs are exactly the results of the exact model.", "quantifier": "forall matrices with the spectral gap, families of generators, tolerances, error bounds and all runs (all choices of the errors at every step)", "why_tests_cant": "a test exercises one platform, one LAPACK and one set of roundings; the danger is a projection row with norm just above the tolerance, whose normalisation amplifies errors by 1/eps, and this needs a particular input and particular errors.", "anchors": ["lie_nn/_src/util.py:gram_schmidt", "lie_nn/_src/util.py:nullspace", "lie_nn/_src/util.py:infer_change_of_basis", "lie_nn/_src/util.py:is_irreducible", "lie_nn/_src/infer_change_of_basis.py:infer_change_of_basis", "lie_nn/_src/clebsch_gordan.py:clebsch_gordan"]}
{"id": "C88", "title": "structure_algebra: dictionary, exceptions and Dynkin diagrams for every letter and rank", "statement": "structure_algebra(group, rank) raises UnboundLocalError exactly for a letter other than A, B, C, D and otherwise raises exactly on the ranks on which the RootsWeights functions raise (rank 0 for A, ranks 0 and 1 for B, C, D). In all the other cases its entries are the root data of C56 with the Coxeter numbers rank+1, 2 rank, 2 rank, 2 (rank-1). The Dynkin text of types A, B, C is, for every rank, the chain prescribed by the Cartan matrix that the function returns: rank nodes, the bond between neighbours read off the Cartan integers, the arrow towards the shorter root, labels 1..rank below (each below its node exactly for the first ten). The maximal root of type D is a positive root above all the others for rank at least 3. Violated: 'tsDim' is the number of characters of the drawing, not a dimension, and it is never the length of the vectors; the drawing of type D and rank r is the Dynkin diagram of rank r+1.", "quantifier": "all letters and all natural ranks", "why_tests_cant": "the function is not called by any test; a test shows single ranks, and the misaligned labels begin at the eleventh node", "anchors": ["lie_nn/_src/lie_algebra_utils.py:structure_algebra", "lie_nn/_src/lie_algebra_utils.py:RootsWeightsA", "lie_nn/_src/lie_algebra_utils.py:RootsWeightsB", "lie_nn/_src/lie_algebra_utils.py:RootsWeightsC", "lie_nn/_src/lie_algebra_utils.py:RootsWeightsD"]}
{"id": "C89", "title": "check_representation_triplet and check_algebra_vs_generators in floating point", "statement": "When every floating point operation has a relative error of at most u (any rounding mode, any order of the additions in @ and np.einsum, fused or not), check_representation_triplet passes on SU2 labels up to J in every run as soon as the absolute tolerance is at least 40 (J+1)^2 u: with float64 and the default tolerances for all labels up to 149. More generally it passes for all representations with at most two nonzero entries per row and column and exactly equivariant coefficients of modulus at most one. Conversely, when m(m+1)u/4 exceeds the absolute tolerance a single rounded product can make the check raise on SU2(2m), whatever the other labels are: with float64 and the default tolerances for every m from 1898 on.", "quantifier": "all labels, all tolerances and all u up to 1/1000, all runs with errors", "why_tests_cant": "a test executes one order of operations on one machine for a few small labels; the growth with the square of the label is not visible there", "anchors": ["lie_nn/_src/rep.py:check_representation_triplet", "lie_nn/_src/util.py:check_algebra_vs_generators", "lie_nn/_src/irreps/su2.py:SU2.continuous_generators", "lie_nn/_src/irreps/su2.py:clebsch_gordanSU2coeffs"]}
{"id": "C90", "title": "exp_map of the tabulated irreps is a representation of the group, not only of the Lie algebra", "statement": "The matrices that exp_map gives for SU2(1), SO3(1), O3(1,-1) and the defining label of SUN with real parameters are exactly the groups SU(2), SO(3), O(3) and SU(N). For every label there is exactly one group homomorphism from that group into the special unitary (special orthogonal, orthogonal) matrices such that exp_map of the label is that homomorphism applied to exp_map of the defining label at the same parameters: the result depends on the group element only, not on the parameters chosen for it, and products go to products. Its entries are homogeneous polynomials in the entries of the group element, of degree j for SU2(j), l for SO3(l) and the sum of the entries for a label of SUN. The kernel is computed: SU2(j), j >= 1, sends to one exactly one and, for even j, minus one; SO3(l), l >= 1, is faithful; a label S of SUN other than zero sends to one exactly the multiples z of one with z^N = 1 and z^(sum of S) = 1.", "quantifier": "all labels, all N >= 2, all real parameters and all integer discrete parameters", "why_tests_cant": "equality of the matrices for different parameters of the same group element concerns pairs of parameters that a random test never draws, and the statement is about all labels and all N", "anchors": ["lie_nn/_src/rep.py:exp_map", "lie_nn/_src/irreps/su2.py:SU2.continuous_generators", "lie_nn/_src/irreps/so3_real.py:SO3.continuous_generators", "lie_nn/_src/irreps/o3_real.py:O3.continuous_generators", "lie_nn/_src/irreps/o3_real.py:O3.discrete_generators", "lie_nn/_src/irreps/sun.py:continuous_generators"]}
{"id": "C91", "title": "exp_map of SO13 is a representation of the restricted Lorentz group, exp_map of SL2C one of SU(2) x SU(2)", "statement": "With real parameters exp_map of SO13.four_vector() is in the restricted Lorentz group (real, preserves the Minkowski form, determinant one, positive time component), and every element of the group is a product of two such matrices. For every label (l, k) that SO13 accepts there is exactly one homomorphism from that group into the invertible matrices which exp_map of the label computes from the four vector at the same parameters; its entries are homogeneous polynomials of degree max(l, k) in the entries of the Lorentz transformation and it is injective unless l = k = 0. The assertion (l + k) % 2 == 0 is needed: there is a parameter vector at which exp_map of the four vector is one and exp_map of the generators of (l, k) is (-1)^(l + k), so no such homomorphism exists for odd labels. With real parameters exp_map of every SL2C label is special unitary, the pair of spinors (1, 0), (0, 1) reaches every pair of SU(2) matrices, and for every label there is exactly one homomorphism from SU(2) x SU(2) that exp_map computes.", "quantifier": "all labels, all real parameters, all Lorentz transformations; SO13 labels of dimension below 10^4 (the tolerance 1e-4 of the change of basis)", "why_tests_cant": "the Lorentz group is not compact and its exponential map does not hit it with bounded random parameters; equality of the matrices for different parameters of the same group element is not seen by sampling", "anchors": ["lie_nn/_src/rep.py:exp_map", "lie_nn/_src/irreps/so13.py:four_vector", "lie_nn/_src/irreps/so13.py:__post_init__", "lie_nn/_src/irreps/so13.py:SO13.continuous_generators", "lie_nn/_src/irreps/sl2c.py:SL2C.continuous_generators"]}
{"id": "C92", "title": "the tables of irreps are complete: every irreducible representation is equivalent to exactly one label", "statement": "Every finite-dimensional irreducible family of matrices with the structure constants of SU2 is equivalent (by an invertible matrix that intertwines all generators) to SU2(j) for exactly one j, and j + 1 is its dimension; the same for SL2C and exactly one (l, k), and for the structure constants that SUN.algebra computes and exactly one accepted list of integers of length N. If moreover exp_map of the family depends on the rotation (orthogonal matrix, Lorentz transformation) only and is a homomorphism, it is equivalent to exactly one SO3(l) (O3(l, p) with p = 1 or -1, accepted SO13(l, k)). Every irreducible representation of the group with two elements is equivalent to exactly one Z2(p). The homomorphism is needed: SU2(1) has the structure constants of SO3 and no SO3(l) is equivalent to it.", "quantifier": "all dimensions, all irreducible families of complex matrices (no unitarity assumed), all N >= 2; SO13 dimension below 10^4 (tolerance of the change of basis)", "why_tests_cant": "the claim is about every representation that could ever be built; the tests only look at labels that the iterator produces", "anchors": ["lie_nn/_src/irreps/su2.py:SU2", "lie_nn/_src/irreps/so3_real.py:SO3", "lie_nn/_src/irreps/o3_real.py:O3", "lie_nn/_src/irreps/z2.py:Z2", "lie_nn/_src/irreps/sl2c.py:SL2C", "lie_nn/_src/irreps/so13.py:SO13", "lie_nn/_src/irreps/sun.py:SUN"]}
{"id": "C93", "title": "complete reducibility: every representation acts as a ReducedRep of labels, with unique multiplicities", "statement": "Let r be a family of matrices that satisfies the commutation relations of SU2, SL2C, SO13 or of what SUN.algebra computes, with no further assumption such as unitarity. Then every invariant subspace has an invariant complement. If the dimension is not zero, there is a ReducedRep over the table whose algebra, continuous and discrete generators are computed without an exception and are exactly those of r; for SO3, O3 and SO13 this needs exp_map of r to be a homomorphism from the rotations (orthogonal matrices, Lorentz transformations), and SU2(1) shows that it is needed. Whatever ReducedRep acts as r, the multiplicity of a label in it is the dimension of the space of equivariant maps from r to the label; two ReducedReps act on equivalent representations exactly if all multiplicities agree.", "quantifier": "all dimensions, all representations, all ReducedReps, all N >= 2; SO13 dimension below 10^4", "why_tests_cant": "no finite set of examples shows that nothing but sums of tabulated irreps exists, and a numerical decomposition only looks at one representation", "anchors": ["lie_nn/_src/reduced_rep.py:ReducedRep", "lie_nn/_src/reduced_rep.py:ReducedRep.continuous_generators", "lie_nn/_src/irreps/su2.py:SU2", "lie_nn/_src/irreps/so3_real.py:SO3", "lie_nn/_src/irreps/o3_real.py:O3", "lie_nn/_src/irreps/sl2c.py:SL2C", "lie_nn/_src/irreps/so13.py:SO13", "lie_nn/_src/irreps/sun.py:SUN"]}
{"id": "C94", "title": "decompose_rep_into_irreps splits the representation, and the regular representation yields every irreducible one", "statement": "Let X be real generators, each anti-symmetric or orthogonal. For almost all random weights, every eig that returns eigenbases and every small enough tolerance, decompose_rep_into_irreps(X) returns irreducible blocks such that X is equivalent to the blocks on the diagonal; an irreducible family is equivalent to as many blocks as there are linearly independent equivariant maps to it. For regular_representation(table) of any finite group the blocks are representations of the group, and every irreducible complex representation of the group of dimension k is equivalent to exactly k of them.", "quantifier": "all real orthogonal families; all finite groups and all their irreducible representations; almost all weights", "why_tests_cant": "a test sees one group and one draw of the weights; that nothing is missing from the list needs a statement about all irreducible representations", "anchors": ["lie_nn/_src/util.py:decompose_rep_into_irreps", "lie_nn/_src/util.py:regular_representation"]}
{"id": "C95", "title": "exp_map of the symmetric group reaches 2n permutations; equivariant maps of Sn_natural", "statement": "For n >= 3, exp_map of Sn_natural(n) returns, for any parameters, the matrix of (0 1)^i (0 1 ... n-1)^j, each of them for some parameters, 2 n different matrices in total; Sn_standard(n) returns the image of the same permutation. All permutations are reached exactly if n <= 3, and from n = 4 on the product of two returned matrices need not be returned. A matrix is equivariant for the two generators exactly if it is for all permutations: these are the combinations of the identity and the matrix of ones, a space of dimension 2. Sn_natural(n) is equivalent to Sn_trivial(n) on the diagonal with Sn_standard(n).", "quantifier": "all n, all integer parameters", "why_tests_cant": "the count needs all integer powers and all n", "anchors": ["lie_nn/_src/finite.py:Sn_natural", "lie_nn/_src/finite.py:Sn_standard", "lie_nn/_src/finite.py:Sn_trivial", "lie_nn/_src/rep.py:Rep.exp_map"]}
{"id": "C96", "title": "tensor_power of irreps and ReducedReps is the N-fold Kronecker power, with the multiplicities of the character", "statement": "For a table of irreps with equivariant, complete Clebsch-Gordan coefficients and a trivial label, tensor_power(rep, N) of a TabulatedIrrep, MulIrrep or ReducedRep returns for every N >= 0 and, when the tolerances of tensor_product only fire on exact equalities, the object acts by the N-fold Kronecker power; the overloads that exchange their arguments do no harm. For SU2(j) and MulIrrep(m, SU2(j)) with j >= 1 the tolerances are always exact. Any function on labels that is multiplicative on products is multiplicative on powers: SU2(k) occurs C(N,(N+k)/2) - C(N,(N+k)/2+1) times in the N-th power of SU2(1), and the trivial irrep a Catalan number of times. N = 0 gives the trivial irrep, N >= 1 a ReducedRep, a negative N never returns, a ReducedRep without blocks raises IndexError, and without exact tolerances the first power of an object need not act as the object.", "quantifier": "every table with the stated properties, every object of the three classes, every integer exponent; every label j >= 1 and multiplicity of SU2", "why_tests_cant": "tensor_product_test.py checks the classes of two squares only; a test would fix one irrep and one small exponent, while the exactness of the roundings needs an argument about the lowest weight vector for all powers.", "anchors": ["lie_nn/_src/tensor_product.py:131-141", "lie_nn/_src/tensor_product.py:27-127", "lie_nn/_src/irrep.py:34-36", "lie_nn/_src/reduced_rep.py:43-44", "lie_nn/_src/reduced_rep.py:133-134"]}
{"id": "C97", "title": "is_scalar is true exactly for the one-dimensional labels", "statement": "For every label of SU2, SL2C, SO13, O3 and of SU(N), N >= 2, is_scalar is True exactly if the dimension is one. For all of these except O3 this is the case exactly if the representation is trivial; for O3 the representation is trivial exactly if is_scalar is True and p = 1, so the pseudoscalar O3(0,-1) is a scalar that changes sign under the inversion. For SON and SPN labels with at least two entries, all non-negative, is_scalar is True exactly if dim (as computed by the class) is one; SPN with S = (-2,-2) has dim 1 and is not a scalar.", "quantifier": "every label of the five classes SU2, SL2C, SO13, O3, SUN; every list of at least two non-negative integers for SON and SPN", "why_tests_cant": "No test calls is_scalar. That no other label has dimension one needs Weyl's dimension formula for all weights.", "anchors": ["lie_nn/_src/irreps/su2.py:39-41", "lie_nn/_src/irreps/sl2c.py:47-49", "lie_nn/_src/irreps/so13.py:49-51", "lie_nn/_src/irreps/o3_real.py:39-41", "lie_nn/_src/irreps/sun.py:474-476", "lie_nn/_src/irreps/son.py:55-57", "lie_nn/_src/irreps/spn.py:51-53"]}
{"id": "C98", "title": "is_irreducible is exact wherever complements exist; infer_change_of_basis counts common irreps", "statement": "Let r be a representation in which every invariant subspace has an invariant complement. If is_irreducible(r) is True then r is irreducible, whatever the small eigenvalues of the linear system are; if none of its eigenvalues lies strictly between 0 and the tolerance then is_irreducible returns and is True exactly if r is irreducible. The hypothesis holds for unitary representations and, in every basis, for all representations with the structure constants of SU2, SL2C, SO13 and SU(N). For anti-hermitian SU2 representations of dimension below 10^10 the answer at the default tolerance is right without any hypothesis on the spectrum: it is True on all labels and False on all products of two labels that are not scalars. If r1 and r2 act as ReducedReps over a table satisfying Schur's lemma, infer_change_of_basis(r1, r2) returns as many solutions as the sum over labels of the product of the two multiplicities, and is_irreducible is True exactly for a single block of multiplicity one; for a product of two labels, exactly if the Clebsch-Gordan series has a single term. The tolerance is absolute: for every irreducible representation of dimension >= 2 all sufficiently small multiples of its generators form an irreducible representation on which is_irreducible is False.", "quantifier": "every number of generators and dimension, every eigh meeting its specification, every tolerance with d eps < 1, every representation with the stated properties", "why_tests_cant": "No test calls is_irreducible, and one could only check finitely many irreps; complete reducibility in arbitrary bases, the absence of eigenvalues below the tolerance for all SU2 representations and the failure for small scales are statements about all representations.", "anchors": ["lie_nn/_src/is_irreducible.py:7-9", "lie_nn/_src/util.py:342-389", "lie_nn/_src/util.py:is_irreducible", "lie_nn/_src/infer_change_of_basis.py:infer_change_of_basis"]}
{"id": "C99", "title": "The irreps of a product of groups are exactly the TabulatedIrrepProducts", "statement": "If the labels of two tables are all the irreducible representations of two classes of representations (with invariant complements), then the pairs of labels, TabulatedIrrepProduct, are all the irreducible representations of the product of the classes (structure constants between the factors vanish, the factors commute, each factor acts by a representation of its class), each pair is irreducible and different pairs are inequivalent, and every representation of the product acts as a ReducedRep of pairs. The class is closed under group_product and direct_sum. The hypotheses hold for SU2, SL2C, SO3, O3, Z2 and SUN, hence for all their products, in any number. group_product of three arguments does not depend on the bracketing, entry for entry, and gives the same arrays on labels as on representations.", "quantifier": "all pairs (and triples) of complete tables, all representations of the product of every dimension in every basis, all array indices", "why_tests_cant": "Completeness speaks of all representations of the product, also those not built from the tables; a test can only multiply finitely many labels, and no test in the repository decomposes a representation of a product.", "anchors": ["lie_nn/_src/group_product.py:20-50", "lie_nn/_src/group_product.py:53-126", "lie_nn/_src/group_product.py:129-138"]}
{"id": "C100", "title": "The printed form of an irrep or of a ReducedRep determines it", "statement": "The text of an irrep (SU2, SO3, O3, SL2C, SO13, Z2, SUN, SU2_, SU3, SU4, SON, SPN and products of these, of any nesting) is the class name with the fields in decimal; two irreps with the same text are the same class with the same fields, and the end of such a text can be found inside a longer one. Two ReducedReps whose blocks are irreps have the same text exactly if they have the same blocks in the same order and both or neither have a change of basis Q; in particular they have the same dimension. The text of a GenericRep, or of a class that inherits Rep.__repr__, determines dim, lie_dim and len(H), and the two never coincide. When a block is itself a ReducedRep the text is ambiguous: there are two nested sums of different dimension with the same text.", "quantifier": "all labels with integer fields of any size and sign, products nested to any depth, all lists of blocks", "why_tests_cant": "The tests never look at a repr. Unambiguity of the text concerns all pairs of objects, nested products included.", "anchors": ["lie_nn/_src/reduced_rep.py:46-47", "lie_nn/_src/reduced_rep.py:136-140", "lie_nn/_src/rep.py:74-75", "lie_nn/_src/rep.py:134-135", "lie_nn/_src/group_product.py:53-56", "lie_nn/_src/irreps/sun.py:441-443"]}
{"id": "C101", "title": "The open methods of SON, SPN and SON_adjoint return NotImplementedError instead of raising it", "statement": "SON and SPN return the exception class from algebra, continuous_generators, __mul__ and clebsch_gordan. Consequently, for all labels: is_trivial never answers True, and on the trivial representation, where is_scalar is True and dim is 1, it silently answers False; lie_dim and all shapes raise AttributeError; going through a product raises TypeError; only create_trivial raises NotImplementedError; GenericRep.from_rep accepts every such irrep and returns an object without dim, repr or is_trivial. repr(SON_adjoint(n)) raises for every n, and SON_adjoint(n).create_trivial() has dimension n, hence is not trivial. What is implemented is right: __eq__ and __lt__ are equality and the lexicographic strict total order of the tuples, and from_string reads every parenthesised list of numerals.", "quantifier": "all tuples S of integers, all n, all texts of the grammar", "why_tests_cant": "No test touches these methods; the wrong answer of is_trivial is silent.", "anchors": ["lie_nn/_src/irreps/son.py:26-66", "lie_nn/_src/irreps/son.py:84-85", "lie_nn/_src/irreps/son.py:151-157", "lie_nn/_src/irreps/spn.py:22-62", "lie_nn/_src/rep.py:77-82", "lie_nn/_src/irrep.py:28-37"]}
{"id": "C102", "title": "round_to_sqrt_rational removes noise exactly; the SymPy version agrees with it", "statement": "Let y be a square root (of either sign) of a fraction p/q with 1 <= q <= max_denominator^2, and x a number with |x - y| <= eps, where 2 (eps (2|y| + eps) + max((|y|+eps)^2, 1)/2^51) q (max_denominator^2 + 1) < 1. Then round_to_sqrt_rational(x) is exactly y; the same for complex numbers, both parts at once, also when only the noise makes the number complex. At the default max_denominator every y with q <= 1000 and |y| <= 2 is recovered from errors up to 5e-12, and every number below 1e-4 in absolute value becomes zero, while 1/4096 is kept. Rounding commutes with negation. round_to_sqrt_rational_sympy returns an expression whose value is what round_to_sqrt_rational computes, raising exactly when it raises, and under the hypotheses above it is the square root of p/q in lowest terms with the sign of y.", "quantifier": "all fractions, all signs, all perturbations within the bound, all max_denominator != 0; exact real arithmetic", "why_tests_cant": "The test rounds random exact square roots and compares with fractions.Fraction; nothing perturbs the input, and the SymPy version is not tested.", "anchors": ["lie_nn/_src/util.py:83-87", "lie_nn/_src/util.py:90-98", "lie_nn/_src/util.py:101-106", "lie_nn/_src/util.py:109-115"]}
{"id": "C103", "title": "round_to_sqrt_rational in floating point and int64 arithmetic", "statement": "Run round_to_sqrt_rational with every floating point operation rounded (relative error 2^-53, underflow term 2^-1074, monotone, 0 and 1 exact) and with limit_denominator in wrapping int64 arithmetic. Let y be a square root of either sign of p/q, 1 <= q <= max_denominator^2, max_denominator^2 + 1 < 2^63, and |x - y| <= eps with 2 (eps (2|y| + eps) + max((|y|+eps)^2, 1)/2^48) q (max_denominator^2 + 1) < 1. Then the result is exactly sign(y) fl(sqrt(fl(p/q))): it does not depend on x, no assertion fails, nothing wraps around. It differs from y by at most |y|/2^50, rounding it again returns it unchanged, and the same holds for both parts of complex numbers. At the default max_denominator this covers q <= 1000, |y| <= 2, errors up to 5e-12, and everything below 1e-4 becomes zero.", "quantifier": "all roundings with the stated error bound, all fractions and signs, all perturbations within the bound, all max_denominator with square below 2^63 - 1", "why_tests_cant": "Tests use a few thousand random fractions on one machine; they cannot cover all inputs nor other rounding behaviour of x**2, 1/x, n/x and sqrt.", "anchors": ["lie_nn/_src/util.py:27-36", "lie_nn/_src/util.py:39-54", "lie_nn/_src/util.py:57-80", "lie_nn/_src/util.py:83-87", "lie_nn/_src/util.py:109-115"]}
{"id": "C104", "title": "unique_with_tol and decompose_rep_into_irreps with rounding errors", "statement": "unique_with_tol: let the exact values be equal or gamma apart, let the given values and the computed distances and centers be within delta, and let 3 delta < tol <= gamma - 3 delta. Then every run returns; two entries are in one cluster iff their exact values are equal, clusters are numbered by first appearance, and centers are within 2 delta of the exact values. With errors of tol/2 a run on three equal values can raise ValueError. decompose_rep_into_irreps: for every size d, tolerance eps, gap gamma > eps, conditioning kappa of the eigenvectors with d eps^2 < kappa^2 and d eps^2 < 1, bound of the generators and wanted accuracy tau there is an error bound Delta > 0 such that every run on real generators, with eigenvalues and eigenvectors within Delta of exact ones of a commuting matrix and errors up to Delta in every later step, returns: one block for every distinct eigenvalue, sizes adding up to d, every block within tau of the restriction of the generators to an invariant subspace, irreducible if the eigenspaces are minimal invariant; these subspaces together span the space. A small backward error of the commuting matrix is not enough: for the irreducible reflections of the plane, a scalar matrix plus noise t < eps with exact unit eigenvectors gives a single 1x1 block.", "quantifier": "all sizes, generators, commuting matrices, error bounds within the stated relations and all runs whose errors stay within the bound", "why_tests_cant": "Tests run one random matrix on one LAPACK; they cannot range over all placements of rounding errors, nor reach the exceptional placements that raise or drop an eigenvector.", "anchors": ["lie_nn/_src/util.py:502-545", "lie_nn/_src/util.py:548-560", "lie_nn/_src/util.py:563-584"]}
{"id": "C105", "title": "Counting the blocks of the regular representation", "statement": "Let table be the multiplication table of a finite group G of order n. For almost all random weights, every eig that finds eigenbases and every small enough tolerance, decompose_rep_into_irreps(regular_representation(table)) returns blocks with these counts. Choose one block of every class of equivalent blocks. The number of chosen blocks is the number of conjugacy classes of G. The squares of their sizes add up to n. Their sizes add up to the number of returned blocks. All blocks are 1x1 exactly when G is commutative. A choice of one block per class always exists.", "quantifier": "all finite groups and multiplication tables, almost all weights, all eig and eigh meeting their specification, all small enough tolerances, all choices of representatives", "why_tests_cant": "Tests look at a few small tables; no finite set of groups shows that the number of inequivalent blocks is the number of conjugacy classes.", "anchors": ["lie_nn/_src/util.py:563-584", "lie_nn/_src/util.py:592-604"]}
{"id": "C106", "title": "Number of components and multiplicities of reduced tensor products", "statement": "For every signed permutation group G and compatible dims, |G| * len(reduce_permutation_base) is the sum over (s, p) in G of s times the number of multi-indices fixed by p; with equal dimensions d this number is d to the number of cycles of p. For the group of all permutations with their signs the base has binomial(d, n) elements. The dimension of a result of reduced_tensor_product_basis(formula) is given by the same sum. In a result of reduced_tensor_product_basis or reduced_symmetric_tensor_product_basis the irreps are sorted, no multiplicity is zero, and the multiplicity of every irrep is the dimension of the space of equivariant maps from it to the tensors with the symmetry; so two correct results list the same irreps. Antisymmetrising more indices than there are dimensions raises.", "quantifier": "all signed permutation groups, all dims, all tables with the stated properties, all formulas and keywords, all small enough tolerances, all runs long enough", "why_tests_cant": "Tests check one symmetric cube; the count involves every group of signed permutations and every size.", "anchors": ["lie_nn/_src/reduced_tensor_product.py:92-258", "lie_nn/_src/reduced_tensor_product.py:406-430"]}
{"id": "C107", "title": "gram_schmidt and extend_basis with rounding errors", "statement": "Let every arithmetic operation, the input included, be off by at most delta in any direction. For every number of columns, tolerance and wanted accuracy there is a positive bound on delta below which all runs on rows of norm at most one behave as follows. gram_schmidt returns at most n rows, each within the accuracy of the corresponding vector of an orthonormal family in the span of the input, and every input row is within epsilon plus the accuracy of the span of that family. If in exact arithmetic no row is at a distance close to epsilon from the rows accepted before it, the same rows are accepted and the result is within the accuracy of the exact result. If n epsilon^2 < 1, extend_basis extends the result of gram_schmidt to n vectors close to an orthonormal basis; returns='E' raises ValueError when gram_schmidt already has n rows. Runs with delta = 0 are the exact functions.", "quantifier": "all numbers of columns, tolerances, accuracies, all lists of rows of norm at most one, all errors below the bound", "why_tests_cant": "Rounding depends on the machine, the BLAS and the order of sums; tests see one of them and a few matrices.", "anchors": ["lie_nn/_src/util.py:212-230", "lie_nn/_src/util.py:233-261"]}
{"id": "C108", "title": "sequential_nullspace with rounding errors", "statement": "Let every arithmetic operation be off by at most delta in any direction: the products A @ S.T and N @ S, eigh and the loop of gram_schmidt. For every size n, tolerance epsilon with n epsilon^2 < 1, spectral gap above epsilon, bound on the matrices, number of matrices and wanted accuracy there is a positive bound on delta below which every run stops at the shortest non-empty prefix of the matrices whose common kernel has at most the requested dimension and returns as many vectors as that kernel has dimensions, each within the accuracy of the corresponding vector of an orthonormal basis of the kernel. It raises ValueError exactly when there is no such prefix, that is when no matrix is given or the common kernel of all of them is too large; runs that return all return the same number of vectors. Steps with delta = 0 are the exact steps.", "quantifier": "all sizes, tolerances, gaps, bounds, accuracies, all lists of matrices up to any length with these gaps and bounds, all requested dimensions, all errors below the bound", "why_tests_cant": "Errors of one step are fed into the next one through the basis S; tests see one machine and two or three random matrices.", "anchors": ["lie_nn/_src/util.py:297-339"]}
{"id": "C109", "title": "basis_intersection with rounding errors", "statement": "Let the matrix given to eigh, the answer of eigh, the products x @ x.T and every operation of gram_schmidt be off by at most delta in any direction. For all numbers of rows, every tolerance epsilon, every gap of the spectrum of p above epsilon, every bound on the coefficients and every wanted accuracy there is a positive bound on delta below which every run of basis_intersection on real bases with that gap and that bound returns two lists with as many vectors as the intersection has coefficient dimensions on either basis, each vector within the accuracy of the corresponding vector of an orthonormal basis of those coefficients; these coefficients give spanning sets of the intersection of the two row spaces. A basis without rows raises ValueError whatever the errors. Runs with delta = 0 are exactly the results of the exact function.", "quantifier": "all numbers of rows and columns, all real bases with the gap and the coefficient bound, all tolerances, accuracies and all errors below the bound", "why_tests_cant": "The errors of eigh are amplified by x @ x.T and by the threshold of gram_schmidt; tests run one machine on a few bases.", "anchors": ["lie_nn/_src/util.py:392-439", "lie_nn/_src/util.py:342-389"]}
{"id": "C110", "title": "infer_algebra_from_generators and from_generators in floating point", "statement": "Let every floating-point operation of infer_algebra_from_generators have a relative error of at most u, in any order of the additions, and let every entry of np.linalg.pinv be off by at most kappa. Whatever kappa is, a returned tensor is real and satisfies the commutation relations up to the tolerances and an explicit bound on the errors of the check itself. If the generators are linearly independent and closed under commutators with real structure constants c, then every run returns a tensor, within an explicit bound of c, as soon as atol is above an explicit bound; both bounds tend to zero with u and kappa, for all sizes and all bounds on the generators and their pseudo-inverse. On the spin-1/2 generators with float64, kappa = 1e-12 and the default tolerances, from_generators always returns the given generators with the Levi-Civita symbol up to 1e-11. For the hermitian generators i X the structure constants are imaginary and every run returns None. Without errors the runs are the exact function.", "quantifier": "all numbers and sizes of generators, all tolerances, all rounding errors up to u, all errors of pinv up to kappa, all orders of the additions", "why_tests_cant": "The error of pinv goes through three products before it is compared with 1e-10; tests see one machine and a few generators.", "anchors": ["lie_nn/_src/util.py:442-486", "lie_nn/_src/rep.py:105-115"]}
{"id": "C111", "title": "reduce with rounding errors", "statement": "For every size, tolerance, gap of the eigenvalues, conditioning of the eigenvectors, gap of the change of basis equations, bound of the generators and wanted accuracy tau there is an error bound Delta > 0 with the following property. Take a real representation and a commuting matrix whose eigenspaces are minimal invariant subspaces, and any run of reduce(rep) whose eigenvalues and eigenvectors are within Delta of the exact ones and whose later operations have errors up to Delta (distances, orthogonalisations, compressed generators, eigh, projection, the products compared by the check, the final scaling). If matrices commuting with the representation commute with each other, the run returns one piece per eigenvalue, in order of dimension, and there are exact irreducible pieces within tau of them (generators and columns of Q) whose ReducedRep is exactly the given representation. If two commuting matrices do not commute with each other, every run raises ValueError. The exact model is one of the runs.", "quantifier": "all sizes and numbers of generators, all representations and commuting matrices within the stated bounds, all runs whose errors stay below the bound", "why_tests_cant": "Tests run one representation on one LAPACK; they cannot range over all placements of rounding errors in the three nested numerical routines, nor show that the failure with multiplicities happens for all of them.", "anchors": ["lie_nn/_src/reduce.py:25-44", "lie_nn/_src/infer_change_of_basis.py:9-46", "lie_nn/_src/util.py:563-584"]}
{"id": "C112", "title": "dtypes: no construction loses imaginary parts; jax exp_map fails on direct sums", "statement": "Give every array its numpy dtype and let a slice assignment convert to the dtype of the array that is written. If the dtypes of the inputs can hold their entries, then group_product and TabulatedIrrepProduct return exactly the arrays of the model with complex entries and never an integer array, and they stay float when no factor is complex; direct_sum, tensor_product, conjugate, create_trivial, change_basis and change_algebra (with the pseudo-inverse of the given matrix) return arrays whose dtypes hold their entries, and so do the two methods of ReducedRep that return generators; an assignment changes a number exactly when the dtype cannot hold it. jax_utils.exp_map agrees with Rep.exp_map on tensor products and group products of float representations for exponents in [0, 2^32), and raises TypeError on every direct_sum, even of real representations without discrete generators; a ReducedRep with discrete generators that is more than one irrep has complex discrete generators whatever its irreps are.", "quantifier": "all shapes, all dtypes (integer, float, complex), all entries, all exponents and parameters", "why_tests_cant": "numpy only warns when it drops imaginary parts, and a test sees it only for the combination of dtypes and entries it tries; that exp_map fails on all sums is a statement about all representations.", "anchors": ["lie_nn/_src/group_product.py:13-45", "lie_nn/_src/util.py:185-209", "lie_nn/_src/direct_sum.py:8-16", "lie_nn/_src/tensor_product.py:11-24", "lie_nn/_src/change_basis.py:9-27", "lie_nn/_src/change_algebra.py:6-23", "lie_nn/_src/reduced_rep.py:31-41", "lie_nn/_src/reduced_rep.py:121-131", "lie_nn/_src/jax_utils.py:41-51"]}
