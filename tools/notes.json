{
 "C01": {
  "note": "n unbounded; rand(n) covered as from_int of an arbitrary number below n!."
 },
 "C03": {
  "note": "loop modelled with fuel; every fuel >= n!+1 gives the result."
 },
 "C07": {
  "note": "proved for d != max_denominator as stated; at d == max_denominator the code returns 0/1 (C07_fails_at_max, C07_unrestricted_false)."
 },
 "C08": {
  "note": "both directions; array of any length, loop with fuel."
 },
 "C09": {
  "note": "exact real arithmetic; float64 rounding not modelled."
 },
 "C10": {
  "note": "exact real arithmetic; stronger than stated (p <= 3q, any max_denominator with p(N^2+1) < 2^50)."
 },
 "C13": {
  "note": "n >= 1; at n = 0 np.stack([]) raises for both values of `returns`."
 },
 "C14": {
  "note": "eigh is any function satisfying EighSpec; exact arithmetic; round_fn is the identity."
 },
 "C15": {
  "note": "gap hypothesis on each constraint restricted to the kernel of the previous ones (GapOn)."
 },
 "C16": {
  "note": "Rep-level tolerance is the fixed 1e-4 of the code, hence d1*d2 < 10^8."
 },
 "C17": {
  "note": "the non-unitary direction is refuted by C17_is_irreducible_non_unitary_false, as the statement says."
 },
 "C33": {
  "note": "a Table models any TabulatedIrrep subclass; MulIrrep of a tabulated irrep."
 },
 "C34": {
  "note": "exact arithmetic; for ReducedRep x ReducedRep the two np.allclose tests on the final Q must only fire on exact equalities (hypothesis RoundExact); without it the claim is refuted by C34_rounding_false, and C34_rounding_bound bounds the error in the stored Q."
 },
 "C35": {
  "note": "the correct overloads are proved; the defect of the two others is proved in general (..._swapped) and by a concrete witness (C35_reduced_mul_false)."
 },
 "C39": {
  "note": "scipy.linalg.sqrtm is any function satisfying SqrtmSpec; eigh any satisfying EighSpec; roundings are the identity; dimension below 10^4 for SO13 (tolerance of the rank test). The spectral gap is proved (Casimir eigenvalues), not assumed."
 },
 "C64": {
  "note": "exact arithmetic; the real arrays of the code are real numbers here."
 },
 "C40": {
  "note": "generators with an infinite loop are modelled by what each turn of the outer loop yields; SU2Real labels are exact rationals. TabulatedIrrepProduct has no iterator (NotImplementedError). SU2_, SU3, SU4 drop the checks of SUN (C40_su3_unchecked); validity means the normal form SUN accepts."
 },
 "C41": {
  "note": "O3 and Z2 for parities 1 and -1; SO3 for non-negative l; SO13 for labels its constructor accepts."
 },
 "C65": {
  "note": "the factors are tables whose selection rules and coefficients do not raise (proved for SU2, SO3, O3, Z2, SL2C)."
 },
 "C66": {
  "note": "exact arithmetic; SU2Real.clebsch_gordan on half-odd spins is treated in C81."
 },
 "C43": {
  "note": "all weights, negative entries included; also stated against the set of patterns (C43_dim_card)."
 },
 "C44": {
  "note": "non-negative indices; a negative index behaves as 0 in the code and is not covered."
 },
 "C45": {
  "note": "is_valid_M: arrays with at least two rows; with a single row it accepts everything (C45_single)."
 },
 "C46": {
  "note": "weights without negative entry, as SUN's constructor guarantees; exact square roots."
 },
 "C47": {
  "note": "as C46; also the off-diagonal Cartan integers."
 },
 "C48": {
  "note": "also for a first factor with positive last entry and any second tuple of that length."
 },
 "C55": {
  "note": "float arrays only: C55_matrix_power_dtype shows int/complex arrays raise TypeError (scan carry dtype), C55_negative_differs that negative exponents are reduced modulo 2^32."
 },
 "C56": {
  "note": "cartan_matrix of B and C is the transpose of Bourbaki's (and Mathlib's) matrix, which the statements say explicitly; for D the fundamental-weight list is proved wrong for rank >= 3 (C56_fundamental_D_wrong) and C56_fundamental_D_partial says which entries are right."
 },
 "C57": {
  "note": "also: standard rep irreducible, injective homomorphism; finding: Sn_standard is not unitary for n >= 3."
 },
 "C67": {
  "note": "for an even number of labels (>= 4) the natural claim fails: C67_so_even_dim says which irrep's dimension is returned, C67_so_even_wrong holds the witness; negative labels are accepted (C67_sp_negative)."
 },
 "C50": {
  "note": "all formulas: negative first term AssertionError, malformed RuntimeError, otherwise the loop halts with the generated subgroup"
 },
 "C51": {
  "note": "exact arithmetic; the group is any subgroup of the signed permutations, the dims are constant on its orbits"
 },
 "C52": {
  "note": "any subset of the indices, any set of signed permutations"
 },
 "C53": {
  "note": "labels linearly ordered by __lt__; an empty IrrepsArray raises AssertionError; reshape: Props/Reshape.lean, -1 only as the last size; its check of an explicit last size is a defect (C53_reshape_last_false)"
 },
 "C54": {
  "note": "bases on disjoint axes, arbitrary representations on the leading axes; also the multiplicities and the AssertionError of an empty result"
 },
 "C58": {
  "note": "ASCII strings; the round trip for every label class and every list, the exact set of accepted texts for SU2, SO3, Z2, O3, and the defects: SL2C/SO13/SUN labels ignore trailing text, the repr of a MulIrrep is not readable, SO3 accepts negative labels."
 },
 "C59": {
  "note": "exact arithmetic; eig must return an eigenbasis of the random commuting matrix on which gram_schmidt loses nothing; spectral gap hypotheses as in C16."
 },
 "C71": {
  "note": "exact arithmetic."
 },
 "C69": {
  "note": "exact arithmetic; np.linalg.pinv is an argument that satisfies the four Moore-Penrose equations on the generators of the defining label (shown to exist); limit_denominator with enough steps."
 },
 "C72": {
  "note": "exact arithmetic."
 },
 "C49": {
  "note": "exact real arithmetic; round_to_sqrt_rational is any function that keeps 0, 1 and the entries of the raising operators, nullspace any function that is exact on the constraint matrix (both exist: keepsLadder_id, nullExact_exactNull). The positive claim fails in the code: C49_all_iff says exactly for which labels it holds, C49_octet_wrong and C49_octets_wrong are witnesses."
 },
 "C68": {
  "note": "the code is correct for even n only; C68_odd and C68_small are the failures, for all odd n."
 },
 "C73": {
  "note": "exact arithmetic; eigh is any function meeting EighSpec and EighReal (one exists: exists_eigh_real). C73_complex is a failure of the code: it uses .T where complex arrays need the conjugate transpose."
 },
 "C70": {
  "note": "exact arithmetic; the iteration order over small frozensets of ints is the increasing one (SortedOrder, true in CPython for indices below 8); eigh any function meeting EighSpec and EighReal. C70_one_negative and C70_antisymmetric_negative are failures of the code."
 },
 "C74": {
  "note": "hypotheses as in C70 (SortedOrder, EighSpec, EighReal, GoodTable, GoodRed); object identity is modelled by addresses, the order of iteration over the frozenset of permutations is arbitrary. The case of one index in a formula is C70_one."
 },
 "C75": {
  "note": "hypotheses for the existence of the result as in C74; `exp` is Mathlib's matrix exponential."
 },
 "C76": {
  "note": "exact arithmetic; a singular matrix makes np.linalg.inv raise."
 },
 "C77": {
  "note": "Full. The Littlewood-Richardson rule is proved from scratch: a sign-reversing involution on Gelfand-Tsetlin patterns gives the product of an alternating sum and a character (LRPat, LRRow, LRAlt, LRSum), complete reducibility of the tensor product of the constructed matrices gives the product of two characters (LadderSplit, LRDecomp, LRSplit), the two are compared by coefficients (LRCount), and the loop is shown to test exactly the row conditions (LRLoop). Exact arithmetic for the arrays of clebsch_gordan (C49)."
 },
 "C78": {
  "note": "Full, exact arithmetic; eigh enters by its specification (EighSpec) and the spectral gap of the linear system is proved from Casimir operators. The bound 10^8 is where the Gram-Schmidt threshold of the code (1e-4) could drop the only direction."
 },
 "C79": {
  "note": "Full, exact arithmetic; eigh enters by its specification and the spectral gap (smallest non-zero eigenvalue >= 1) is proved for every N from the Casimir identity and integer weights. Bound 10^8 as in C78."
 },
 "C80": {
  "note": "Full, exact arithmetic; eigh and sqrtm enter by specification, rounding is not modelled."
 },
 "C81": {
  "note": "Exact arithmetic; eigh enters by specification, round_fn is the identity. The half-odd branch goes through the generic solver on real matrices."
 },
 "C82": {
  "note": "Arithmetic is exact, but the rounding is the one of the code (round_to_sqrt_rational with max_denominator 4096) wherever the code rounds; eigh enters by specification. The size conditions are what the rounding needs and C82_differs shows that a condition of this kind cannot be dropped."
 },
 "C83": {
  "note": "Arithmetic is exact, so the tolerances only make the check weaker. There is at least one continuous generator."
 },
 "C84": {
  "note": "Arithmetic is exact; eigh by specification. A class is a table of labels, matrices, products and arrays."
 },
 "C85": {
  "note": "Arithmetic is exact and round_fn is the identity; eigh and eig by specification; the weights of np.random.rand are a point of R^N and the theorem says that the exceptional points have Lebesgue measure zero. For complex generators the blocks need not even be sub-representations (C20_decompose_complex_false)."
 },
 "C86": {
  "note": "Arrays are a shape with a function on multi-indices; axes are non-negative; the outcome of np.empty(None) depends on the numpy version and is a parameter."
 },
 "C87": {
  "note": "Errors are absolute and bounded in norm by delta per step (vector update of the inner loop, norm, division, each row of the projection; for eigh a backward error and a distance of the eigenvectors from an orthonormal basis); how delta follows from the unit roundoff and the sizes is not derived. The checks of infer_change_of_basis and the factor sqrt(dim) are evaluated exactly; round_fn is the identity."
 },
 "C88": {
  "note": "The text is a list of characters. The property as one would state it (a dictionary with the dimension and the right diagram) is false for tsDim and for type D: C88_tsDim_wrong and C88_dynkin_D_wrong prove the negations for all ranks; everything else is proved in full."
 },
 "C89": {
  "note": "Relative errors: no overflow and no underflow. The exact values are those of the model of SU2 (C36, C42, C61). The comparison itself is evaluated with errors too."
 },
 "C90": {
  "note": "Matrix exponential exact (Mathlib NormedSpace.exp). Uses the models of C36, C37, C38, C69, C72 and the Clebsch-Gordan theorems C61 and C67."
 },
 "C91": {
  "note": "Matrix exponential exact (Mathlib NormedSpace.exp); eigh and sqrtm by specification as in C39. Uses the models of C39 and the Clebsch-Gordan theorems of SL2C."
 },
 "C92": {
  "note": "Equivalence is Spec/Complete.lean; irreducible means no invariant subspace (Spec/LinAlg.lean). eigh, sqrtm and pinv by specification as in C39 and C69."
 },
 "C93": {
  "note": "Acts is Spec/Reduced.lean, invariant complements Spec/Semisimple.lean, multiplicity Spec/Multiplicity.lean. For SUN and SO13, which the model has no product and Clebsch-Gordan table for, the statement is about every table in which the accepted labels occur. Z2 is left out: ReducedRep.continuous_generators raises without continuous generators (C63)."
 },
 "C94": {
  "note": "blockSum is Spec/BlockSum.lean, Equivalent Spec/Complete.lean. Exact arithmetic; the hypotheses on eig and eigh are those of C85."
 },
 "C95": {
  "note": "The representations are the Rep 0 h d whose discrete generators are what the model of finite.py returns."
 },
 "C96": {
  "note": "The exactness of the tolerances is a hypothesis for a general table (C96_first_power_false shows that it is needed) and proved for SU2(j), j >= 1."
 },
 "C97": {
  "note": "Restricted for SON and SPN to non-negative entries, since the classes accept negative ones; C97_negative shows the restriction is needed."
 },
 "C98": {
  "note": "The gap of the spectrum is a hypothesis except for anti-hermitian SU2 representations, where it is proved; C98_scale shows it cannot be dropped."
 },
 "C99": {
  "note": "C99_product, C99_unique, C99_reduced, C99_group_product, C99_direct_sum general; C99_su2, C99_sl2c, C99_so3, C99_o3, C99_z2, C99_sun are the factors; C99_three and C99_product3 the three-argument overloads."
 },
 "C100": {
  "note": "SU2Real (a float field) and fields that are NumPy integers are not modelled."
 },
 "C101": {
  "note": "The property that fails (is_trivial agrees with is_scalar) is refuted for every number of labels from two; the statements about order and from_string are the full ones."
 },
 "C102": {
  "note": "Real arithmetic (C103 treats rounding errors)."
 },
 "C103": {
  "note": "Overflow to infinity is left out; the hypotheses bound x^2 by 2^48."
 },
 "C104": {
  "note": "Delta comes from a compactness argument and is not explicit. Rounding is the identity (round_fn default)."
 },
 "C105": {
  "note": ""
 },
 "C106": {
  "note": ""
 },
 "C107": {
  "note": ""
 },
 "C108": {
  "note": ""
 },
 "C109": {
  "note": ""
 },
 "C110": {
  "note": "round_fn is the identity"
 },
 "C111": {
  "note": "Both directions are proved. The eigenvalues and eigenvectors returned by np.linalg.eig are inputs of the run, assumed near exact ones (C104 explains why that is needed)."
 },
 "C112": {
  "note": "The widths of the types (float32, float64) are not distinguished. "
 }
}