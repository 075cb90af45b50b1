# Formal model of lie-nn in Lean 4

## Layout

* `lean/Verif/Model/*.lean` — executable-style model of the code, one file per source module; every
  definition cites the file and lines in `/repo` it models.
* `lean/Verif/Spec/*.lean` — small independent specifications (what "representation", "intertwiner",
  "Gelfand–Tsetlin pattern", … mean), written without reference to the model's helpers.
* `lean/Verif/Proofs/*.lean` — helper lemmas.
* `lean/Verif/Props/*.lean` — the property theorems, each with a non-vacuity `example`.

## How the code is abstracted

* **Numbers.** Python ints are `Int`/`Nat` (unbounded; numpy int64 wrap-around is not modelled).
  float64/complex128 are exact `ℝ`/`ℂ`, except in the models named `Round*`, `*Float` and `SympyRound`, where a
  run is a relation that allows bounded errors in every operation. `np.allclose` guards are modelled
  as the real-number predicate `|a-b| ≤ atol + rtol*|b|` where the guard's outcome matters.
* **Arrays.** An ndarray of shape `(n,d,d)` is `Fin n → Matrix (Fin d) (Fin d) ℂ`; C-order `reshape` is the
  explicit index arithmetic `(i,k) ↦ i*dk + k` (`Fin.divNat`/`Fin.modNat`).
* **Exceptions.** `assert`, `raise`, and numpy errors are values of `Except PyErr` (or `Option`) wherever
  the error branch is reachable; typed shapes replace the purely static shape assertions.
* **External numerics** (`eigh`, `eig`, `pinv`, `inv`, `expm`, `sqrtm`) are parameters constrained by the
  textbook specification of what they return (e.g. *any* orthonormal eigenbasis), or the Mathlib function
  (`Matrix` inverse, `NormedSpace.exp`) in exact arithmetic. Theorems hold for every such output.
* **Loops** are structural recursion or fuel-indexed iteration with a theorem that enough fuel exists.

## Trusted base

Lean 4.33.0 kernel; axioms `propext`, `Classical.choice`, `Quot.sound` only (checked with `#print axioms`
by the gate); Mathlib's definitions; our reading of the Python source (no code is executed here);
the abstractions listed above.

## Testing the theorems against wrong programs

`seeded/LOG.jsonl` has one line per edit of the model tried in a scratch copy. The failed theorems are those
that no longer compile, so the list can contain a theorem whose claim stays true but whose proof shares a lemma
with one that fails; where this was noticed the line has a note. Lines without a failed theorem are of four kinds,
each with a note: the edited model does not type-check; the edit gives an equivalent program (controls M206, M230,
and M317, M652); the edit hit a function that only ranks candidates (M363) or the run was stopped before a property
theorem was reached (M508); theorems were added because of the edit (M220, M302).

## Plan per property

| id | model | proof method |
|----|-------|--------------|
| C01 | `from_int`/`to_int`/`group` on `List Nat`, pool popping | induction on n with generalised pool |
| C02 | `compose`, `inverse`, `identity`, `is_perm` on lists, `Except` guard | list extensionality |
| C03 | `germinate` as fuel loop over `Finset (List Nat)` | strictly growing subset of a finite set; closure minimality by induction |
| C04 | `is_group` | unfold + closure |
| C05 | `to_cycles`, `sign`, `permutation_sign` | both equal `Equiv.Perm.sign` |
| C06 | `normalize_integer_ratio` on Int | gcd lemmas |
| C07 | `limit_denominator` scalar loop | Stern–Brocot invariant (unimodular, denominators grow), optimality by determinant argument; counterexample at d = M |
| C08 | vector loop with per-element stop masks | simulation by induction on iterations |
| C09 | real-number model of floor/round | floor/round inequalities |
| C10 | composition of C09 and C07 | separation of fractions |
| C11 | `direct_sum` entrywise on `Fin (m+p)` | block matrices |
| C12–C13 | fold over rows in `EuclideanSpace`-style vectors | fold invariant |
| C14–C16 | `eigh` as parameter with spec | projector argument, vec/Kronecker identity |
| C17 | commutant dimension | Schur's lemma and orthogonal complement |
| C18 | `pinv` by Penrose equations | linear algebra |
| C19 | greedy loop on indices | loop invariant |
| C20 | `eig` as parameter | compression to invariant subspace; concrete counterexample |
| C21 | table-driven array | direct |
| C22–C30 | `Rep` operations entrywise | matrix algebra, `exp` lemmas |
| C31 | composition of C16 and C26 | reshape bookkeeping |
| C32 | `is_real` via intertwiners | algebra, concrete SU2(1) counterexample |
| C33–C35 | list of blocks, `Except` | induction on the list of blocks |
| C36–C38 | explicit matrices with square roots | entrywise computation |
| C39 | explicit structure constants; SO13 with `eigh`, `sqrtm` as parameters | finite check of a 6×6×6 table (complete) + algebra; spectral gap from `sl2` weights |
| C40–C41 | enumerations as lists / streams | induction |
| C42 | Racah-type sum over ℚ and square root | recurrence proof |
| C43 | `Fraction` product over ℚ | Vandermonde determinant branching identity |
| C44–C45 | list recursion | induction on N |
| C46–C47 | products over ℚ/ℝ with square roots | factor matching, sign counting |
| C48 | loops with running update | loop invariant |
| C49 | constraint rows, search, lowering and the shared list as written; `round_to_sqrt_rational` and `nullspace` are parameters | highest vectors ↔ intertwiners of the ladder operators; loop invariant that writes every column in terms of the true intertwiner; unique or double lowering of patterns decides when the first array is right |
| C50 | formula as a list of characters, signed permutation sets as `Finset` | words ↔ permutations, closure as in C03 |
| C51 | orbits as `Finset`s, rows as functions of the flat index | signed orbits are disjoint or opposite; row-major bijection |
| C52 | filtered tuples relabelled by rank | order isomorphism of the subset |
| C53 | lists of blocks with run-time leading shape; in `reshape` the leading sizes are natural numbers, -1 only as the last size | stability of merge sort, loop invariant on runs, row-major positions |
| C54 | broadcasting on disjoint axes, `einsum` as sums | sums over the joint box split; CG equation |
| C55 | `scan` of 32 steps | binary expansion invariant |
| C56 | vectors over ℚ | direct per-rank computation |
| C57 | matrices over ℤ/ℂ | permutation matrices |
| C58 | `List Char` parser (ASCII) | round trip by induction, inversion of every parser |
| C59 | `reduce` with `eigh`, `eig` and weights as parameters | images of the blocks span; one homomorphism per block makes Q invertible |
| C60 | wrapping 64-bit arithmetic beside unbounded integers | congruence mod 2^64 + bounds |
| C61–C62 | SU2 coefficients as a big matrix; tables of irreps | Casimir separation, norm of the top weight |
| C63 | SO3/O3/Z2 tables | real change of basis applied to C42/C61 |
| C64 | SL2C coefficients as Kronecker products of SU2 blocks | reduction to C42/C61, Casimir separation |
| C65 | product of two tables of irreps | index algebra of the Kronecker product |
| C66 | realification of SU2 generators; labels in ℚ | ring homomorphism ℂ → 2×2 real blocks |
| C67 | Weyl product over ℚ | Vandermonde determinants in a basis of binomial coefficients; telescoping |
| C69 | generators as lists of complex matrices, `pinv` as a parameter | Lagrange interpolation sums give [J+,J-]; Serre relations from sl2 theory; nested commutators satisfy the gl(N) relations; trace-zero basis by Abel summation; integrality and an l1 bound make the rounding exact |
| C72 | same matrices as C69 | a vector killed by all raising operators is supported on the highest pattern (rows from the bottom are maximal); invariant subspaces contain such a vector; highest weight comparison |
| C68 | list comprehensions of unit matrices, `np.stack([])` raises | `E(a,b) - E(b',a')` spans the algebra of the split form; a linear functional separates a commutator from the span for odd n |
| C73 | `p`, the selected eigenvectors, `gram_schmidt` of the rows of `x @ x.T`; `eigh` an argument | `p` is the Gram matrix of the stacked bases, its kernel maps onto the coefficients; the Gram rows of the restricted kernel are bounded below, so Gram-Schmidt keeps a full set; the result is constant for all small tolerances |
| C70 | the `while True` loop with fuel, the recursion on sub-products, `reshape`, the selection of permutation rows, `basis_intersection` (C73) and `reduce_basis_product` (C67); the order of a frozenset of indices is an argument | invariant: every basis is equivariant, independent, real, and spans at least the tensors with the symmetry of the stabilizer; by Schur's lemma the component 0 of a block decides the coefficients; fuel by the number of indices; limit of small tolerances |
| C74 | addresses for objects, the dictionary as an association list, `iter` for the frozenset order; the result as `rep`, `array`, `list` | the entries of the dictionary never change once set, every entry comes from a keyword of the orbit, and the group contains a permutation between any two indices of an orbit; position of a column on the last axis; symmetric tensors are functions of the multiset of indices |
| C71 | fold of Kronecker products of run-time shapes | mixed-radix digits |
| C75 | `IsReducedArray` of C74 and `Rep.expMap` | the exponential of a Leibniz sum is the tensor product of the exponentials; intertwiners of generators intertwine power series and powers; orthogonal generators give orthogonal group elements |
| C76 | the three overloads; `Rep.changeBasis` is the generic one | the generators of the result are computed by C33's lemmas and compared with `P X P⁻¹`; `inv` of a product |
| C77 | `mul_rep` and `SUN.__mul__` (model of C48), `clebsch_gordan_matrix` (model of C49) | Littlewood-Richardson rule proved for the loop: pattern involution, alternating sums, Weyl's formula, complete reducibility by highest vectors; multiplicity = dimension of `cgSpace`. `C77_multiplicity`, `C77_mem_iff`, `C77_arrays`, `C77_dims`, `C77_perm`, `C77_comm`, `C77_one` |
| C78 | generic `clebsch_gordan` (model of C31), tables of `SU2`, `SO3`, `O3`, `SL2C` | one-dimensional solution space from Schur's lemma and completeness of the table (CGSpace), Gram-Schmidt of a rank one projector (Recompute), gap of the system from the Casimir operator with integer discrete generators (RecomputeGap). `C78_su2`, `C78_so3`, `C78_o3`, `C78_sl2c`, `C78_space`, `C78_tables`, `C78_selection` |
| C79 | generic `clebsch_gordan` (model of C31), `generators`, `mul_rep` of SU(N) | the Gram matrix of the linear system is a Casimir operator; commutator relations and integrality of the diagonal weights give the gap 1 for all N (SUNGap, SUNGapRep); dimension of the solution space from C77; orthonormality from Schur's lemma (C72) and the traces of rep_infer. `C79_generic`, `C79_orthonormal`, `C79_orthogonal` |
| C80 | `SO13.clebsch_gordan`, `continuous_generators`, `__mul__`, `__post_init__` | generators are phases times unitary conjugates of the SL2C ones (the square root of the unitary involution is unitary); gap and solution space carry over from SL2C; realness from closure under conjugation and the one-dimensional solver result of C78. `C80_cg`, `C80_real`, `C80_mul`, `C80_make` |
| C81 | `SU2Real.clebsch_gordan` (both branches, with the imaginary-part assertion), `SU2Real` as a table of irreps, `tensor_product` on it | an isometry splits the complexified real irrep into one or two copies of the SU2 irrep; equivariant arrays between copies are counted blockwise; the null projector of a real matrix is real. `C81_generic_real`, `C81_cg`, `C81_integer`, `C81_equivariant`, `C81_tensor_product`, `C81_tensor_product_raises` |
| C82 | `SU2_` (its check, its iterator), `SUN.clebsch_gordan` with `nullspace` and `gram_schmidt` on real matrices and with `round_fn` applied where the code applies it | the kernel at the highest weight is a line spanned by the highest column of Racah's array, whose squares are `C(p+x,p) C(q+r-x,q) / C(p+q+r+1,r)` with all entries of one sign pattern; the rounding keeps all of these; gram_schmidt returns the normalised first non-zero row of the projector, which has the sign of Racah's array after the reversal of columns; the lowering step then gives the whole array. `C82_equal`, `C82_small`, `C82_label`, `C82_top_rounded`, `C82_differs`, `C82_witness` |
| C83 | `check_representation_triplet`: the two `allclose` of the algebras, the three `check_algebra_vs_generators`, the call of `clebsch_gordan` and the comparison of the two sides for every array and every generator | unfolding gives `C83_iff`; passing follows from the equivariance theorems (C42, C63, C64, C78, C79, C80, C81, C49) and `IsRep` of the classes; raising: the second array is supported on the highest column (C49), the right side is then zero in the other columns, while some generator moves the highest state by a vector of norm at least one, so some entry exceeds `atol`. `C83_iff`, `C83_exact_iff`, `C83_pass`, `C83_raises`, `C83_blind`, `C83_parity_unchecked`, `C83_su2`, `C83_so3`, `C83_o3`, `C83_sl2c`, `C83_su2real`, `C83_so13`, `C83_generic`, `C83_su2_generic`, `C83_so3_generic`, `C83_o3_generic`, `C83_sl2c_generic`, `C83_sun_generic`, `C83_sun_pass`, `C83_sun_raises`, `C83_octets_raise` |
| C84 | `Table.product` (C65) iterated; the hypotheses are the structure `FineTable` of Spec/FineTable.lean | GoodTable of products (C65, C70); orthonormality by separating sums; the gap: after sorting indices the normal matrix of a product is `M ⊗ 1 + 1 ⊗ N` with `M`, `N` positive, and expanding an eigenvector in eigenvectors of `N` shows that a positive eigenvalue is one of `M` plus one of `N` (Proofs/ProductGap.lean). `C84_tables`, `C84_product`, `C84_recompute`, `C84_selection`, `C84_triplet`, `C84_triplet_generic`, `C84_su2su2`, `C84_so3z2z2`, `C84_tests_vacuous`, `C84_tests_one` |
| C85 | `decomposeRep` (C20), `reduceRep` (C59), `eig` by `EigSpec` of Spec/Eig.lean | an element of the commutant with the largest number of distinct eigenvalues has irreducible eigenspaces and is diagonalisable: otherwise adding a multiple of an orthogonal projection (which commutes) gives one eigenvalue more, seen on left eigenvectors (Proofs/Generic.lean). The number of eigenvalues is the largest exactly where the determinant of the matrix `tr M^(i+j)` does not vanish (Proofs/Hankel.lean): this is a polynomial in the weights, not zero, and the real zeros of a non-zero complex polynomial have measure zero, by induction and Fubini (Proofs/PolyNull.lean). For small tolerances all the thresholds of the code act as comparison with zero (Proofs/DecomposeIrr.lean). `C85_weights`, `C85_decompose`, `C85_reduce` |
| C86 | `NDArr`, `NDArr.take`, `npStack`, `vmapDims`, `vmapArgs`, `zipStar`, `vmap`, `leftSide` of Model/Vmap.lean | induction over the list of arguments for the lengths of the mapped axes, the elements of the stack by the rule for inserting and erasing an index (Proofs/Vmap.lean). `C86_vmap`, `C86_tuple`, `C86_errors`, `C86_shapes`, `C86_empty`, `C86_left_side`, `C86_kron_add` |
| C87 | `ReduceRun`, `LoopRun`, `EighRun`, `NullRun`, `ChangeRun`, `IrreducibleRun`, `CGRun` of Model/Rounding.lean: relations between inputs and possible outputs | induction over the rows with a companion orthonormal family in the kernel and an error recursion (`loop_close`, Proofs/RoundingGS.lean); distance of spectral projections and of their rows (`proj_close`, `nullProj_close`, Proofs/RoundingNull.lean); rows of the projection onto scalars vanish or have norm 1/sqrt(d), which removes the amplification in is_irreducible (`norm_row`, Proofs/RoundingChange.lean); an explicit bad run. `C87_exact`, `C87_nullspace`, `C87_nullspace_one`, `C87_nullspace_bad_run`, `C87_is_irreducible`, `C87_is_irreducible_unitary`, `C87_su2_irreducible`, `C87_clebsch_gordan`, `C87_su2` |
| C88 | Strings as lists of characters, join and str as functions on them; the four drawings character by character, the dictionary as a structure, UnboundLocalError as an outcome. | A small spec reads a text as a picture: lines, nodes at places, bonds as three characters to the right or a bar below. The character at every place is computed by induction on the number of nodes; for types A, B, C it is compared with the bond prescribed by the computed Cartan matrix (C56), for type D the places are put in bijection with Fin (r+1) and the bonds with Mathlib's CartanMatrix.D (r+1). |
| C89 | A run is a relation between exact inputs and possible outcomes: sums as arbitrary binary trees of rounded additions (adding a zero is exact), complex scalar products as sums of 2n rounded real products per component, rounded generators, coefficients as the rounded square root of a rounded fraction, comparisons with both sides rounded. | Forward error of a sum by induction on the tree, with the number of nonzero terms in the exponent; Cauchy-Schwarz for the complex scalar product; generators of SU2 have at most two entries per line of modulus at most (j+1)/2, coefficients have modulus at most 1 by orthonormality (C61). The failing run perturbs one product in the commutator [X_2, X_0] at the weight 0. |
| C90 | expMap of the model of rep.py on the models of the classes. The specification is the group of Mathlib (specialUnitaryGroup, specialOrthogonalGroup, orthogonalGroup) and a MonoidHom. | Words of group elements: the tensor power of the defining representation is polynomial in its matrices, Clebsch-Gordan coefficients cut out every label by induction (Pieri step for SUN), so any relation between words of the defining representation holds in every label. Surjectivity of the exponential by diagonalising unitary matrices and, for rotations, the axis. Kernels by conjugating the generators, Schur's lemma and the determinant. |
| C91 | expMap of the model of rep.py on SO13.fourVector, SO13.gens and SL2C.rep. The specification of the Lorentz group is Spec/Lorentz.lean: real matrices with L^T eta L = eta, determinant one, positive time component. | Every Lorentz transformation is a spatial rotation times a boost, both exponentials. The four vector is intertwined with the label (1, 1) by the Pauli matrices; Clebsch-Gordan coefficients cut out every even label by induction on max(l, k), so words of exponentials go to words of exponentials and the matrix is polynomial in the four vector. Injectivity: a word that acts as one commutes with the generators, hence by conjugation with the four vector, hence is a multiple of one by Schur. The turn by 2 pi is computed in the basis where the rotation is diagonal. SL2C: the generators split into two commuting copies of su(2) with real coefficients. |
| C92 | the representations of the tables (SU2.rep, SO3.rep, O3.rep, Z2.rep, SL2C.rep, SO13.gens, the generators of SUN) and Rep.expMap; nothing new is modelled. | Theorem of the highest weight from scratch: in every finite-dimensional family there is a common eigenvector of the Cartan operators that the raising operators kill; its weights are integers; the lowering words generate the space and two irreducible families with the same highest weight are equivalent (the submodule of the direct sum generated by the pair of top vectors is a graph). The label with that weight is written down (differences of neighbours for SUN) and its own top vector is computed from the Gelfand-Tsetlin pattern. SO3, SO13: at a parameter where the base representation is one, the odd labels are minus one. O3, Z2: the discrete generator commutes with everything, so Schur makes it a sign. |
| C93 | ReducedRep with its generators (Model/Reduced.lean) and the tables of irreps; nothing new is modelled. | Weyl's theorem from scratch (Proofs/Weyl.lean): an invariant projection is found in the space of matrices under commutators by induction on the dimension; in the irreducible step the quadratic Casimir element is a scalar that is not zero, because the irreducible family is equivalent to a label by C92 and labels are skew-Hermitian. For SUN the form is the inverse of the trace form. Then the space is split into irreducible subspaces, C92 gives their labels, and the change of basis of the ReducedRep puts the maps side by side. Multiplicities by Schur's lemma, block by block; uniqueness by reordering the columns. |
| C94 | decomposeRep and regularRepresentation of Model/Decompose.lean and Model/Algebra.lean; nothing new is modelled. | The eigenspaces of the combination of commuting matrices have orthonormal bases whose columns together span the space, and their dimensions add up (C20), so the columns side by side are invertible. Equivariant maps out of a direct sum are tuples, maps between irreducible families are zero or scalars by Schur. A map out of the regular representation is determined by its row at the neutral element, which is arbitrary. |
| C95 | naturalGens, standardGens, trivialGens of Model/Finite.lean and Rep.expMap; nothing new is modelled. | Powers, also negative ones, of images of group elements are images of powers. The groups generated by the transposition and by the cycle meet in the identity, because a power of the cycle with a fixed point is the identity; so the products are 2 n different ones, fewer than n! from 4 on. Closure under products would give everything by C57. |
| C96 | `IrRep` is the sum of the three classes over one table, `tensorProduct` the nine overloads, `tensorPower` the square-and-multiply loop with fuel. `create_trivial` of the table is an argument; for SU2 it is the modelled iterator. The spec (`ActsAs`, `timesIn`, `total`, `PowExact`) names the arrays of the object, its blocks, and the exactness of the roundings in the states the loop can reach. | Loop invariant indexed by the exponents of `rep` and `result`: both act as tensor powers, and tensor powers of one object commute up to the order of the exponents, so the exchanged arguments do not matter. For SU2 the changes of basis are real, so the first tolerance test is exact; the second one fires only if Q is near the identity, but the first basis vector has weight -(a+b)j/2 while the first block of the result has a smaller label, so the entry Q[0,0] vanishes. Multiplicities: the character is multiplicative (Weyl's denominator), and the coefficient of the denominator times the character counts a label. |
| C97 | the one-line predicates of the seven classes (Model/Scalar, SUN.isScalar, Roots.isScalar) | strict monotonicity of the products in Weyl's formula: a factor of a non-zero dominant weight exceeds the factor of zero; trivial representations from the generators |
| C98 | is_irreducible of a Rep: all continuous and discrete generators concatenated (Model/Irreducible), on top of the model of util | the kernel is contained in the selected eigenspaces, so the number of solutions is at least the dimension of the commutant; a one-dimensional commutant and complements give irreducibility by the projection; the commutant of a block sum is counted with Schur's lemma; Casimir gap for SU2 |
| C99 | `Rep.groupProduct3`, `Rep.tabulatedProduct3`, `Table.product3`, `Table.groupProduct3` (`Model/GroupProduct3.lean`) are the three-argument overloads of `group_product`; the two-argument ones were modelled for C28 and C65. `Spec/ProductComplete.lean` states what a class of representations of a product is and what it means that a table is complete for a class. `_get_dtype` (the numpy type of the result) is modelled in C112; here entries are complex numbers. | An irreducible representation of two commuting families is a product: the equivariant maps from an irreducible subspace of the first family carry an irreducible representation of the second (`split_irreducible`). Invariant complements for each of two commuting families give invariant complements for both together (`semisimple_append`). The labels of the factors come from the columns of the change of basis; C93 gives the ReducedRep. The bracketing is compared through the division of indices. |
| C100 | every __repr__ of the package, with the ones generated by @dataclass, as functions to lists of characters (Model/Repr) | unique decodability: the texts of labels form a prefix-free code, by induction on nested products; numerals end at the first character that is not a digit |
| C101 | the placeholders with a result type that is a value or the class NotImplementedError, and the methods of Rep that consume it (Model/Stub) | case analysis; dimensions of the trivial labels from C97; generators of SON_adjoint from C68; lexicographic order of Mathlib |
| C102 | _round_to_sqrt_rational_sympy and round_to_sqrt_rational_sympy with SymPy numbers as exact expressions (Model/SympyRound), on top of Model/Rational | best approximation (C07) and the gap 1/(qt) between different fractions, with the error of as_approx_integer_ratio (C09) |
| C103 | the functions of util.py:27-115 with a rounding function fl after each inexact floating point operation (Model/RationalFloat), int64 limit_denominator of Model/Rational | error analysis of the pair n, d for x <= 1 and x > 1, equality of int64 and integer limit_denominator (C60), then the gap argument of C102 |
| C104 | UniqueRun, BlockRun and DecomposeRun (Model/RoundingDecompose): the functions with every distance, center, reduction, norm, product of rows and compressed entry known up to delta; eigenvalues and eigenvectors are inputs of the run | the perturbed loop takes the same branches as the exact loop on the exact values; the two orthonormalisations are handled by compactness as in C81 and C101; compressed entries are Lipschitz in the rows; irreducibility through C85's compress_irreducible |
| C105 | decomposeRep and regularRepresentation as in C94; the counts are stated with Nat.card (ConjClasses G) and equivalence of matrix families | characters: averages over the group intertwine, so characters of inequivalent irreducible blocks are orthogonal; class functions killed by all blocks vanish because the regular representation is faithful on the group algebra; sizes by counting each class with C94 |
| C106 | base, run, formulaBasis and symmetricBasis of C51, C70 and C74; equivariant maps and fixed multi-indices are stated without the model | the average over the group projects on the tensors with the symmetry, its trace is the signed count of fixed multi-indices; antisymmetric tensors are determined by their values on increasing multi-indices; coefficients of an equivariant map in the returned basis intertwine irreps, Schur's lemma leaves one scalar per copy |
| C107 | GramRun and ExtendRun are relations between input and possible outputs, built on LoopRun of C87; no overflow, NaN or round_fn | errors are followed through the loop: the computed family stays close to an exact orthonormal family; the bound on delta comes from continuity of the error recursion at zero; distances are compared with the margin to fix the decisions |
| C108 | SeqStepRun, SeqLoopRun and SeqRun are relations between input and possible outputs, built on NullRun of C87; no overflow, NaN or round_fn | a run on a matrix is a run with a larger error on a matrix close to it, so a step from a family close to an orthonormal one is a run of nullspace on the exact product; the bound on delta is found by induction over the number of matrices from the last one to the first |
| C109 | InterSideRun and InterRun are relations between input and possible outputs; EighRun and LoopRun are those of C87; eigenvectors are real; the flattening of the bases is that of C73; no overflow, NaN or round_fn | the selected columns are within a multiple of delta of an orthonormal basis of the kernel of p, so the computed rows of x @ x.T are close to the rows of the exact projection; C106-style stability of gram_schmidt then applies, with the threshold controlled by the coefficient bound |
| C110 | InferRun and FromGeneratorsRun are relations between input and possible outputs, on CommRun, DotRun and CheckAlgebraRun of C89; PinvRun is an entrywise error of the Moore-Penrose inverse; no overflow, underflow or NaN; round_fn is the identity | an error bound for scalar products with perturbed factors, applied to the commutators, the product with pinv and the einsum of the check; the bounds are polynomials in u and kappa that vanish at zero |
| C111 | ReduceBlockRun and ReduceRepRun (Model/RoundingReduce): DecomposeRun of C104 followed by one ChangeRun per block; the products of the check and the scaling by sqrt(dim) have errors too | a run on the perturbed block is a run with larger error on the exact restriction (nullRun_shift); the check passes because the residual is Lipschitz in the block and in the null vector; blocks span by C104, so equivariant projections exist, and a commutative commutant is equivalent to one-dimensional intertwiner spaces (Schur) |
| C112 | TRep (Model/Dtype) is a Rep with the dtypes of its three arrays; getDtype is _get_dtype, store the conversion on assignment, reducedType the dtype of ReducedRep.discrete_generators; Spec/Dtype says which numbers a dtype holds | the numbers of a dtype form a subring, monotone under promotion, so sums and products stay inside; the pseudo-inverse of a real matrix is real because its conjugate satisfies the same Penrose equations |

## Findings

Behaviour of the code that contradicts the natural reading of a property, each with a theorem holding a
concrete witness (names under `LieNN.Props`):

* C07 `limit_denominator(n, d, M)` with `d == M` returns 0/1.
* C09 `as_approx_integer_ratio` raises `AssertionError` for |x| > 2^51.
* C03 `germinate(set())` is the empty set, which `is_group` rejects.
* C11 `block_diagonal` allocates a real array and drops imaginary parts.
* C23 `conjugate` conjugates the generators and keeps the structure constants: wrong for complex ones.
* C27 `tensor_power` with a negative exponent never ends.
* C13 `extend_basis(returns="E")` raises when the given rows already span the space.
* C17 `is_irreducible` answers True for a reducible, non-unitary representation (upper triangular 2×2).
* C18 `infer_algebra` discards imaginary structure constants and returns None for hermitian generators.
* C16 `infer_change_of_basis` raises when there is no generator at all.
* C19 `unique_with_tol` does not terminate for tol ≤ 0, raises on empty input, depends on the order.
* C20 `decompose_rep` compresses to the complex conjugate of the invariant subspace.
* C32 `is_real` is True for spin 1/2; `make_explicitly_real` ignores the discrete generators.
* C34 rounding `Q` to the identity loses a change of basis close to the identity (`C34_rounding_false`); the loss is bounded by `C34_rounding_bound`.
* C35 `tensor_product(ReducedRep, MulIrrep)` and `(ReducedRep, TabulatedIrrep)` swap the two factors.
* C37 `SO3(l)` checks nothing itself; a negative `l` is refused only by the assertion of `SU2(2l)`.
* C38 `O3(l, p)` does not check `p`; `O3(0, 0)` raises in `exp_map` for a negative power.
* C63 `ReducedRep.continuous_generators` calls `np.stack([])` when the Lie dimension is 0, so the
  generators of `tensor_product(Z2, Z2)` cannot be read.
* C39 `SL2C.algebra()` is the compact form: all six generators are anti-hermitian, so `exp_map` never
  leaves the unitary group; the non-compact boosts appear only in `SO13`.
* C40 `SU2_`, `SU3`, `SU4` replace the checks of `SUN.__post_init__` by a length check: `SU3((0, 5, 1))`
  is accepted.
* C66 `SU2Real.__mul__` lists irreps without their multiplicity when a spin is half-odd.
* C55 `jax_utils.matrix_power` raises `TypeError` for integer and complex arrays (the carry of `scan`
  changes dtype) and reduces the exponent modulo 2^32, so negative powers are wrong.
* C53 `IrrepsArray.reshape` compares an explicit last size with the sum of the multiplicities, so the actual length of the last axis is refused (`C53_reshape_last_false`); the code itself only passes -1.
* C56 `cartan_matrix` of types B and C is the transpose of the usual one; the fundamental weights of type D
  (rank ≥ 3) are listed twice, so the last Dynkin label multiplies ω₁ instead of ω_r.
* C57 `Sn_standard(n)` is not unitary for n ≥ 3.
* C67 `SON.dim` with an even number r ≥ 4 of labels gives the spinor label (0, …, 0, 1) the dimension 2 r; negative
  labels are accepted and can give negative dimensions; ranks 0 and 1 raise.
* C53/C54 an `IrrepsArray` without blocks raises `AssertionError`, so `reduce_basis_product` with a filter that
  keeps nothing, and a symmetric product without invariants, cannot return an empty basis.
* C58 `from_string` of SL2C/SO13/SUN uses a prefix match: trailing garbage is ignored; `repr(MulIrrep)` is not
  readable by `from_string`; SO3 accepts negative labels.
* C59 `reduce` of a generic representation raises `ValueError` whenever an irrep occurs more than once.
* C49 `construct_lower_cg` ignores the components of other states of the same weight, so the first Clebsch-Gordan
  array of SU(N) is wrong unless S3 is a symmetric power, its dual or an exterior power (the octet of SU(3) is
  wrong in every product); `M_list` is shared by the solutions, so the arrays after the first are not lowered.
* C73 `basis_intersection` multiplies by `.T`, not by the conjugate transpose: for complex bases `p` has negative
  eigenvalues, which `w < epsilon` selects, and a nonempty "intersection" of `[[1, i]]` and `[[1, 0]]` is returned. With
  an empty basis `np.reshape(basis, (0, -1))` raises `ValueError` instead of giving an empty intersection.
* C68 `SON_adjoint(n)` raises for n = 3; for odd n ≥ 5 the matrices `Us` and `Vs` are wrong (`E(n-1, i)` instead of
  `E(n-1, n2+i)`, loop over `n` instead of `n2`): no invariant form, not closed under the commutator; for even n
  it is the vector representation, not the adjoint one, and its generators are linearly dependent.
* C70 `_reduced_tensor_product_basis` with one index ignores the symmetry: `i=-i` returns a basis of all tensors
  (`C70_one_negative`). With two or more indices a symmetry without non-zero tensors raises (`C70_no_tensor`).
* C70 an antisymmetric product raises `ValueError` as soon as one irrep of the product has all its components `0`
  supported where the antisymmetric tensors vanish, because no row of the permutation basis is left
  (`C70_antisymmetric_negative`: `Z2(1) + Z2(-1)`, `ij=-ji`). The tests only have products without signs.
* C70 the recursion needs frozensets of indices to be iterated in increasing order. In CPython this holds for
  indices below 8; beyond this the order is that of a hash table.
* C74 `irreps_dict[i] != irreps_dict[j]` compares object identities (`ReducedRep` has no `__eq__`):
  `reduced_tensor_product_basis("ij=ji", i=SO3(1), j=SO3(1))` raises `RuntimeError` (`C74_equal_irreps`); one of
  the keywords, or the same `ReducedRep` object twice, works.
* C74 the intertwining relation is `array Xᵀ = Yᵀ array`. The relation of the test, `array X = Y array`, is the same
  for antisymmetric generators only (`SO3`, real orthogonal changes of basis).
* C76 `change_basis` of a `ReducedRep`, `MulIrrep` or irrep accepts rectangular and singular matrices; the error comes
  later, from `np.linalg.inv` in the generators (`C76_unchecked`). The generic overload uses `pinv` and never raises.
* C77 `SUN.__mul__` is annotated as `List` but returns a lazy `map`: it can be iterated once, the constructors run during the iteration, and `len` or a second loop fail or see nothing.
* C77 `SU2_`, `SU3` and `SU4` override `__post_init__` and check the length only: entries in any order and a non-zero last entry are accepted. The product of two of them consists of `SUN` objects.
* `SON.__mul__`, `SON.clebsch_gordan`, `SON.continuous_generators` and `SON.algebra` return the class `NotImplementedError` instead of raising it; the failure shows up at the caller.
* C78 `test_recompute_clebsch_gordan` (irrep_test.py 45-49) calls `clebsch_gordan(ir1, ir2, ir3)` with three tabulated irreps; the dispatch selects the overload of clebsch_gordan.py 30-34 which returns the table, so the test compares the table with itself. The claim it intends is C78; the two sides agree only up to a sign.
* C79 the generic solver returns equivariant arrays for the labels where `SU(N).clebsch_gordan` does not (C49, e.g. the three octets of SU(3)); the dispatch of clebsch_gordan.py 30-34 always prefers the latter for three irreps.
* C81 `tensor_product(SU2Real(1/2), SU2Real(1))` raises (`np.linalg.inv` of a 48x12 array), as does every product of an integer and a half-odd spin: `clebsch_gordan` returns `m1*m2*m3 = 4` arrays per output irrep where the multiplicity in the product is 1, since half-odd real irreps have quaternionic endomorphisms.
* C82 `SU2_.clebsch_gordan` is wrong for large labels: all entries of the highest column go through `round_to_sqrt_rational`, so a coefficient whose square is below `1/(4096^2+1)` cannot be returned (`C82_witness`: `(15,0),(29,0),(14,0)`, where SU2's coefficient is `1/sqrt(155117520)`).
* C82 `SU2_`, `SU3` and `SU4` override `__post_init__` of `SUN` and check only the length, so labels such as `SU3((0,0,1))` or with a last entry other than 0 are accepted.
* C83 `check_representation_triplet` never looks at the discrete generators (`C83_blind`), so it accepts arrays that break the parity of O3 (`C83_parity_unchecked`).
* C83 `check_representation_triplet` accepts an empty array of coefficients for any three representations: the number of solutions is not checked (that code is commented out).
* C83 `check_representation_triplet` raises on all SU(N) labels with multiplicity two or more and a non-trivial output (`C83_sun_raises`); the tests only call it on labels without multiplicity.
* C84 Three of the five calls of `check_representation_triplet` in group_product_test.py compare no array at all (`C84_tests_vacuous`): 1/2 x 1 has no spin 1, 1 x 3/2 has no spin 1, and (-1)(+1) is not +1.
* C84 `TabulatedIrrepProduct.iterator` and `from_string` raise NotImplementedError, so `create_trivial` of a product raises.
* `decompose_rep_into_irreps` is correct for almost all weights on real orthogonal input, so the only reason for `reduce` to fail on a real orthogonal representation is a multiplicity (C85_reduce).
* `vmap` over an axis of length zero without `out_shape` calls `np.empty(None)`, and `check_algebra_vs_generators` does this for every group without continuous generators (C86_left_side): the outcome of the check then rests on numpy accepting `None` as a shape (deprecated since 1.20).
* `gram_schmidt` accepts rows in order, without pivoting, as soon as their norm exceeds `epsilon`: the first accepted row may have a norm just above `epsilon`, and errors grow by `1/epsilon` (C87_nullspace_bad_run). With the default `1e-4` single precision errors (3e-8) can already give a null space of the wrong dimension; with `1e-10`, the default of `decompose_rep_into_irreps`, the general bound `eps^2` is below double precision, so only the special structure of scalars (C87_is_irreducible) protects `is_irreducible`.
* `structure_algebra` returns as `tsDim` the length of the Dynkin *text* (`len(rootWeight[-1])`, `lie_algebra_utils.py` line 122); `C88_tsDim_wrong` shows that it is never the length of the vectors (for B3 it is 19 instead of 3).
* `RootsWeightsD(rank)` draws the Dynkin diagram of rank `rank + 1`: `rank - 1` nodes in the row plus one above and one below; the label `rank - 1` is missing (`lie_algebra_utils.py` lines 84-90, `C88_dynkin_D_wrong`).
* From the eleventh node on the labels of the Dynkin diagrams are not below their nodes (`C88_label_column`).
* The tolerance `1e-10` of `check_representation_triplet` and `check_algebra_vs_generators` is absolute at the entries that vanish while the errors grow with the square of the label: `C89_su2_float64` guarantees labels up to 149, `C89_su2_float64_bad` shows an admissible run that raises for every even label from 3796 on.
* the class SL2C with real parameters has the compact group SU(2) x SU(2), not SL(2, C): its boosts are skew-Hermitian (C91_sl2c_group). Only SO13 makes the boosts real.
* SU2(1) satisfies algebra() of SO3 and IsRep, and no ReducedRep of SO3 labels acts as it (C93_so3_spin): the commutation relations alone do not make a representation one of SO3.
* exp_map of `Sn_natural(n)` and `Sn_standard(n)` reaches only 2n of the n! permutations, so from n = 4 on it does not parametrise the group (`C95_reaches`, `C95_not_closed`); its docstring does not say so. Equivariance checks on the generators are not affected (`C95_equivariant`).
* `tensor_power` on irreps: the exchanged arguments of `tensor_product(ReducedRep, irrep)` do not affect powers, but the tolerance `np.allclose(Q, np.eye(...))` can: `tensor_power(r, 1)` may differ from `r` (`C96_first_power_false`). A negative exponent loops for ever (`C96_negative`), as for generic representations (C27).
* O3.is_scalar ignores the parity: O3(0,-1) is a scalar according to is_scalar although it is not the trivial representation (C97_pseudoscalar); is_trivial distinguishes them.
* SPN accepts negative entries: S = (-2,-2) has dim 1 but is_scalar is False (C97_negative).
* The tolerance of is_irreducible is absolute, not relative to the size of the generators: small multiples of any irreducible representation of dimension at least two are reported as reducible (C98_scale).
* ReducedRep.__repr__ prints `Q^-1`: the braces of `Q^{-1}` are taken by the f-string as a replacement field (C100_reduced_text). Harmless.
* A MulIrrep of a ReducedRep is printed without brackets, so nested sums are ambiguous: 2x(1xA + 1xB) and 2x1xA + 1xB look the same and have different dimensions (C100_nested_ambiguous).
* SON and SPN *return* NotImplementedError: is_trivial of the trivial representation is False without any exception (C101_spn_trivial, C101_son_trivial), and from_rep builds an unusable object (C101_from_rep).
* repr(SON_adjoint(n)) raises for every n (C101_adjoint_repr); SON_adjoint.create_trivial returns a representation of dimension n (C101_adjoint_create_trivial).
* decompose_rep_into_irreps on an irreducible representation: the computed commuting matrix is a scalar plus noise, and non-symmetric noise can have nearly parallel eigenvectors. gram_schmidt then drops one and the function silently returns a smaller block (C104_scalar_noise). Symmetrising the matrix and using eigh would avoid this for unitary representations.
* unique_with_tol raises ValueError (or splits a value) when three computed copies of one value spread over more than tol (C104_unique_raises).
* hermitian generators are rejected in every floating-point run as well (C110_complex_false); the real array of C18 is the cause
* `util.direct_sum` always allocates `complex128`, so a sum of real representations is complex. `jax_utils.exp_map` then raises `TypeError` on every `direct_sum` and on every `ReducedRep` of `O3`, `Z2` or a finite group that is more than one irrep.

Further observations from reading, without a theorem of their own:

* `ReducedRep.__repr__` (`reduced_rep.py` line 139) writes `Q^{-1}` inside an f-string, so it prints `Q^-1`.
* `tensor_product(MulIrrep, MulIrrep)` reads `.Q` and `.irreps` of the product of the two `rep`s; with generic representations inside,
  that product is a `GenericRep`, which has neither, and `AttributeError` is raised.
* The product of two `SU3` irreps consists of `SUN` objects, whose `iterator` raises `NotImplementedError`; `create_trivial` of such an
  irrep raises.
* The tests of the coefficients of SU(3) and SU(4) only use labels for which the defects of C49 do not show.
* The recursion of `_reduced_tensor_product_basis` computes the basis of the same sub-tuple of indices again for every permutation.
