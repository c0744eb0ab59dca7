# Formal model of QuSpin — design

## Layout

* `lean/Verif/Spec/*.lean` — specifications: what the English property says, written without reference to the model.
* `lean/Verif/Model/*.lean` — the model: one Lean definition per function of the code, each citing file and lines in `/repo`.
* `lean/Verif/Proof/*.lean` — helper lemmas.
* `lean/Verif/Props/*.lean` — the property theorems (`Cnn_...`), each with a non-vacuity `example` beside it.
* `seeded/LOG.jsonl` — mutation log (realistic bugs put into a scratch copy of the model, and which theorems noticed).

## Trusted base

* Lean 4.33.0's kernel. Every theorem uses at most the axioms `propext`, `Classical.choice`, `Quot.sound`; `AXIOMS.md` lists them theorem by theorem.
* Which lines of the code are modelled, and which functions are not, is listed file by file in `COVERAGE.md`; `DEFECTS.md` lists the theorems
  that show a property to fail.
* The reading of the Python/Cython/C++ sources: the model is written by hand from the text, nothing is extracted or run.
* Number idealisation: floating point and complex numbers are replaced by exact elements of a commutative ring/field
  (or ℝ/ℂ where trigonometric functions or square roots are essential). Rounding, `NaN` propagation and tolerance
  comparisons are not modelled unless a definition says so.
* Machine integers are modelled exactly (wrap-around mod 2^w) where the property is about widths; elsewhere as `Nat`/`Int`
  with the no-overflow side condition stated.
* numpy/scipy, BLAS, OpenMP runtime, the Cython compiler, pickling, zip files, and process management are outside the model;
  their contracts are taken as parameters (recorded per definition).

## Plan per property

* **C01** Fixed-particle-number bases of two-level sites are complete. Model Gosper's step on w-bit words and the enumeration loop; prove step = least larger word of equal popcount, then that the loop lists the sector (induction on the list of sector members).
* **C02** Fixed-particle-number bases of multi-level sites are complete. Model the digit algorithm on Nat with base sps; prove it yields the next larger number of equal digit sum; then as C01.
* **C03** Counting particles is exact. Model the SWAR count for any number of bytes; prove = popcount mod 256 by induction on bytes; exact iff all sites lie in the counted bytes and there are fewer than 256 particles; counterexamples otherwise.
* **C04** Spinful-fermion sectors are complete. Model the two-species successor; product order enumeration.
* **C05** A user map acts on a two-level configuration as the stated site permutation. Model the direct map loop and the compiled network; prove testBit characterisation.
* **C06** A user map acts on multi-level configurations as the stated site permutation. Digit characterisation by induction on sites.
* **C07** Symmetry representatives are canonical. Model the odometer; prove it visits every exponent vector; max argument.
* **C08** A representative is kept exactly when its symmetrised state is non-zero. Same odometer; norm as sum over the stabiliser; non-zero projection.
* **C09** Symmetry blocks partition the Hilbert space. Counting argument over characters of a finite abelian group.
* **C10** Spin operator strings act as products of single-site matrices. Model op; spec = product of 2x2 site matrices acting on configurations; induction on the string.
* **C11** Fermionic operators satisfy the canonical anticommutation relations. Corollary of a sign lemma for the op model.
* **C12** Boson and higher-spin operator strings act as products of truncated single-site matrices. As C10 with sps levels; the fall-through of 'z' is proved as a defect.
* **C13** Operators in a symmetry-reduced basis are the restriction of the full operator. Model general_op's phase and norm; prove equality with projected-state matrix element.
* **C14** Basis construction does not depend on the number of threads. Model strided splitting + merge + sort; permutation argument and uniqueness of sorted lists.
* **C15** Basis construction never overruns the requested block size and reports shortage consistently. Model the memory test; invariant; counterexample at exact fit.
* **C16** Looking up a state finds exactly the states of the basis. Model lower_bound and prefix blocks; prove correct for all sorted arrays.
* **C17** State strings and integers are inverse encodings. Digit encode/decode round trip.
* **C18** Parallel sparse matrix-vector product equals the serial one. Model merge path search and per-thread loops and fix-up; prove equal to serial sums.
* **C19** CSC and DIA products are right for every schedule and stride. Permutation invariance of commutative accumulation; memory indexed by addresses modulo the address space, so that strides of every sign are covered.
* **C20** Hamiltonian arithmetic is pointwise in time. Association lists of (function, matrix) in insertion order, keys compared by
  Python's hash (`PyHash`, arbitrary), containers tracked (python's `*` depends on them), almost zero matrices dropped.
  Every operation is proved up to threshold times weight of the drives; whole expressions are proved exactly for threshold zero.
  Defects: threshold, dense times dense, `H**0`.
* **C21** Arithmetic on a hamiltonian does not change other objects. Heap model with matrix references; counterexample history; frame theorem for the non-aliasing operations.
* **C22** In-place multiplication agrees with out-of-place multiplication. Same model; counterexamples for sparse matrices and
  for products of a time-independent with a driven hamiltonian; theorems for numbers, arrays, time-independent `H`, two driven ones.
* **C23** Parameter defaults do not leak between calls. State machine with the shared default dictionary; counterexample; partial theorem.
* **C24** Reading a transpose or adjoint does not modify the object. State machine of flags; counterexample; partial theorem.
* **C25** Sorting, conjugating and expanding operator strings preserves the operator. Semantics of strings as operators; sort/hc/expand preserve semantics.
* **C26** The hermiticity check accepts exactly Hermitian operator lists. Counterexamples both ways; partial theorem for duplicate-free lists.
* **C27** Consolidating operator lists preserves the operator. Fold with merging; semantics preserved; counterexample for differing drives.
* **C28** Products, powers and conjugates of drive functions are pointwise. The four classes of `_functions.py` with hash lists and
  `__contains__`; expression trees; evaluation homomorphism under `NoCollision`. Defects: conjugates of products, squares of
  conjugates, `hash(-1) == hash(-2)`.
* **C29** Partial traces. Index bijection by digits; partial trace as a sum.
* **C30** Tensor bases give Kronecker products. Index arithmetic of kron.
* **C31** Photon ladder strings. Integer level tracking, squared amplitudes.
* **C32** Square-lattice symmetry maps are symmetries of the lattice. Arithmetic on site coordinates mod Lx, Ly.
* **C33** Parallel evaluation over symmetry blocks preserves order and terminates. Chunking function; transition system with arbitrary interleaving, inductive invariant, progress.
* **C34** Block-diagonal hamiltonians keep every drive with its operator. Counterexample; partial theorem.
* **C35** The integer type chosen for a basis is wide enough. Arithmetic of widths; counterexample for boson hops; partial.
* **C36** The period attached to a user map is its order. Signed permutations; order computation loop.
* **C37** Saved operators load back with the same keys. String model of key parsing; counterexample; partial.
* **C38** One-dimensional momentum/parity/inversion blocks. Bit/digit models of shift, reflection, inversion; check-state loop.
* **C39** Lanczos basis. Inner product space over ℝ/ℂ; induction; counterexample for breakdown mismatch.
* **C40** Floquet time vectors split consistently. Index arithmetic; counterexample for down.
* **C41** Renyi entropies. Real analysis; counterexample.
* **C42** Projectors to and from the full space. Sums over orbits.
* **C43** Conserved photon bases restrict the tensor operator. Sector restriction of kron.

* C44 (added with the model of matrix assembly): the in-place loop of `general_inplace_op_core` is
  modelled column by column in an arbitrary order, and shown to add the action of the assembled matrix.
* C45 (added): `spinless_fermion_map_bits` with its merge sort and exchange counter; the sign is compared with
  the sign of sorting the creation operators.
* C47 (added): the `Acts` hypothesis of C07-C13 for fermionic maps with their signs: proved without inversions, refuted by
  general theorem for the particle-hole map (square is `(-1)^(N/2)`) and by witness for its commutator with translation.
* C48 (added): sparse products with several vectors. Loops with moving pointers over a memory indexed by addresses; the
  second branch for CSR never moves to the next column: defect theorem.
* C49 (added): options of `matvec`. Wrapper functions; the public `matvec` passes constants: defect theorem.
* C46 (added): `check_symmetry_maps`; the comparison composes the maps on signed site labels. Correct for maps that each
  invert every site or no site; false in both directions for
  partially inverting maps, each with a proved witness.
* C05 was carried out for the whole generator `gen_benes`: the invariant of the looping algorithm is
  `Proof.Benes.Inv`/`Walk` in `Proof/BenesGen.lean`; the generator never reads an open entry, stops, and the
  network moves bit `v` to bit `c v`.
* C53 (added): in-place sums of hamiltonians; same model as C20. `-=` reads an undefined name for shared drives and arrays.
* C54 (added): `project_to`; same model as C20. Arrays are right, sparse matrices wrong for driven operators.
* C50 (added): the constructor; consolidation (C27) followed by the dictionary of drives. Drives with colliding hashes replace each other.
* C51 (added): evaluation routes of the hamiltonian class (`Model/Evaluate.lean`): stored matrices with formats, product routines, all
  conversions; refinement to `S + sum f(t) D`.
* C52 (added): right-hand sides of the equations of motion, `evolve` with an exact solver as parameter (`Model/Evolution.lean`).
* C55 (added): `update_matrix_formats` with the state left behind by exceptions (`Model/Formats.lean`).
* C56 (added): `ED_state_vs_time`; solution of the differential equation by termwise differentiation.
* C57 (added): `expt_value`, `quant_fluct`, `matrix_ele`.
* C21: heap of matrices, objects, variables (`Model/Heap.lean`); frame invariant per operation, separation invariant over histories.
* C25, C26: operator strings as operators (`Spec/Strings.lean`), `_sort_opstr`, `_hc_opstr`, `_expand_opstr`, `_non_zero`, `expanded_form`, `check_hermitian` (`Model/OpStrings.lean`); exactness of the hermiticity check by linear independence of strings on distinct sites.
* C58 (added): `check_pcon` on the same model.
* C23: histories of calls with shared dictionaries (`Model/QuantumOperator.lean`); invariant relating each dictionary to what was written into it.
* C37: archive as a list of named files (`Model/Archive.lean`), keys as character lists; exact characterisation for one operator.
* C59 (added): `quantum_operator` arithmetic on the heap of C21 (`Model/QOpHeap.lean`); frame lemmas per statement, induction over programs.
* C24: `exp_op` objects shared by variables (`Model/ExpOp.lean`) and the flags of `quantum_LinearOperator` (`Model/LinearOp.lean`); induction over histories.
* C60 (added): grids of `exp_op`; loop invariant along the grid with Mathlib's matrix exponential.
* C40: `Model/FloquetTimes.lean` models `Floquet_t_vec` over exact reals.  Closed forms for the vector and the segments; partition of
  times and stroboscopic indices; `get_coordinates` is division with remainder for every tolerance below the time step.  Defects: the
  stroboscopic values of `down` are shifted by one point, `const` is missing without ramps, `up.tot` is not `up.f - up.i`.
* C39: `Model/Lanczos.lean` models both Lanczos routines and the generator of vectors over exact complex numbers; `Spec/Lanczos.lean` says
  what a Lanczos basis is.  Orthonormality by induction over the iterations.  Defects: `lanczos_full` drops a vector on breakdown, an
  eigenvector as start vector divides by zero, `list(Q_T)` repeats the last vector, a tolerance of the user spoils the normalisation.
* C61 (added): `expm_lanczos` and `FTLM_static_iteration` on top of the Lanczos specification of C39; eigenvectors of the tridiagonal matrix give eigenvectors of `A` on a closed space, so the exponential is computed eigenvector by eigenvector; moments by induction on the power (band structure of powers of a tridiagonal matrix).
* C62 (added): `LTLM_static_iteration`; the quadratic form is moved from the Ritz to the Lanczos basis. Only when nothing is cut off; two defect theorems for the cut.
* C29: `Model/PartialTrace.lean` models `_reduce_transpose`, both ways of shuffling (numpy transpose and the C++ loop), the reshapes and the
  partial traces of dense, sparse and mixed states; `Spec/PartialTrace.lean` defines the partial trace as a sum over configurations.  Mixed
  radix numbers, groups of consecutive sites sorted back to all sites.  The order of Python's set of remaining sites is an input of the model
  (checked by hand: `set(range(9))-set((0,2,3,4,5,6,7))` is walked as `8, 1`).  Defects: rdm_B is conjugated, may come in a non-ascending
  order, and rows of sparse states are divided in double precision.
* C30 (`Model/Tensor`, `Spec/Kronecker`): the dense arrays of `tensor_basis.Op` as lists of (element, row, column); induction over the factors (nested to the right, which is how the constructor nests them) that the entries are those of the Kronecker product; `index` in mixed radix.
* C31 (`Model/Tensor`, `Spec/Kronecker`): `ho_basis.Op` with its fixed-width row array; refinement to ladder operators on finitely supported sequences (no truncation).
* C43 (`Model/Tensor`): `photon_basis.Op` for conserved totals, with the eight-bit photon numbers, python's negative indexing and the mutated argument.
* C41 (`Model/Entropy`, `Spec/Entropy`): the formulas of `_ent_entropy` on the spectra of C29's matrices; singular value and eigenvalue routines are functions with a contract (the decomposition multiplies back to the matrix).  The spectra agree up to zeros because the characteristic polynomials of `AB` and `BA` do.
* C32: square.py is modelled in full (maps as lists over all sites, iterators as lists of blocks; the generator that changes the dictionary it has yielded is modelled by the pair "content when yielded, content afterwards"). The geometric action is proved with arithmetic modulo Lx, Ly on coordinates; group relations, bonds and periods (via `processMap`, C36) follow from it. The set of visited momenta is characterised exactly; skipped momenta, the `None` map and the lost `zblock` are proved as defects.
* C38, C63, C66: the bit operations of the three families of one-dimensional bases (hard-core, bosons, spinful fermions) are modelled with the machine width (`Model/Chain.lean`), also the CheckState functions and the filters of the make functions. `Spec/Chain.lean` gives the geometric maps; the bit operations are proved to be these maps (bits, digits, fermionic sign as a product over reversed pairs), the maps to commute and to have their periods, and the tests to select the representatives of `Spec/Symmetry.lean`. Cosines and momenta are exact real numbers. Not modelled: CheckState_T_P, T_P_Z, T_PZ.
* C64, C65: `refstate.pyx` and `op_templates.pyx` are modelled in `Model/Chain.lean`, `Model/ChainOp.lean` (one column of the matrix for one operator string; the string's action on a configuration is a parameter). C64 is proved by following the comparisons (a fold whose invariant is "best of the group elements seen so far"). C65 reduces to a general statement about columns (`Proof/ChainMatrix.lean`): if every column finds the representative with exponents and sign, and the stored norms are those of the projections up to a common factor, the assembled matrix is the restriction; phases are compared with the characters, including the real branches for momenta 0 and pi.
* C67, C68: `Model/ChainPlain.lean` models the choice of the integer type, the enumeration loops of the three one-dimensional cores (`hcp`, `boson`, `spf`) with their successor functions, the truncation and reversal or sorting in `basis_1d.__init__`, and the two ways of finding the row of a matrix element (`op_template`, `n_op_template`). Sectors: the successor functions are shown to run through the sector in increasing order (Gosper's loop, digit sums), the widths to suffice. Memory beyond what was written is the parameter `junk`; sorting is a parameter with the contract `Spec.SortsStates`.
* C69: `Model/ExpmParallel.lean` models the parallel region of `expm_multiply_parallel.h` as phases between barriers; in each phase the threads' bodies are interleaved in any order, and the product with the matrix is any execution of the parallel product of C18. The result is shown to be the Taylor series of `Spec/ExpmParallel.lean` by showing that bodies of different elements do not interfere. The limit uses Mathlib's exponential series. Observed but not modelled: `set_a(a, dtype=...)` uses an undefined name `A` and raises NameError.
* C70: `Model/ChainVec.lean` models `_get_norms` and the loops of `_get_vec_dense`, `_get_vec_sparse` and `_get_proj_sparse` over an array of states moved in place, with a list of sections (apply, add, undo) for the blocks. The loop is evaluated once and for all (`runRounds_eq`): sections leave the state unchanged, and what is added is a sum over translations and sections, which is shown to be the projection of `Spec/Symmetry.lean`. The norms are those of C63.
* C71: representative / normalization / get_amp of the general bases. The stores of the threads to the output arrays are modelled one by one (`Model.Amp.Representative`), including the branch where every thread of the team runs the whole loop; the last store to an element is the last store of some thread, and that is the same value for all of them. Loops that stop on an error flag are `parFor` with an arbitrary order and arbitrary visibility of the flag. Amplitudes are related to `Spec.symState`. Not modelled: conversion and checks of user arrays.
* C72: Op_bra_ket and Op_shift_sector of the general bases. The state of a thread is its array of exponents, with arbitrary initial content; pieces of the kets are processed one after the other by each thread (`schedule(static)`). `Spec.Shifts` says that an operator changes the quantum numbers; the matrix element between two sectors is then the sum over the images of one representative (`Proof.BraKet.element_between`). Not modelled: real vectors in Op_shift_sector, conversion and checks of user arrays.
* C73: diag_ensemble (Model/DiagEnsemble.lean) on exact numbers with NaN as `none`. `Spec.Quench.TimeAverage` is the limit of integrals; solutions of the equations of motion are arbitrary (`Proof.DiagEns.evolve` derives their form). Not modelled: the entanglement entropy Srdm_Renyi (the reduced density matrices are the subject of C21/C22), rounding, N=None.
* C74: semi-momentum blocks (Model/SemiMomentum.lean). The specification (Spec/SemiMomentum.lean) uses matrices on all configurations: the translation U, the reflection R with R U R = U^-1, `InBlock`: (U + U^H) v = 2 cos(theta) v and R v = p v. Proof: the algebra of the cosine and sine sums (SemiAlgebra), orbits of the dihedral group (SemiOrbit), overlaps (SemiMatrix, SemiBlock), which entries are kept (SemiKeep), the two-fold entries in the loops over rows and columns (SemiList), completeness and matrix elements (SemiBasis), chains (SemiChain). Comparisons of floating-point cosines with -1 and 1 are comparisons of real numbers.
* C75: get_vec and get_proj in semi-momentum blocks, on the model of the loop of C70/C71 (Model/ChainVec.lean) and the states of C74. Proof/SemiVec.lean shows that the loop adds a state and its translates with cosine or sine, that two entries of one configuration do not mix, and that the norms read back from (N, m) are the norms of the states.
* C76: blocks of momentum, reflection and inversion (`t_p_z`): Model/SemiThree.lean. The states are 1 + zZ applied to those of C74. Proof/ThreeOrbit.lean: the three operations on configurations, representatives. Proof/ThreeKeep.lean: each of the ten codes agrees, up to a factor of the norm, with the block of momentum and one reflection (P, or P followed by Z). Proof/ThreeBlock.lean, ThreeBasis.lean: overlaps, basis, matrix.
* C77: vectors for `t_p_z` blocks: the loop of Model/ChainVec.lean with four sections adds up (1 + zZ)(1 + pP) applied to the waves (Proof/ThreeVec.lean); the norms equal those of C76 while `M // (L+1)` is below 128.
* C78: the checks as closure of the sorted list of terms under a move of terms (Model/CheckSymm.lean); soundness: moved and sorted terms are conjugated operators, the move is injective, so a closed list without repetition is permuted (Proof/CheckSymm.lean, CheckSymmMoves.lean); exactness by independence of the terms (C26) and finite order of the move (Proof/CheckSymmExact.lean). The chain of spinful fermions is in Props/C78Spinful.lean: the two halves of a term are moved and sorted separately, and words of different orbitals are exchanged with the sign of their fermions.
* C79: class `Floquet` (Model/Floquet.lean) with scipy routines as arguments; steps by induction over the list, continuous drives by uniqueness of solutions (constant overlaps, C52); QR of eigenvectors of a unitary matrix by "upper triangular and unitary is diagonal"; quasienergies from the argument (Proof/Floquet.lean).
* C80-C82: `tools/misc.py` (Model/Misc.lean) with arrays that carry their shape; projection by associativity, hamiltonians through C54; relative entropy by log x <= x - 1; spacings by induction over the list.
* C83: `obs_vs_time` (Model/ObsVsTime.lean) on top of the models of C56 and C57; arrays with times are lists of slices, generators lists of states; values by mapping over the list of times. C84: the wrapper `ent_entropy` (Model/EntWrapper.lean) with `basis.ent_entropy` as contract.
* C85-C87: the decision logic of the constructors of the one-dimensional bases (Model/ChainInit.lean): which function of the basis module is called with which labels and sectors. Quantum numbers are eigenvalue equations for an arbitrary family of linear maps (Spec/ChainLabels.lean); proved by cases over the labels. Sectors by counting particles of configurations.
* C88: `block_ops` is modelled with its dictionaries of bases, projectors and hamiltonians and its flags (`Model/BlockOps.lean`); calls are
  transitions, so a history is a list of calls.  Invariant: what is kept belongs to the bases of the object.  The motion in the full space is
  the specification (`Spec/BlockOps.lean`): a curve that satisfies the Schrödinger equation, respectively the matrix exponential.  Not
  modelled: times given as a number, machine precision, the processes (`_generate_parallel` is C33, joblib is assumed to keep the order).
* C89: constructor, products and expectation values of `quantum_LinearOperator` (`Model/LinearOpCalls.lean`), with `basis.Op` as lists of
  matrix elements; the specification is the sum of elementary matrices.  Not modelled: dtypes, the checks of the operator lists (C25, C50, C78),
  sums with other operators (they return `NotImplemented`), eigsh.
* C90: `check_hermitian` and `check_pcon` of photon bases (`Model/PhotonChecks.lean`, `Spec/PhotonList.lean`): the lists are extended to the
  product of chain and oscillator, sorted, conjugated and compared; soundness is an identity of matrices over spin and oscillator.
* C91: `Model/Embedding.lean`.  The singular value decomposition of `_combine_project_froms` is any decomposition of the columns into products.
  Photon numbers are computed in the integer type of the code.
* C92: `Model/TensorTrace.lean`, `Spec/TwoParts.lean`: arrays with shapes, in the order of memory.  Not modelled: sparse arrays, `squeeze`,
  stacks of density matrices in photon bases.
* C93: `Model/Oscillator.lean`: real numbers with not-a-number and minus infinity; scipy's `binom` and the terminating `hyp2f1` by their definitions.
* C94: `Model/UserBasis.lean`: `op`, `check_state` and `map_state` of `user_basis_core.h` over arbitrary user functions, the order of the blocks and the checks
  of the particle sectors; basis construction, search and matrices are those of C08, C14, C16, C13.  Not modelled: signatures and dtypes of the compiled
  functions, `count_particles` (C72 has the comparison), pickling.
* C95: permutations of commuting generators leave the projections unchanged (induction over the permutation, sums over the group).
* C96: `Model/GeneralInit.lean`: order of the maps and removal of trivial ones; equality of bases by equality of projections and orbits (C95).
* C97: `Model/GeneralSectors.lean`: the loops over sectors with the enumeration of C02; what the constructors make of lists.
* C98: `Model/ProjectCalls.lean`: the checks and branches of the three functions with shapes; case analysis.
* C99: `Model/ExpmObject.lean`: constructor, `set_a` and `dot` of the class as functions on its attributes, types included; induction over histories; the compiled part is C69.
* C100: `Model/CsrMatvecOld.lean`: the checks and the two parallel loops of the old `csr_matvec`; from the merge-based product of C18.
* C101: `partial_trace` of lattice bases: checks, dispatch on the form of the state, projection to the full space by an arbitrary projector, helpers of C29; theorem over all forms of states at once.
* C102: the methods of `quantum_operator` over ℂ as functions of a list of items (name, stored matrix, routine); the specification is the sum of the matrices with the couplings. Products by induction over the completed parameters, which are a permutation of the items; formats by induction over the history of calls. Defects as theorems about the same functions.
* C103: `commutator` and `anti_commutator` as compositions of the products and differences of C20, with the theorems of C20 for each; `as_dense_format` in the heap model of C21, `as_sparse_format` as the call of `update_matrix_formats` of C55.
* C104: the checks of `inplace_Op` around the core loop of C44, in both versions, over arrays with shape, type and flags; the result is compared with the matrix that `_make_matrix` builds from the triplets of `Op`, by induction over the list of terms.
* C105: the decisions of `hamiltonian.evolve`; `evolve` over a heap of arrays with the sharing of memory between caller, solver and generated states, consumed by an arbitrary program; invariants by induction over the times, refinement to the list branch of C52.
* C106: `hamiltonian.__init__` as a function of its arguments into exceptions or (size, static matrix, dictionary of drives); the sum by induction over both lists, refusals by inversion of a successful construction.
* C107: the calls from the arguments to exceptions or a dictionary of optional entries, numpy's decompositions as functions with contracts; keys by inversion of a successful call, values by C41 and C92 for every column.
* C108: a basis as a record of attributes and a compiled object, commands make, blocks and pickle as partial functions with errors; an invariant over all lists of commands, with the lookups of C16.
* C109: the routines of LAPACK and ARPACK as parameters with contracts (one triangle is read; the beginning of a diagonalisation), the keyword handling of scipy and numpy as in their signatures; uniqueness of the sorted spectrum by the characteristic polynomial.
* C110: the translation of the simple to the advanced notation as functions on strings and integer sites, composed with the compiled operators of C11, the map check of C36, the subsystem checks of C101 and the symmetry check of C78; the advanced map, the digits of a state and the sorted terms are compared with a separate description of orbitals.
* C111: memory is a function from addresses to bytes, so that arrays may overlap and have any types. The loop of `general_basis_bitops.h` is run by every thread of the team (a parallel loop inside a parallel region), each iteration in three steps (read, read, write) that interleave freely. An invariant over the history (value of each element as a function of the number of writes so far, values in the registers) gives the final memory; instances of it give the result for separate arrays, for one thread, for idempotent operations, and the repeated operation in place. Left out: the length field of the boost integers, strided inputs (copied first), elements written in several pieces.
* C112: the loops over the bits of `general_basis_core.pxd` are recursive functions on natural numbers (on integers, with a bound on the number of rounds, where a negative number may enter); the value is proved by induction on the number. `get_basis_type` is modelled with the float that line 377 makes of the largest state of a full sector (53 bits, ties to even, `OverflowError`). Left out: numpy integers given to `python_int_to_basis_int`, `_np.object` of newer numpy versions, the keyword `dtype` of `basis_int_to_python_int`, which is documented but does not exist.
* C113: `get_Ns` in exact arithmetic (the code computes in double precision), the arrays as a bound on the number of entries that the loops over the sectors write. The number of kept states is bounded by the number of orbits of the cyclic group on words over the unit cells with a given charge; the orbits are counted with Burnside's lemma, and the words fixed by a rotation of order d are at most the d-th root of all words with the charge (a tuple of d of them can be put together to a word with the same charge). A state that is kept twice (reflections) stands for its own translates and for those of the reflected state. Left out: the rounding of the estimate, the widths of the entries of `N` and `M`.
* C114: model of `index`, `state_to_int` of the chains (`Model/ChainIndex.lean`): conversion of the argument, search, `squeeze`. Proved by induction over the digits and a characterisation of the list of places. Floats as arguments are left out. The text of `index` differs from that of the general bases, which an earlier comment in `Model/StateStrings.lean` overlooked.
* C115: model of the generator of the dispatch, of the calls of the compiled products as far as types and lengths go, and of `complex_wrapper` (`Model/MatvecTypes.lean`). The agreement of the two tables is proved for arbitrary lists of types; the accepted types are characterised by the specification `Spec/NumberTypes.lean`. Several vectors, the format DIA and non-contiguous arrays are left out here; rules of numpy for types are part of the model.
* C116: model of the estimates of the constructors (`Model/BlockMemory.lean`) in front of the loops of C14 and the test of C08. Orbit-stabiliser bounds the number of representatives by the number of states and of symmetric states; the counterexample counts the orbits of two exchanges on eleven sites, computed by the kernel. Bases with a particle number are left out.
