# Defects found

Every entry is a theorem of `lean/Verif/Props` that shows a property to fail for the model of the code, with its comment. The claims they belong to are
kept as partial theorems (see `MANIFEST.json`).

## C100 csr_matvec is the product of matrix and vector

* `Props.C100_fails_single`: In single precision every call is refused: the number `a` is passed on in double precision, for which there is no case.
* `Props.C100_fails_strided`: An `out` that is not contiguous is left as it was: the product goes to a copy.
* `Props.C100_fails_rows`: Matrices with more rows than columns are accepted, but only as many elements of the product are computed as the matrix has columns.
* `Props.C100_fails_columns`: Matrices with fewer rows than columns pass all checks, and row offsets that do not exist are read.

## C101 partial_trace of lattice bases reduces every given state, in every symmetry block

* `Props.C101_fails_sparse`: `partial_trace` documents sparse states, but the general classes refuse every one of them.
* `Props.C101_fails_mixed`: With `sparse=True` a density matrix of a block that is not the full space is taken for several pure states: in the block of two sites with one spin up (its states are the rows 1 and 2 of the full space), the density matrix of the first state gives two results, not one.
* `Props.C101_fails_shape`: One density matrix gives an array with three dimensions, although one state gives a matrix.

## C102 The methods of quantum_operator act as the sum of the matrices with the given parameters

* `Props.QOp.C102_fails_rdot`: `rdot` raises unless an output array is given.
* `Props.QOp.C102_fails_linear`: The linear operator for the parameter `J = i`: `rmatvec` multiplies with `i`, the adjoint of the operator with `-i`.
* `Props.QOp.C102_fails_update`: A failed change of the formats leaves an operator whose products raise: `a` has become dense, but still has the routine for CSR matrices.
* `Props.QOp.C102_fails_dense`: A dense matrix stays dense although "csr" is asked for, and no exception says so.
* `Props.QOp.C102_fails_out`: `toarray` and `todense` add the operator to the array they are given to fill.
* `Props.QOp.C102_fails_mix`: Operator strings next to a matrix under the same name are lost.
* `Props.QOp.C102_fails_zero`: If the matrix of a name vanishes, its parameter is refused.
* `Props.QOp.C102_fails_fluct_state`: `quant_fluct` raises an `IndexError` for every state given as an array with one dimension.
* `Props.QOp.C102_fails_fluct_mixed`: `quant_fluct` raises a `NameError` for every density matrix.
* `Props.QOp.C102_fails_one`: In a space with one state `expt_value` raises for a state, and returns the sum of the means for several states.
* `Props.QOp.C102_fails_basis`: A `hamiltonian` made from an operator has no basis, and there is none for an operator without matrices.

## C103 Commutators, anti-commutators and changes of the container of a hamiltonian

* `Props.C103_fails_dense`: The commutator of every two dense hamiltonians that do not depend on time is zero.
* `Props.C103_fails_mixed`: `commutator` and `anti_commutator` of a dense and a sparse matrix raise, although both are documented arguments.
* `Props.C103_fails_asarray`: Before version 2 of numpy `as_dense_format` raises for every hamiltonian with a dense static part.
* `Props.C103_fails_shared`: `G = H.as_dense_format(); G *= 2` changes the drive of `H`, but not its static part: `H` becomes neither `2 H` nor stays `H`.
* `Props.C103_fails_sparse`: `as_sparse_format` leaves all matrices of the drives as they are, dense or sparse, with its default `dynamic_fmt={}` and with every dictionary of formats, the documented argument.

## C104 inplace_Op acts with the matrix of Op and checks its arguments

* `Props.C104_fails_letters`: The `general` classes ignore letters beyond the number of sites: for every basis, `inplace_Op` with a longer string gives what it gives without the extra letters, whatever they are, while `Op` raises a `ValueError`.
* `Props.C104_fails_sites`: A site outside the lattice, or fewer letters than sites, makes `inplace_Op` of the `general` classes read outside its arrays or shift by a negative number, where `Op` raises a `ValueError`: here for the spin at site 1 of a lattice with one site, and for the string "z" on two sites.
* `Props.C104_fails_readonly`: The `general` classes refuse states stored in a read-only array, although nothing is written to it: for every basis and every list with at least one term, unless the array had to be copied because of its type or its order. The default version accepts it (`C104_default_partial`).
* `Props.C104_fails_empty`: On an empty basis, for which `Op` returns no triplets, both versions raise a `ValueError` even for states with zero rows: numpy cannot find the number of columns in `reshape((0,-1))`.
* `Props.C104_fails_shape`: The returned array need not have the shape of `v_in` and `v_out`: one state given as a column, of shape `(Ns,1)`, comes back with shape `(Ns,)`; several states in a basis with a single state, of shape `(1,m)`, come back with shape `(m,)`; arrays with three dimensions `(Ns,m,n)` come back with two.
* `Props.C104_fails_columns`: The default version does not check the shape of `v_out`: with fewer columns than `v_in` it writes behind the end of the rows (here for one state against two, and any operator with a matrix element), where the `general` classes raise a `ValueError`.
* `Props.C104_fails_more_columns`: With more columns than `v_in`, the default version accepts `v_out` and leaves the other columns as they are, where the `general` classes raise a `ValueError`.
* `Props.C104_fails_strided`: The default version does not check that `v_out` can be reshaped without a copy: given an array with three dimensions that is not contiguous, the result is written to a copy, and the array of the caller, which the documentation says is modified, is left as it was.

## C105 evolve solves the equation asked for and shares no state with the caller

* `Props.C105_fails_use`: The states a generator hands out are the arrays of the solver: a program that changes a state it received changes all later states. With `H = 0` and the initial state `1`, a loop that doubles each state in place (`psi *= 2`) receives `1, 2, 4` instead of `1, 1, 1` at the times `1, 2, 3`; if the initial time is among the times, also the caller's initial state is doubled.
* `Props.C105_fails_scalar`: At the initial time `evolve` with one time returns the caller's array itself (seen with the shape and type of a state), so that changing the result changes the initial state.
* `Props.C105_fails_caller`: In imaginary time the caller's array is changed if it holds several states and the initial time is among the times: the columns are rescaled in place to the norm of the whole array.
* `Props.C105_fails_integer`: In imaginary time an integer initial state and a real operator are accepted, but the call raises a `TypeError` if the initial time is among the times.

## C106 A hamiltonian made of strings and matrices is the sum of its entries

* `Props.C106_fails_imaginary`: A dense complex matrix given for a real type is accepted and loses its imaginary part (a sparse one is refused): `hamiltonian([sigma_y], [], dtype=float64)` is the zero operator.
* `Props.C106_fails_nested`: A matrix given as a nested list is refused if it has two rows, being taken for a malformed operator string, while nested lists of any other size are accepted (with the argument `shape`).
* `Props.C106_fails_basis`: A basis given together with matrices is not compared with them: a hamiltonian of another size than its basis is built.
* `Props.C106_fails_shape`: The argument `shape` is ignored if there are operator strings: any shape is accepted and the operator has the size of the basis.
* `Props.C106_fails_keywords`: Unexpected keyword arguments are refused next to operator strings and a basis, but ignored if there are only matrices.
* `Props.C106_fails_unchecked`: The checks of hermiticity, symmetry and particle number look at operator strings only: with checks that refuse everything, a matrix that is not Hermitian is accepted.

## C107 ent_entropy of tensor and photon bases returns what was asked for

* `Props.C107_fails_both`: `sub_sys_A="both"`, which is documented to ask for both density matrices, means the right part: nothing changes against `"right"`.
* `Props.C107_fails_rest`: Density matrices with `return_rdm="B"`: the answer never has `Sent_A`, which is documented as the default key.
* `Props.C107_fails_single`: Density matrices raise when the part that is asked for has one state only, although its entropy is zero.
* `Props.C107_fails_packed`: The density matrix of one sparse state without `sparse=True` comes packed into an array without axes.
* `Props.C107_fails_spectra`: Photon bases never return spectra, even if they are asked for.
* `Props.C107_fails_enforce`: Photon bases without conserved number ignore `enforce_pure=True`: four product states, which have no entanglement, are taken for one density matrix, and the one number returned is `-4 log 2`.
* `Props.C107_fails_columns`: Density matrices of a photon basis with a conserved number and `sparse=True` are taken for columns of pure states, where a tensor basis refuses them.

## C108 The answers of a general basis do not depend on its history

* `Props.C108_fails_empty`: A block without states (two sites, none up, odd parity) that is made and then given prefixes reads the first state of an empty array; the default keeps away from it.
* `Props.C108_fails_again`: Twelve spins, odd under the exchange of the first and the last site: 1024 states. The basis is made with an estimate of 4096 states, twice the number of states over the period as base_hcb.py:47 has it; calling `make()` on it again raises "estimate for size of reduced Hilbert-space is too low".
* `Props.C108_fails_user`: A user basis whose states come in any order is sorted by the constructor, but the table of prefixes was computed before: the state 4 is in the basis and is not found, so operators lose matrix elements.
* `Props.C108_fails_user_late`: A user basis constructed with `make_basis=False` and made later is never sorted: its states are in increasing order, and the state 1 is in the basis and is not found.

## C109 Diagonalisation returns the spectrum of the operator that was asked for

* `Props.C109_fails_triangle`: The raising operator of a spin: `eigh` reads one triangle and returns the numbers of another matrix without a message: those of 0 for the lower and of the hermitian part, twice, for the upper triangle (the characteristic polynomials are those of the completed matrices).
* `Props.C109_fails_uplo`: The documentation of `hamiltonian.eigh`, `hamiltonian.eigvalsh` and `quantum_operator.eigh` refers to numpy's functions for the arguments, but scipy's are called: numpy's only argument, `UPLO`, raises `TypeError`; `quantum_operator.eigvalsh` accepts it.
* `Props.C109_fails_empty`: For a space without states the eigenvectors come as an array of shape `(1, 0)` instead of `(0, 0)`; `eigh` with `eigvals_only=True` and `quantum_operator.eigsh` with `return_eigenvectors=False` return two arrays instead of one, unlike `hamiltonian.eigsh`.
* `Props.C109_fails_complex`: A real hamiltonian with a function of time that returns complex numbers (of zero imaginary part, say) can be diagonalised by `eigsh`, while `eigh`, `eigvalsh` and, for a dense operator, the call `H(time)` raise.
* `Props.C109_fails_unpack`: `quantum_operator.eigh(eigvals_only=True)` unpacks the array of eigenvalues: an error, except for two states, where it returns two numbers; `hamiltonian.eigh` returns the array.

## C11 Fermionic operators satisfy the canonical anticommutation relations

* `Props.C11_fails_at_257_sites`: Defect: on 257 sites (1024-bit type, the type the library selects for 257 sites) the full configuration violates `c_0 c_256 + c_256 c_0 = 0`.

## C110 The two notations of spinful fermions describe the same thing

* `Props.C110_fails_range`: Defect: sites outside of the lattice are not refused: on `L > 0` sites `n|` on "site `L`" is the density of spin down on site 0, `|n` on "site `-1`" the one of spin up on site `L-1`; general bases and the chain.
* `Props.C110_fails_map`: Defect: a simple map with entries `L, ..., 2L-1`, which are no sites, is taken for the exchange of the spins.
* `Props.C110_fails_entropy`: Defect: entropies of general bases in the simple notation: the number of orbitals is added to the sites of spin down instead of the number of sites. The default subsystem and every subsystem with a site of spin down is refused.
* `Props.C110_fails_index`: Defect: `index` of a number of spin down that does not fit in `L` digits returns a state with another number of particles of each spin.
* `Props.C110_fails_subsystem`: Defect: partial traces of the chain: "site `L`" of spin up is taken for site 0 of spin down.
* `Props.C110_fails_repeated`: Defect: a repeated term is not counted by the check: with the exchange of the two sites, `2 n₀↑ + n₁↑` (as two equal terms and one) is accepted, although the operator does not have the symmetry.

## C111 The bitwise functions on basis integers are element-wise, whatever the threads do

* `Props.C111_fails_inplace`: In place, `bitwise_xor(x,y,out=x)`, and likewise for `not` and the shifts: with two threads the operation may be applied twice: `12 ^ 2` gives 12, `~12` gives 12, `12 << 2` gives 192, `12 >> 2` gives 0, because the parallel loop stands inside a parallel region and every thread runs all of it (`general_basis_bitops.h:74-82`).
* `Props.C111_fails_types`: `bitwise_and` of an array of 32-bit and one of 64-bit integers is accepted, but the second is read as 32-bit integers: `[3,3] & [1,2]` gives 0 in the second place, and not 2 (`general_basis_utils.pyx:590-593`, `617-618`).
* `Props.C111_fails_overrun`: An `out` of 32-bit integers is accepted for an `x` of 64-bit integers, and the loop writes beyond its end (`general_basis_utils.pyx:482-483`, `500`).
* `Props.C111_fails_mask`: A mask that is every second element of an array of type `uint8` is read as if it were contiguous: with `[1,1,0,0][::2]` the second element is not selected, yet it is changed (`general_basis_utils.pyx:458-466`).
* `Props.C111_fails_width`: A 32-bit integer shifted by 32 places is whatever the machine makes of it, for instance the integer itself on a machine that takes the number of places modulo 32; the result should be 0 (`general_basis_bitops.h:32-41`).
* `Props.C111_fails_empty`: Empty arrays: `bitwise_and` returns an empty array, the shifts raise an `IndexError`, and so does every function if it is given an empty mask (`general_basis_utils.pyx:466`, `1018`).
* `Props.C111_fails_places`: The documentation allows any collection of integers as number of places, but every array of signed integers and every array of wide basis integers (as in the example of the documentation) is refused (`general_basis_utils.pyx:961`).

## C112 Integers keep their value between python and the basis types, and the chosen type holds every state

* `Props.C112_fails_scalar`: Numpy integers of the types `int32` and `int64` come back as they are: the result is no python integer, and arithmetic with it overflows.
* `Props.C112_fails_list`: A list with one integer below `2^63` comes back as a list; with one from `2^63` to `2^64 - 1` the result is the integer.
* `Props.C112_fails_empty`: An empty array of basis integers is not refused: what is returned is read from outside of it.
* `Props.C112_fails_negative`: `index` of a negative number never returns: the conversion shifts the number to `-1` and goes on forever.
* `Props.C112_fails_minimum`: The type is not always the smallest. For 32 sites with four states and all 96 particles the largest state is computed as a float and rounded up to `2^64`: the type has 256 bits, though all states of all sectors have 64. For 40 sites with two states and no particle it has 64 bits, though the only state is 0.
* `Props.C112_fails_overflow`: For 512 sites with four states the full sector raises `OverflowError`: the largest state does not fit into a float. All sectors together are accepted.
* `Props.C112_fails_numpy`: A number of particles that is a numpy integer is refused, and so is an empty list.

## C113 The memory reserved for one-dimensional momentum blocks suffices

* `Props.C113_fails_repeated`: A list of particle numbers may contain a number repeatedly, and then the memory does not suffice: for `spin_basis_1d(4,Nup=[0,0,0,0,0,0],kblock=0)` five entries are reserved and six are written, the last one beyond the end of the arrays.

## C114 Places of states in one-dimensional bases

* `Props.C114_fails_letters`: More than ten states per site: `int(s)` in base ten raises before the string is read in base `sps`. On two sites with eleven states each the string `"a0"`, ten bosons on site 0, denotes the state 110, which the bases of general lattices find; the chain refuses it.
* `Props.C114_fails_length`: A string that is too short is not refused: leading zeros may be left out, whatever the number of sites.
* `Props.C114_fails_twice`: In blocks of momentum and reflection a state may be held twice. For the chain of six spins with momentum 1 and even reflection, `index` of the state `110100` returns an array of two places instead of an integer, and `state_to_int` raises.

## C115 Types and lengths of the arrays of matrix-vector products

* `Props.C115_fails_output`: DEFECT: the type of `out` is never looked at. A complex vector and a real output of the same precision are accepted; the entries of all rows are written to the first place, and with one row the product writes 8 bytes beyond the end of the output.
* `Props.C115_fails_imaginary`: DEFECT: with a real vector and a complex output only the first 8 of the 16 bytes of an entry are written, the real part; the imaginary part keeps what was there, also with `overwrite_out=True`.
* `Props.C115_fails_rows`: DEFECT: an output longer than the matrix has rows is accepted, and the product runs over rows that the matrix does not have: it reads beyond `indptr`.
* `Props.C115_fails_columns`: DEFECT: a vector shorter than the matrix has columns is accepted, with and without `out`.
* `Props.C115_fails_refused`: DEFECT: products whose result has a type numpy knows are refused: a complex matrix with a real vector, and a matrix of 64 bit numbers with a vector of 32 bit numbers; and so is every matrix of integers.

## C116 Memory of the symmetry blocks of general bases

* `Props.C116_fails_exchanges`: Defect: the estimate for the even block of these two commuting exchanges is 1024, the block has at least 1152 states; the constructors of spins one half and hard-core bosons raise, with every number of threads. For bosons with two levels per site the argument `Ns_block_est` that the message asks for changes nothing.

## C20 Hamiltonian arithmetic is pointwise in time

* `Props.C20_fails_tiny`: C20 fails: with the threshold `100 * 2^-52` of double precision, `2^-52 * H` is zero for the matrix `H = 1`.
* `Props.C20_fails_dense`: C20 fails: the product of two time-independent hamiltonians with dense matrices is element by element; for the 2 x 2 matrix of ones the product is the matrix of ones instead of the matrix of twos.
* `Props.C20_pow_zero_fails`: C20 fails for `H ** 0`: it raises instead of giving the identity.

## C21 Arithmetic on a hamiltonian does not change other objects

* `Props.C21_fails_sum`: `C = A + B; C *= 2` changes `B`, if `B` has a drive that `A` does not have.
* `Props.C21_fails_in_place_sum`: `A += B; A *= 2` changes `B`, if `B` has a drive that `A` does not have.
* `Props.C21_fails_transpose`: `C = A.T; C *= 2` changes `A`.
* `Props.C21_fails_astype`: `C = A.astype(A.dtype); C *= 2` changes `A`.
* `Props.C21_fails_zero`: `C = A + 0; C *= 2` and `C = A**1; C *= 2` change `A`.

## C22 In-place multiplication agrees with out-of-place multiplication

* `Props.C22_fails`: C22 fails: for `H(t) = f(t) sigma_x` and the sparse matrix `sigma_z`, `H *= sigma_z` is `f(t) sigma_z sigma_x`, the negative of `H(t) sigma_z`, while `H * sigma_z` is right.
* `Props.C22_hamiltonian_fails`: C22 fails for hamiltonians too: for `H = sigma_z` and `G(t) = f(t) sigma_x`, `H *= G` is `f(t) sigma_x sigma_z`.

## C23 Parameter defaults do not leak between calls

* `Props.C23_fails_default`: After a call of operator `o` without parameters that does not raise, the same method raises for every operator `o'` that lacks one of the names, for the rest of the program (`q`).
* `Props.C23_fails_leak`: `C23_fails_default` for two operators of the example: `op0.tocsr()` and then `op2.tocsr()` raises although `op2.tocsr()` alone does not.
* `Props.C23_fails_caller`: The dictionary of the caller is changed: `{"J": 4}` has two entries after a call, and the same dictionary is refused by another operator.
* `Props.C23_fails_linear`: A linear operator works, and raises after another operator has been turned into a linear operator.
* `Props.C23_fails_linear_follows`: A linear operator follows later changes of the dictionary it was made with.
* `Props.C23_fails_small`: `dot` leaves out a parameter below the precision of the machine, `toarray` does not.

## C24 Reading a transpose or adjoint does not modify the object

* `Props.C24_fails_exp_T`: Defect: reading `.T` transposes the object itself.
* `Props.C24_fails_exp_H`: Defect: so does reading `.H`.
* `Props.C24_fails_exp_sandwich`: Defect: the same call `sandwich(C)` twice gives two different results, because the first call takes the adjoint of the object.
* `Props.C24_fails_linear_left`: Defect: for a Hermitian operator, `V * A` changes the results of later `A * V`.
* `Props.C24_fails_linear_T`: Defect: for other operators `.T` is the complex conjugate instead of the transpose.
* `Props.C24_fails_linear_diagonal`: Defect: the diagonal is never conjugated.
* `Props.C24_fails_linear_copy`: Defect: an operator with an off-diagonal string cannot be copied, so neither `copy()` nor `transpose(copy=True)` works.

## C25 Sorting, conjugating and expanding operator strings preserves the operator

* `Props.C25_fails_tensor`: The sorted form of a fermionic hopping term in a tensor basis lacks its sign, so that it is minus the operator.
* `Props.C25_fails_nonzero`: `expanded_form` of `xxx` on site 1 is empty; the operator is a quarter of `x`.
* `Props.C25_fails_drives`: `expanded_form` gives two terms with different drives the drive of the first.
* `Props.C25_fails_args`: With arguments of a drive in a list, as documented, `expanded_form` raises.

## C26 The hermiticity check accepts exactly Hermitian operator lists

* `Props.C26_fails_repeated`: `+` twice and `-` once on the same site is accepted; it is not Hermitian.
* `Props.C26_fails_split`: `+` with the coupling 1 twice and `-` with the coupling 2 is rejected; it is Hermitian.
* `Props.C26_fails_times`: Whatever the time `t` of the check: there are drives with which the list is accepted and not Hermitian at another time.
* `Props.C26_fails_tensor`: In a tensor basis the hopping of fermions is rejected; it is Hermitian.

## C27 Consolidating operator lists preserves the operator

* `Props.C27_fails`: C27 fails: a coupling of `2^-50` is dropped, although it is the whole operator.

## C28 Products, powers and conjugates of drive functions are pointwise

* `Props.C28_conj_fails`: The conjugate of a product of two functions is never built, whatever the hashes and the functions.
* `Props.C28_conj_square_fails`: The square of a conjugated function is built but cannot be hashed: it cannot be a key of the dictionary of dynamic terms, so a product of two hamiltonians with a conjugated drive raises.
* `Props.C28_product_fails`: C28 fails: the product of `f(t,-1)` and `f(t,-2)` is built as `f(t,-1)^2`.

## C29 Partial traces

* `Props.C29_fails_conjugate`: The reduced density matrix of the second site is returned as its complex conjugate.
* `Props.C29_fails_quotient`: The row of an entry is computed with double precision numbers: for 54 sites the last configuration gets the row 2 of a matrix with two rows.
* `Props.C29_fails_order`: Python walks through `set(range(9)) - set((0,2,3,4,5,6,7))` as `(8, 1)`: the second matrix then is the one for the sites in this order, not in ascending order, whatever `subsys_ordering` says. The two differ, e.g. for the state with only site 1 excited.

## C30 Tensor bases give Kronecker products

* `Props.C30_fails_nested`: A tensor basis as left factor is accepted by the constructor, but then no operator and no index can be computed.
* `Props.C30_fails_index`: The index of a level above the cutoff is not refused: it is the index of another product state.

## C31 Photon ladder strings

* `Props.C31_fails_room`: With 128 levels the levels are stored in eight bits. The string `-+` is `n + 1`, but the element of the highest level comes out as `-128` instead of `128` (for a real data type: NaN).

## C32 Square-lattice symmetry maps are symmetries of the lattice

* `Props.C32_fails_skipped`: The iterator does not visit all momenta: pairs that no reflection fixes are left out, so the union of the yielded blocks is not the whole space. On the 5 × 5 lattice `(1, 2)` is such a pair.
* `Props.C32_fails_none`: On every lattice with different even sides the iterator yields a block whose diagonal reflection is `None`.
* `Props.C32_fails_collect`: Collected in a list, the blocks of the spin-inversion iterator have all lost their `zblock`: a loop sees it, the list does not, because the same dictionary is changed after it was yielded.

## C34 Block-diagonal hamiltonians keep every drive with its operator

* `Props.C34_fails`: C34 fails: two drives `f`, `g` with the operators `1` and `2`. If python iterates over the set with `g` first, the hamiltonian is `g(t) 1 + f(t) 2` instead of `f(t) 1 + g(t) 2`.
* `Props.C34_vanishing_fails`: C34 fails: a drive whose operator vanishes in one block, but not in the other, raises an exception, whatever the order of the set: blocks of one state in which the operator is one and zero.

## C37 Saved operators load back with the same keys

* `Props.C37_fails_raises`: If a dense matrix has a name that contains `sparse`, the archive of the operator is written but cannot be loaded.
* `Props.C37_fails_overwritten`: Two sparse matrices named `x` and `sparse_x`: after loading there is one, named `x`.
* `Props.C37_fails_ending`: A name that contains the ending of the files loses it.
* `Props.C37_fails_empty`: An operator without matrices can be saved and not loaded.

## C38 One-dimensional momentum/parity/inversion blocks

* `Props.C38_fails_full_width`: For spinless fermions on exactly 32 sites (the basis integers have 32 bits) the translation has no sign: moving the fermion of the last site of two to site 0 should give `-1`.

## C39 Lanczos basis

* `Props.C39_fails_agree`: DEFECT: when the iteration stops because a number `b` is smaller than `eps`, `lanczos_full` leaves out the last vector that `lanczos_iter` has: the two results differ for every operator and start vector for which this happens.
* `Props.C39_fails_eigenvector`: DEFECT: if the start vector is an eigenvector, the first number `b` is zero and is not checked: every basis with more than one vector asked for ends in a division by zero.
* `Props.C39_fails_list`: DEFECT: `list(Q_T)` of the generator holds the last vector as often as there are vectors; it is never the basis.
* `Props.C39_fails_levels`: DEFECT: the example where `lanczos_iter` finds the two levels `±1` of the invariant subspace, and `lanczos_full` the level `0`, which is no eigenvalue at all.
* `Props.C39_fails_tolerance`: DEFECT: a start vector whose length differs from one by less than the `eps` the user gives is not normalised, but the generator normalises it: the tridiagonal matrix is not `Q† A Q`.

## C40 Floquet time vectors split consistently

* `Props.C40_fails_down`: DEFECT: the stroboscopic times of `down` are taken one point after the beginning of the segment's periods: they are not the times its indices point at, as soon as there are two points in a period.
* `Props.C40_fails_no_ramp`: DEFECT: without ramps the segment `const` is missing.
* `Props.C40_fails_up_duration`: DEFECT: the duration of the ramp `up` is not the difference of its ends.
* `Props.C40_fails_coordinates`: DEFECT: for a vector without periods `get_coordinates` raises for the one index there is.

## C41 Renyi entropies

* `Props.C41_fails_tensor`: For other parameters the logarithm is taken of the wrong number: with parameters above one the result is not a number, and below one it is `(1 - alpha) S - log (1 - alpha)` instead of the entropy `S`.
* `Props.C41_fails_zero`: The state `|0 0⟩` has no entanglement, but its entropy for `alpha = 0` comes out as `log 2`.
* `Props.C41_fails_tensor_product`: The same state in a tensor basis has the entropy `- log (1 - alpha)` for all parameters below one.

## C43 Conserved photon bases restrict the tensor operator

* `Props.C43_fails_large`: With 200 quanta the photon numbers do not fit into eight bits, and negative numbers count from the end of the array of elements: the photon number of the two states comes out as 144 and 145 instead of 199 and 200.
* `Props.C43_fails_twice`: `Op` appends to the list of indices of the caller, so the same call fails the second time.

## C47 Accepted fermionic maps form a symmetry group with their signs

* `Props.C47_particle_hole_fails`: The period found for it is 2, so on 2, 3, 6, 7, 10, … sites the map with its signs does not have the period the library uses.

## C48 Sparse products with several vectors are right for every memory layout

* `Props.C48_csr_fails`: The first row of a 2-row column-major array as output (`out[0:1]`, strides 1 and 2), the 1x1 matrix `(1)`, two vectors `1` and `10`: element `(0,1)` of the output stays 0 and `out[1,0]`, which does not belong to the output, is changed.

## C49 matvec and the functions of get_matvec_function honour overwrite_out, out and a

* `Props.C49_fails`: So `matvec(A, v, out=y)` and `matvec(A, v, a=2)` are wrong already for the 1x1 matrix `(1)` and the vector `(1)`: the returned value is 1 although `y + A v = 6` and `2 A v = 2`, and `out` still contains 5.

## C50 The constructor of hamiltonian builds the operator its lists describe

* `Props.C50_fails`: C50 fails: two terms with the same callable and the arguments -1 and -2. Python's hashes of -1 and -2 agree, so the second matrix replaces the first: `f(t, -1) M + 3 f(t, -2) M` is evaluated to `3 f(t, -1) M`.

## C51 All ways of evaluating a hamiltonian agree

* `Props.C51_rdot_fails`: C51 fails for `rdot` with default arguments: it raises for every operator and every state.
* `Props.C51_diagonal_fails`: C51 fails for `diagonal` of every driven operator with a dense static part: it raises.

## C52 Time evolution follows the equations of motion

* `Props.C52_vonNeumann_fails`: C52 fails for density matrices and operators that are not symmetric, for example `H = sigma_y` in CSR format, the format of every operator that is not diagonal: the state `ρ = 1`, which commutes with `H`, does not stay constant.
* `Props.C52_imaginary_fails`: C52 fails in imaginary time for several states: with `H = 0` and two normalised states the result at every time, also at the initial time, is two states of norm `√2`.
* `Props.C52_stack_fails`: C52 fails with `stack_state` for an array of several states: the output is never converted back, the call raises.

## C53 In-place addition and subtraction agree with the out-of-place operations

* `Props.C53_isub_fails`: C53 fails: `H -= G` raises for every `G` whose first drive function is a drive function of `H`, although `H - G` is fine; in particular `H -= H` for every driven `H`.
* `Props.C53_isub_dense_fails`: C53 fails: `H -= M` raises for every dense `M`.

## C54 project_to is a change of basis at every time

* `Props.C54_fails`: C54 fails: for `H(t) = f(t) sigma_x` and the sparse matrix `P = sigma_z` the code returns `P P^dagger H(t) = f(t) sigma_x` instead of `P^dagger H(t) P = -f(t) sigma_x`.

## C55 Changing matrix formats never changes the operator

* `Props.C55_string_fails`: C55 fails for a string: the time-dependent matrices get the format of the static part instead of the requested one.
* `Props.C55_exception_fails`: C55 fails after an exception: if the static part is stored in CSR format, `"csc"` is requested for it, and the name of a time-dependent part is not found, then the call raises and from then on products use the transposed static matrix.

## C56 Evolution in the eigenbasis solves the equation of motion

* `Props.C56_fails`: C56 fails in a space of dimension one: every call raises.

## C57 Expectation values, fluctuations and matrix elements

* `Props.C57_one_dimensional_fails`: C57 fails in a space of dimension one (for example a symmetry sector with one state): the expectation value of a state raises, and so does that of a 1 x 1 array.
* `Props.C57_fluctuation_fails`: C57 fails for operators that are not Hermitian: for `H = |0⟩⟨1|`, where `H² = 0`, and the states `|1⟩, |1⟩, |1⟩` the library returns the fluctuations 1, 1, 1 instead of 0, 0, 0; for the single state `|1⟩` it returns 0.

## C58 The particle-conservation check accepts exactly conserving operator lists

* `Props.C58_fails_accepts`: `xxx` on one site is accepted; it does not conserve the magnetisation.
* `Props.C58_fails_drives`: `+` with a drive `f` and `-1` times `+` with a drive `g` is accepted; it does not conserve the magnetisation if `f ≠ g`.
* `Props.C58_fails_rejects`: `+z` and `z+` on one site are rejected; their sum is zero.

## C59 Arithmetic with quantum operators is correct and leaves other operators unchanged

* `Props.C59_fails_copy`: Defect: `A.copy()` shares the matrices of `A`: scaling the copy in place scales `A`.
* `Props.C59_fails_transpose`: Defect: so does the transpose.
* `Props.C59_fails_sum`: Defect: `C = B + A` shares the matrices of names that only `A` has: scaling the sum changes `A`.
* `Props.C59_fails_user`: Defect: scaling an operator scales the user's matrices.
* `Props.C59_fails_neg`: Defect: `-A` changes `A`.
* `Props.C59_fails_constructor`: Defect: an operator made from two dense matrices under one name changes the first matrix of the caller.
* `Props.C59_fails_twice`: Defect: one matrix under two names is scaled twice by `*=`.
* `Props.C59_fails_self`: Defect: `A -= A` stops after the first name.

## C60 Matrix exponentials at grid points

* `Props.C60_fails_set_grid`: Defect: `set_grid` with default arguments raises.
* `Props.C60_fails_hamiltonian`: Defect: `dot` and `rdot` with a hamiltonian raise for every grid.
* `Props.C60_fails_sandwich_shift`: Defect: `sandwich` without a grid ignores the shift.
* `Props.C60_fails_sandwich`: Defect: without a grid `sandwich` evolves in the wrong direction; the documented result is the second one.
* `Props.C60_fails_complex`: Defect: a complex grid is accepted with `iterate=True`, but then `sandwich` is wrong: at the point `i` for `a = 1`, `O = π/2`, the factors cancel in the right result, but not in the computed one.
* `Props.C60_fails_shift`: Defect: with the documented `exp(O - shift)` the shift of `O = 0` by `iπ/2` would give `-i`.

## C62 Thermal averages of the low-temperature Lanczos method

* `Props.C62_fails_shift`: Adding a constant to the Hamiltonian changes no thermal average. But for every input there is a constant, such that the iteration for the shifted Hamiltonian, with shifted Ritz values and the same vectors, ends with an `IndexError`.
* `Props.C62_fails_identity`: The Ritz value 40 is cut off, and with it the second Lanczos vector: the thermal average of the identity comes out as one half.

## C63 One-dimensional symmetry blocks store exactly the representatives

* `Props.C63_fails_both_sublattices`: Two sites with three levels each, a unit cell of two sites, `k = 0`, `zA = zB = 1`: the configuration with both sites in the middle level is invariant under all symmetries, hence a representative, but it is not stored.

## C64 One-dimensional bases find the representative of every state

* `Props.C64_fails_product`: Two sites with spinful fermions, both with spin up or both with spin down (in the basis integer: `0011`). Reflection and exchange of the spins take this state to minus the representative `1100`; the code reports plus.

## C65 Matrices in one-dimensional symmetry blocks are restrictions of the operator

* `Props.C65_fails_product`: Two sites with spinful fermions: in the block of reflection times spin exchange with eigenvalue 1, the matrix built for the invariant operator that exchanges `0011` and `1100` is not its restriction: the diagonal element of the state `(|1100⟩ - |0011⟩)/√2` comes out as `+1` and is `-1`.

## C66 Sublattice blocks act on the documented sublattices

* `Props.C66_fails`: Defect: on a spin-1/2 chain of any even length the empty configuration does not go to the one with the even sites inverted.

## C67 One-dimensional bases without symmetry blocks list exactly the configurations of the sectors

* `Props.C67_fails_empty`: A basis of two sites with two particles of either spin and without doubly occupied sites has no configurations, but the array of states is uninitialised memory.
* `Props.C67_fails_width`: Fermions with spin on 17 to 64 sites, without particle numbers: the integer type has fewer than `2L` bits, and the configurations found repeat themselves.
* `Props.C67_fails_repeated`: Repeated particle numbers give repeated configurations.

## C68 Matrices in one-dimensional bases without symmetry blocks

* `Props.C68_fails_double_occupancy`: Two sites without doubly occupied ones, without particle numbers: the number operators of an up spin on site 1 and a down spin on site 0 have the expectation value 1 in the configuration `0110`, but the matrix has 0 there and puts 1 elsewhere.

## C69 The parallel action of a matrix exponential does not depend on the threads and converges to the exponential

* `Props.C69_fails_team`: OpenMP may give fewer threads than `omp_get_max_threads()` (dynamic adjustment, thread limits, nested regions), but the elements are divided by that number: those of the missing threads are returned as they were passed.
* `Props.C69_fails_team_result`: With two threads asked for and one given, the second element of `exp(1) v` is that of `v`.
* `Props.C69_fails_team_differs`: The results with one and with two of the two threads asked for differ.
* `Props.C69_fails_norm`: The number of terms is chosen from a norm of `A + mu` (`csr_1_norm` adds the shift), but the series is that of `A - mu`: for the diagonal matrix 1, ..., 1, -3 this number is at most 2 + 4/n while the matrix that is exponentiated has an element of size 4 - 4/n.

## C70 Vectors of one-dimensional symmetry blocks are taken to the right vectors of the full space

* `Props.C70_fails_combination`: Giving `pblock` and `pzblock` together: the states are those of the parity block alone, but the vectors are made with both operations. With two spins and `p = pz = 1` the state `11` is given amplitude 1 and the state `00` amplitude 1/2: the vector is not normalised.
* `Props.C70_fails_int8`: Chains of 84 and more sites with momentum and inversion: the stored code is read as a signed byte. For fermions with spin on 84 sites, two of each spin, `kblock = 1`, `sblock = -1`, the state with neighbouring up fermions and the same with spin down half a chain away is stored with the code 128, and the squared norm of its projection is not what the vectors are divided by.

## C71 representative, normalization and get_amp describe the symmetry-reduced basis

* `Props.C71_fails_nan`: `get_amp(states)` (default mode) is documented to return zero for a state that is not part of the reduced basis. The doubly occupied state of two sites, odd under their exchange, is its own representative and has no odd part; the result is NaN (0/0, `general_basis_get_amp.h:194-195`, no test of the norm).
* `Props.C71_fails_zero_amp`: `get_amp(states, amps=…, mode='full_basis')` divides by the amplitude. For a vector of the reduced space all of whose amplitudes are given, the states that the quantum numbers exclude have amplitude 0 and get NaN instead of a number (`base_general.py:1143`).
* `Props.C71_fails_mode`: `get_amp` with a misspelt `mode` and no `amps` raises nothing and returns zeros: the `ValueError` is created but not raised (`general_basis_core.pyx:1017`), and the test in Python runs only if `amps` is given. The state used here is a representative with amplitude 1 (no symmetries).
* `Props.C71_fails_int_factor`: The product of the periods is formed in a 32-bit integer (`general_basis_rep.h:23`). 62 sites with the 31 exchanges of pairs as (even) symmetries, all sites occupied: the square of the norm is 2⁶², `normalization` returns 2⁶⁴ − 2⁶² and raises nothing.

## C72 Op_bra_ket and Op_shift_sector give matrix elements between symmetry-projected states

* `Props.C72_fails_return`: `Op_shift_sector` drops the phase of the target sector whenever a term takes a representative to another configuration of its own orbit: two sites, the current `S⁺₀S⁻₁ - S⁺₁S⁻₀` (which takes even states to odd ones) applied to the even state of `|10⟩` has amplitude 1, the function returns -1.
* `Props.C72_fails_stale`: The array of exponents is not reset between kets: in the odd sector of a mirrored chain of four sites, `⟨1110|(σˣ₂σˣ₃ + σˣ₀σˣ₁)|1101⟩ = 1`, but after the ket `1000` in the same thread `Op_bra_ket` gives -1, whatever the memory contains; with one thread for every ket and memory that happens to be zero it gives 1.
* `Props.C72_fails_diagonal`: With particle-number sectors the diagonal branch multiplies the phases of the uninitialised array of exponents: for a diagonal term with value `m` on the ket `1000` of the odd sector, the result is `m` or `-m` depending on the memory.
* `Props.C72_fails_imaginary`: A complex coupling with a real `dtype`: no error, the imaginary part is dropped.
* `Props.C72_fails_pauli`: For a basis with `pauli=1` the function uses spin operators: `⟨1|σᶻ|1⟩` is returned as 1/2.
* `Props.C72_fails_wide`: `Op_shift_sector` raises `TypeError` for an initial basis in 4096-bit integers (1025 to 4096 bits), although the target basis may have that type.
* `Props.C72_fails_spinful`: `Op_shift_sector` of `spinful_fermion_basis_general` always raises `TypeError`: `self` is not passed on.

## C73 diag_ensemble returns averages over infinite time

* `Props.C73_fails_complex`: **Defect.** `_np.square(Obs)` (375) squares the matrix elements instead of their absolute values. For two levels, the state `(1,1)/√2` and `σʸ`, whose variance in time is 1/2, `delta_t_Obs` is NaN.
* `Props.C73_fails_resonance`: **Defect.** Three equally spaced levels pass the test for degeneracies, which does not compare differences. The expectation value of a hopping in the state `(1,1,1)/√3` has variance `8/9` in time, `delta_t_Obs` is `√(4/9)`.
* `Props.C73_fails_dm`: **Defect.** Equal mixture of two levels and `σˣ`: the expectation value is 0 at all times, `delta_t_Obs` is `√(1/2)`.
* `Props.C73_fails_array`: **Defect.** An observable given as an array, as documented, raises `ValueError` (the truth value of an array) when a fluctuation is asked for.
* `Props.C73_fails_integer`: **Defect.** The array of weights has the type of the first argument (343): for an integer inverse temperature and two or more states every weight `e^{-βE}/Z` is truncated to 0, and all thermal values are 0.

## C75 Vectors of semi-momentum blocks in the full space

* `Props.C75_fails_unit_cell`: Four sites with a unit cell of two, momentum π (`kblock=1`) and `pblock=1`: the configuration `1000` is in the block, but `base_1d.py:874-875` looks for `2*kblock == L`, where momentum π is `2*kblock == L/a`. The vector returned for this state of the basis has squared norm 2.

## C77 Vectors of blocks of momentum, reflection and inversion

* `Props.C77_fails_signed_byte`: Twelve sites, momentum 1, `pblock=-1` and `zblock=-1`. All operations take `111111000000` to a translate, the inversion to the one by six sites, and the integer stored is 1774 = 6 + 13·6 + 169·10. `base_1d.py:821-823` puts 1774 // 13 = 136 into a signed byte, where it becomes -120, and reduces that to 10 instead of 6. The vector returned for this state of the basis has squared norm 4.

## C78 check_symm accepts only operator lists that have the symmetries of the basis

* `Props.C78_fails_current`: On a general lattice `+` and `-` of a string are exchanged once for every inverted site: the current `i(+-) - i(-+)` is accepted with the spin inversion of both sites, which changes its sign.
* `Props.C78_fails_one_site`: With the inversion of site 0 only, the invariant and Hermitian list `i(++) + i(-+) - i(+-) - i(--)`, i.e. `x` on site 0 times `i(σ⁺ - σ⁻)` on site 1, is rejected.
* `Props.C78_fails_odd`: On a chain, terms with an odd number of `z` and `y` are rejected with spin inversion, also if `+` and `-` make up for the sign: the invariant and Hermitian `i z(σ⁺ - σ⁻)` is rejected.
* `Props.C78_fails_number`: The check of the chains of hard-core bosons does not look at `n`: the number of bosons is accepted with the particle-hole symmetry.
* `Props.C78_fails_repeated`: A repeated term is not noticed: `z₀ + z₀ + z₁` is accepted with the reflection.
* `Props.C78_fails_split`: Couplings are not added up: `2 z₀ + z₁ + z₁` is rejected with the reflection.
* `Props.C78_fails_spin_exchange`: The check of the spin exchange of spinful fermions exchanges the strings but not the sites: `n₀↑ n₁↓` alone is accepted.
* `Props.C78_fails_identity`: The check of the spin exchange counts the letter `I` as a fermion: the spin flip on site 0 written with identities on site 1 has the symmetry, but is rejected.
* `Props.C78_fails_spin_reflection`: The check of the spin exchange with reflection does not reflect: a potential on site 0 is accepted.

## C79 Floquet describes the evolution over one period

* `Props.C79_fails_static`: For a static spin `σʸ` the Floquet Hamiltonian has the wrong sign, and the Floquet unitary turns backwards.
* `Props.C79_fails_order`: With several steps the Floquet unitary has them in the wrong order, also for real Hamiltonians: first `σˣ`, then `σᶻ`.
* `Props.C79_fails_lengths`: Times and durations of different number are accepted: with one time and two durations only the first step is made, but the period is the sum of both, so that the quasienergies are wrong.
* `Props.C79_fails_period`: A drive that is not periodic passes the test of its period if it takes the same value at one time and one period later.

## C80 project_op carries operators between a space and a subspace

* `Props.C80_fails_driven`: C80 fails for a driven hamiltonian and a basis: `project_op` returns an object whose static part has the size of the small space and whose driven part that of the large one, and every evaluation of it raises.

## C81 KL_div is the relative entropy

* `Props.C81_fails_zero`: C81 fails for distributions with an entry zero: the relative entropy of `(0, 1)` with respect to `(1/2, 1/2)` is `log 2` (terms `0 log 0` are dropped, as the code intends in its last branch), but every list with a zero is rejected, and that branch is never reached.

## C82 mean_level_spacing is the mean ratio of neighbouring spacings

* `Props.C82_fails_two`: C82 fails for two levels: the documentation promises `nan` for degenerate spectra only, but the answer for any two different levels is `nan` (mean of an empty array), and so it is for a single level.

## C83 obs_vs_time gives the expectation values of every observable at every time

* `Props.C83_fails_entropy`: C83 fails for the entropy of an array with as many times as the space has dimensions: the states at the different times are taken for the columns of one density matrix, and one number is returned. `enforce_pure=True` does not help, because it is not handed on.
* `Props.C83_fails_one_time`: C83 fails for one time: a generator together with `return_state=True` raises, because `squeeze` removes the axis of the times.
* `Props.C83_fails_many_states`: C83 fails for several pure states in the columns of an array with three axes: `enforce_pure=True`, documented for this case, is ignored, and the array is taken for a density matrix. For the states `(0,1)` and `(1,0)` and the operator `diag(1,3)` the answer is 0 instead of 3 and 1. If the array is not square the call raises.
* `Props.C83_fails_generator`: C83 fails for a generator of several pure states in columns, if there are as many as the space has dimensions: `enforce_pure=True` is not handed on, and each array is taken for a density matrix.
* `Props.C83_fails_mutation`: C83 fails to leave its argument alone: after the call the matrices in the caller's dictionary have been replaced by hamiltonians.

## C84 ent_entropy describes the state it is given

* `Props.C84_fails_diagonal`: C84 fails for density matrices given by eigenvectors (in columns) and eigenvalues: for the pure state in the first column of `cycle3`, which is the state 1, the result is that of the state 2.

## C85 Constructors of one-dimensional bases respect every quantum number they are given

* `Props.C85_fails_inversion_product`: `zblock` with `pzblock`: the second is ignored without a warning, for every chain.
* `Props.C85_fails_reflection_product`: `pblock` with `pzblock`: the second is ignored.
* `Props.C85_fails_momentum_reflection_product`: With a momentum it is `pblock` that is ignored.
* `Props.C85_fails_momentum_inversion_product`: With a momentum and `pzblock` it is `zblock` that is ignored.
* `Props.C85_fails_inversion_sublattice`: `zblock` with `zAblock`: the sublattice is ignored, although the two symmetries commute and the block exists.
* `Props.C85_fails_sublattice_product`: `pzblock` with `zAblock`: the product is ignored.
* `Props.C85_fails_contradiction`: Contradicting labels (`pblock = zblock = 1`, `pzblock = -1`, no vector has them) are accepted: the third is overwritten.
* `Props.C85_fails_contradiction_sublattices`: Contradicting labels of the sublattices: `zblock` is overwritten.
* `Props.C85_fails_particle_hole`: `boson_basis_1d(L, sps=2, pcblock=-1)` makes the whole space: `pcblock` alone is never passed on.

## C86 Particle sectors of one-dimensional bases fit the symmetries and the documentation

* `Props.C86_fails_several`: Several sectors are accepted if the first one is right: the exception is created but not raised. `spin_basis_1d(2, Nup=[1,2], zblock=1)` is made although inversion leads out of the sectors.
* `Props.C86_fails_boson`: `boson_basis_1d(L, Nb=Nb, cblock=1)` raises for every chain and every number of particles, also at half filling where the exchange of particles and holes carries the sector to itself.
* `Props.C86_fails_spinful`: Yet `spinful_fermion_basis_1d(L, Nf=(N,N), sblock=1)` raises away from half filling.
* `Props.C86_fails_density`: `m` is documented as the number of raised spins per site, but counts from half filling: for spins 1/2 and an even chain `m = 1/2` gives `L` raised spins instead of `L/2`.

## C87 Photon bases with conserved quanta contain all states

* `Props.C87_fails_higher_spin`: For spins larger than 1/2 the states with more raised quanta than sites are missing.
* `Props.C87_fails_boson`: Bosons: the sector in which all quanta are particles (or all sites are full) is missing, for every chain and every number of quanta.
* `Props.C87_fails_spinless`: Spinless fermions: the sector in which all quanta are fermions (or all sites are full) is missing.
* `Props.C87_fails_spinful`: With more quanta than sites the states with more fermions than sites are missing.

## C88 block_ops moves states of the full space through symmetry blocks

* `Props.C88_fails_block_diag`: `evolve` with the documented `block_diag=True` never returns states: line 599 uses the name `psi_list_prime`, which is not defined (line 596 defines `psi_blocks_prime`).
* `Props.C88_fails_jobs`: `expm` with `block_diag=True` raises an exception (`hstack` of an empty list, line 756) if more jobs are asked for than there are blocks with a part of the state.
* `Props.C88_fails_order`: A block given twice with its keywords in another order is kept twice (`str(block)` differs, lines 364 and 435), and the state is returned twice as long already at the initial time.
* `Props.C88_fails_update`: `update_blocks` does not add the `basis_kwargs` of the constructor to the blocks (lines 434-437): the same block is then taken from the larger space, both are kept and the state is returned twice as long.
* `Props.C88_fails_caller`: The constructor adds `basis_kwargs` to the dictionaries of the caller (line 361).

## C89 quantum_LinearOperator acts as the sum of its operator strings and its diagonal

* `Props.C89_fails_out`: A product into a given array `out` always raises an exception: the code uses the name `shape`, which is not defined (line 305).
* `Props.C89_fails_quant_fluct`: `quant_fluct` always raises an exception: the code uses the name `check`, which is not defined (line 360).
* `Props.C89_fails_number`: The product of an operator with a number, its negative and `A *= c` give `None`, and the operator does not change (lines 763-765).
* `Props.C89_fails_sparse`: The product with a sparse matrix raises an exception for every operator with an operator string (line 784).
* `Props.C89_fails_caller`: The constructor changes the array given as `diagonal`: the diagonal operator strings are added to it (lines 122, 138). Making the same operator twice from the same array gives two different operators.

## C90 Checks of operator lists in photon bases

* `Props.C90_fails_check`: `check_pcon` of a photon basis accepts every list, whatever it does to the total number: the test for vanishing photon strings is inverted, so that all terms are taken to vanish. (Only lists with more than `Ntot` raising or lowering photon operators in one string are examined.)
* `Props.C90_fails_matrix`: The operator `+|` of one spin and `N` quanta changes the total number; nothing of it acts inside of the sector. It is accepted, and its matrix has the element 1 between the state with the spin down and `N` photons and the state with the spin up and `N - 1` photons.

## C91 get_proj and project_from of tensor and photon bases

* `Props.C91_fails_general`: A photon basis with a conserved total number cannot be built on a basis of the general classes: the photon numbers are computed in unsigned numbers.
* `Props.C91_fails_large`: With 130 quanta the state with the spin down has 130 photons. Their number is stored as `-126`, and the state is put at the level of 5 photons.

## C92 Partial traces of tensor and photon bases

* `Props.C92_fails_default`: With the default `return_rdm=None` the call always raises.
* `Props.C92_fails_conjugate`: The matrix of the rest is not the partial trace: for the state `(|0⟩ + i |1⟩)` of the right part it is the complex conjugate.
* `Props.C92_fails_stack`: Stacks of `l` density matrices, in the documented shape `(Ns, Ns, l)`, always raise unless `l` is `Ns` itself.
* `Props.C92_fails_stack_square`: With `Ns` density matrices the answer is wrong: for two states of one spin (the right part has one state), both `|0⟩⟨0|`, the second matrix is zero.
* `Props.C92_fails_photon_mixed`: Density matrices in a photon basis with a conserved total number always raise.

## C93 coherent_state and photon_Hspace_dim

* `Props.C93_fails_vacuum`: For `a = 0` the amplitude of the vacuum, which is one, is not a number.
* `Props.C93_fails_negative`: For a negative real `a` no amplitude is a number.
* `Props.C93_fails_empty`: A cutoff of no states raises.

## C94 User-defined bases

* `Props.C94_fails_allowed`: Without `allowed_ops`, which is documented as optional, the constructor always raises.
* `Props.C94_fails_list`: A list of two or more particle sectors, documented for `Np`, always raises.
* `Props.C94_fails_count`: With all eight keys a list of sectors always raises, even of one sector.
* `Props.C94_fails_none`: With five keys and `Np=None` the constructor raises, although it prepares the full space.

## C96 General bases use every symmetry they are given

* `Props.C96_fails_identities`: Defect: with two maps that act trivially (on a lattice with a single site in one direction the translation and the reflection in this direction do) and the default order the first proper symmetry is dropped: the loop removes one after the other by their old places.
* `Props.C96_fails_sector`: Visible effect for two sites and the odd sector of their exchange: the state with both sites empty, which has no odd part, is a state of the basis.
* `Props.C96_fails_raises`: Defect: with three maps that act trivially and one proper symmetry the constructor raises `IndexError`.

## C97 Particle sectors of general bases

* `Props.C97_fails_up_to_boson`: Defect: with more quanta than sites, the configurations with more bosons than sites are missing: two bosons on one site with up to two.
* `Props.C97_fails_up_to_spinless`: Defect: with a total number of quanta up to the number of sites, the lattice part of spinless fermions has the configurations of the largest number only; those with fewer particles and more photons are missing.
* `Props.C97_fails_up_to_higher_spin`: Defect: with a total number of quanta the lattice part of spins above one half is refused.
* `Props.C97_fails_spinless`: Defect: a list of particle numbers of spinless fermions gives the sector of the last number only.
* `Props.C97_fails_spinless_example`: The sectors of zero and one fermion on two sites: the empty state is missing.
* `Props.C97_fails_higher_spin`: Defect: spins above one half refuse every list of numbers of up spins.
* `Props.C97_fails_vacuum`: Defect: without `sps` no boson at all is refused: one level per site is too little for the constructor.

## C98 Options of get_proj, project_to and project_from of general bases

* `Props.C98_fails_list`: For lists of numbers `pcon=True` is ignored by `get_proj`: the condition for refusing it is that of the branch before, so the projector to all configurations is returned.
* `Props.C98_fails_list_from`: For lists of numbers the sparse (default) and the dense result of `project_from(…, pcon=True)` are in different spaces.
* `Props.C98_fails_list_to`: For lists of numbers that are not all numbers `project_to(…, pcon=True)` with the default `sparse=True` raises for every array.
* `Props.C98_fails_list_example`: The three defects at `spin_basis_general(3, Nup=[0,2])`.
* `Props.C98_fails_sparse`: With the default `sparse=True` the result of `project_from` is never accepted by `project_to`, documented as its inverse, nor the other way round: sparse arguments raise.
* `Props.C98_fails_empty`: For an empty basis the number of states is lost: whatever the argument, the result has no columns.
* `Props.C98_fails_one_state`: A single state of a basis with one state comes back without axes and is not accepted again: `project_to` of a vector gives a number, of which `project_from` raises.
* `Props.C98_fails_user`: For `user_basis` every call with `pcon=True` raises `AttributeError`.

## C99 expm_multiply_parallel objects have no memory of earlier parameters

* `Props.C99_fails_set_a`: `set_a(a, dtype=…)` always raises `NameError`, and nevertheless changes `a`, without the number of terms and steps that belong to it.
* `Props.C99_fails_stale`: An object made with `a=0`, then `set_a(1, dtype=float64)`, whose exception is caught: `dot` returns the vector unchanged, although `a` is 1 and `exp(A) v` has the components `e v0` and `v1/e`.
* `Props.C99_fails_integers`: Matrices of 64-bit (or 32-bit) integers are refused, whatever the type asked for.
