{"id": "C01", "title": "Fixed-particle-number bases of two-level sites are complete", "statement": "A basis of N two-level sites (spin-1/2, hard-core boson or spinless fermion) restricted to k up-spins/particles, with no lattice symmetry, contains every N-site configuration with exactly k occupied sites exactly once and nothing else, in strictly decreasing integer order; its size Ns is the binomial coefficient N over k.", "quantifier": "all numbers of sites N, all particle numbers 0<=k<=N, all machine-integer widths the configuration fits in", "why_tests_cant": "Tests compare a few small N; the sector walk is a bit trick whose correctness for every word and width is not implied by any finite sample.", "anchors": ["quspin/basis/basis_general/_basis_general_core/source/hcb_basis_core.h:next_state_pcon", "quspin/basis/basis_general/_basis_general_core/source/make_general_basis.h:make_basis_sequential", "quspin/basis/basis_general/_basis_general_core/hcb_core.pyx"]}
{"id": "C02", "title": "Fixed-particle-number bases of multi-level sites are complete", "statement": "A boson or higher-spin basis of N sites with at most sps-1 quanta per site restricted to a total of Nb quanta contains every admissible occupation list with that total exactly once and nothing else, in monotone integer order.", "quantifier": "all N, all sps>=2, all totals Nb", "why_tests_cant": "The successor function rearranges digits in a data-dependent way; a sample of sizes does not cover all carry patterns.", "anchors": ["quspin/basis/basis_general/_basis_general_core/source/boson_basis_core.h:next_state_pcon", "quspin/basis/basis_general/_basis_general_core/source/higher_spin_basis_core.h"]}
{"id": "C03", "title": "Counting particles is exact", "statement": "The particle number the library computes for a configuration (used to filter sectors and to compute fermionic signs) equals the number of occupied sites below the given position.", "quantifier": "all configurations, all positions, all supported integer widths (32 to 16384 bits)", "why_tests_cant": "2^16384 words; the byte-sum trick can only be argued for all words, and it has a width-dependent limit no small test meets.", "anchors": ["quspin/basis/basis_general/_basis_general_core/source/bits_info.h:bit_count"]}
{"id": "C04", "title": "Spinful-fermion sectors are complete", "statement": "A spinful fermion basis with fixed (N_up,N_down) contains every pair of configurations with these two particle numbers exactly once.", "quantifier": "all N, all N_up,N_down", "why_tests_cant": "Product enumeration with carry between the two species; needs an argument over all sizes.", "anchors": ["quspin/basis/basis_general/_basis_general_core/source/spinful_fermion_basis_core.h:next_state_pcon"]}
{"id": "C05", "title": "A user map acts on a two-level configuration as the stated site permutation", "statement": "For a symmetry map given by the user (site i goes to site map[i], or to -(map[i]+1) with occupation inverted when map[i] is negative) the image of a configuration has, on each target site, the occupation of its source site, inverted exactly when requested; applying the map to all sites is a bijection on configurations.", "quantifier": "all N, all valid maps with any set of inverted sites, all configurations", "why_tests_cant": "The number of maps is N! 2^N and the implementation is a compiled bit-permutation network plus mask.", "anchors": ["quspin/basis/basis_general/_basis_general_core/source/hcb_basis_core.h:hcb_map_bits", "quspin/basis/basis_general/_basis_general_core/source/benes_perm.h"]}
{"id": "C06", "title": "A user map acts on multi-level configurations as the stated site permutation", "statement": "For boson and higher-spin bases the image of a configuration has on each target site the occupation n of its source site, or sps-1-n when the map inverts that site; the map is a bijection of the configurations.", "quantifier": "all N, sps>=2, all valid maps, all configurations", "why_tests_cant": "Unbounded family of maps and bases.", "anchors": ["quspin/basis/basis_general/_basis_general_core/source/boson_basis_core.h:boson_map_bits"]}
{"id": "C07", "title": "Symmetry representatives are canonical", "statement": "For mutually commuting symmetry maps the representative assigned to a configuration is the largest element of its symmetry orbit, the group element reported with it maps the configuration to it, and two configurations get the same representative exactly when they are related by symmetry.", "quantifier": "all numbers of maps, all periods, all configurations", "why_tests_cant": "Orbit traversal is an odometer loop over an unbounded product of cycles.", "anchors": ["quspin/basis/basis_general/_basis_general_core/source/general_basis_core.h:ref_state_core_unrolled"]}
{"id": "C08", "title": "A representative is kept exactly when its symmetrised state is non-zero", "statement": "A configuration is a member of a symmetry-reduced basis exactly when it is the largest of its orbit and its projection onto the requested quantum numbers is non-zero; the normalisation stored with it is the sum of the characters of the group elements that leave it unchanged.", "quantifier": "all commuting maps, periods, quantum numbers and configurations", "why_tests_cant": "Needs all stabiliser patterns for all groups.", "anchors": ["quspin/basis/basis_general/_basis_general_core/source/general_basis_core.h:check_state_core_unrolled", "quspin/basis/basis_general/_basis_general_core/source/make_general_basis.h"]}
{"id": "C09", "title": "Symmetry blocks partition the Hilbert space", "statement": "Summed over all values of the quantum numbers of a set of commuting maps, the dimensions of the symmetry-reduced bases add up to the dimension of the unreduced basis.", "quantifier": "all commuting maps and periods, all configurations spaces closed under them", "why_tests_cant": "Global counting statement over all groups and orbits.", "anchors": ["quspin/basis/basis_general/_basis_general_core/source/general_basis_core.h", "quspin/basis/basis_general/_basis_general_core/source/make_general_basis.h"]}
{"id": "C10", "title": "Spin operator strings act as products of single-site matrices", "statement": "For every operator string over I,z,n,x,y,+,- and every list of sites (repetitions allowed), the matrix element and target configuration returned for a basis configuration are those of the product, rightmost operator first, of the textbook single-site matrices.", "quantifier": "all strings, all site lists, all configurations, all N", "why_tests_cant": "Strings and configurations are unbounded; early exit on zero elements makes path coverage exponential.", "anchors": ["quspin/basis/basis_general/_basis_general_core/source/hcb_basis_core.h:op", "quspin/basis/basis_1d/_basis_1d_core/sources/hcp_ops.pyx:op_func"]}
{"id": "C11", "title": "Fermionic operators satisfy the canonical anticommutation relations", "statement": "For any two sites i,j and every configuration, the action of the two-operator strings gives c_i c_j^+ + c_j^+ c_i = delta_ij and c_i c_j + c_j c_i = 0 (spinless; and between the species of spinful fermions).", "quantifier": "all N, all i,j, all configurations", "why_tests_cant": "Sign conventions must be consistent for every pair of sites and every background configuration.", "anchors": ["quspin/basis/basis_general/_basis_general_core/source/spinless_fermion_basis_core.h:op", "quspin/basis/basis_general/_basis_general_core/source/spinful_fermion_basis_core.h:op"]}
{"id": "C12", "title": "Boson and higher-spin operator strings act as products of truncated single-site matrices", "statement": "For every operator string over I,n,z,+,- and site list, the squared matrix element, sign and target configuration are those of the product of the local ladder/number matrices truncated at sps levels.", "quantifier": "all strings, site lists, configurations, N, sps", "why_tests_cant": "Unbounded strings; one wrong switch label affects only strings containing that symbol.", "anchors": ["quspin/basis/basis_general/_basis_general_core/source/boson_basis_core.h:op", "quspin/basis/basis_general/_basis_general_core/source/higher_spin_basis_core.h:op"]}
{"id": "C13", "title": "Operators in a symmetry-reduced basis are the restriction of the full operator", "statement": "For an operator invariant under the maps, the matrix assembled in the reduced basis equals the matrix of the full operator between the normalised symmetry-projected states.", "quantifier": "all commuting maps, quantum numbers, invariant operators, pairs of representatives", "why_tests_cant": "Phases and norms have to cancel for every orbit and stabiliser.", "anchors": ["quspin/basis/basis_general/_basis_general_core/source/general_basis_op.h:general_op"]}
{"id": "C14", "title": "Basis construction does not depend on the number of threads", "statement": "For every number of worker threads the parallel construction of a symmetry-reduced basis yields the same states, in the same order, with the same norms, as the single-threaded one.", "quantifier": "all thread counts, all candidate ranges, all filters", "why_tests_cant": "Tests run one thread count; work splitting is by stride and then merged.", "anchors": ["quspin/basis/basis_general/_basis_general_core/source/make_general_basis.h:make_basis_parallel", "quspin/basis/basis_general/_basis_general_core/source/make_general_basis.h:make_basis_sequential"]}
{"id": "C15", "title": "Basis construction never overruns the requested block size and reports shortage consistently", "statement": "With an estimated block size B construction writes at most B states; it reports insufficient memory exactly when the block has more than B states, whatever the number of threads.", "quantifier": "all B, all thread counts, all candidate sequences", "why_tests_cant": "Boundary behaviour at an exact fit, for every input.", "anchors": ["quspin/basis/basis_general/_basis_general_core/source/make_general_basis.h"]}
{"id": "C16", "title": "Looking up a state finds exactly the states of the basis", "statement": "index(state) returns the position of the state if it is in the basis and reports absence otherwise, with and without the prefix-block acceleration; the binary search terminates.", "quantifier": "all strictly decreasing basis arrays, all states, all prefix lengths", "why_tests_cant": "Off-by-one errors in searches show only for particular lengths and positions.", "anchors": ["quspin/basis/basis_general/_basis_general_core/source/misc.h:rep_position", "quspin/basis/basis_1d/_basis_1d_core/sources/refstate.pyx:findzstate"]}
{"id": "C17", "title": "State strings and integers are inverse encodings", "statement": "Converting an integer state to its occupation string and back is the identity, and every valid occupation string of N sites denotes exactly one integer below sps^N, site 0 being the most significant digit.", "quantifier": "all N, sps, states and strings", "why_tests_cant": "Round-trip over an unbounded domain.", "anchors": ["quspin/basis/basis_general/base_general.py:int_to_state,state_to_int"]}
{"id": "C18", "title": "Parallel sparse matrix-vector product equals the serial one", "statement": "For every CSR matrix and every number of threads the merge-based product (including the partial-row fix-up) stores in every output entry the row-times-vector sum, added to or replacing the old content according to overwrite.", "quantifier": "all CSR matrices incl. empty rows, all vectors, all thread counts", "why_tests_cant": "Thread boundaries may fall anywhere, including in and between empty rows.", "anchors": ["quspin/tools/matvec/_oputils/csrmv_merge.h", "quspin/tools/matvec/_oputils/csr.h", "quspin/tools/matvec/_oputils.pyx:_csr_matvec"]}
{"id": "C19", "title": "CSC and DIA products are right for every schedule and stride", "statement": "Matrix-vector products with CSC matrices (entries accumulated by concurrent atomic additions) and DIA matrices produce the mathematical product for every interleaving of the additions and for every stride of the output vector, with and without overwriting; builds with and without OpenMP agree.", "quantifier": "all matrices, all interleavings, all strides", "why_tests_cant": "Interleavings and strides are unbounded.", "anchors": ["quspin/tools/matvec/_oputils/csc.h", "quspin/tools/matvec/_oputils/dia.h", "quspin/tools/matvec/_oputils/openmp.h"]}
{"id": "C20", "title": "Hamiltonian arithmetic is pointwise in time", "statement": "For hamiltonian objects, evaluating a sum, difference, negation, scalar multiple or product at any time t gives the corresponding combination of the evaluated operands.", "quantifier": "all static/dynamic decompositions, all time functions, all t", "why_tests_cant": "Dynamic parts are merged by key; every coincidence pattern of keys matters.", "anchors": ["quspin/operators/hamiltonian_core.py:_add_hamiltonian,_sub_hamiltonian,_mul_hamiltonian"]}
{"id": "C21", "title": "Arithmetic on a hamiltonian does not change other objects", "statement": "Any sequence of arithmetic operations applied to one hamiltonian leaves the value of every other hamiltonian unchanged.", "quantifier": "all histories of operations over a heap of objects", "why_tests_cant": "Aliasing bugs need a particular history of operations to become visible.", "anchors": ["quspin/operators/hamiltonian_core.py:_iadd_hamiltonian,_add_hamiltonian,_imul_scalar"]}
{"id": "C22", "title": "In-place multiplication agrees with out-of-place multiplication", "statement": "H *= A gives the same operator-valued function of time as H = H*A.", "quantifier": "all H with static and dynamic parts, all matrices A, all t", "why_tests_cant": "Agreement for static H says nothing on the dynamic part.", "anchors": ["quspin/operators/hamiltonian_core.py:_imul_sparse,_mul_sparse"]}
{"id": "C23", "title": "Parameter defaults do not leak between calls", "statement": "The result of evaluating a quantum_operator with given pars does not depend on which other calls were made before, and the caller's pars dictionary is not modified.", "quantifier": "all histories of calls on all operators", "why_tests_cant": "Depends on the history of calls, not on one call.", "anchors": ["quspin/operators/quantum_operator_core.py:_check_scalar_pars"]}
{"id": "C24", "title": "Reading a transpose or adjoint does not modify the object", "statement": "Accessing .T, .H or conj() of an operator object leaves the object as it was; the result of later operations does not depend on such reads.", "quantifier": "all histories of reads and applications", "why_tests_cant": "A property of histories.", "anchors": ["quspin/operators/exp_op_core.py", "quspin/operators/quantum_LinearOperator_core.py"]}
{"id": "C25", "title": "Sorting, conjugating and expanding operator strings preserves the operator", "statement": "The sorted form of an operator string is the same operator (with fermionic sign), its Hermitian conjugate form is the adjoint operator, and its expansion of x and y into + and - is the same operator.", "quantifier": "all strings, site lists, couplings", "why_tests_cant": "Strings are unbounded; signs depend on the permutation.", "anchors": ["quspin/basis/basis_general/fermion.py:_sort_opstr,_hc_opstr", "quspin/basis/basis_general/spin.py:_sort_opstr,_hc_opstr,_expand_opstr", "quspin/basis/base.py"]}
{"id": "C26", "title": "The hermiticity check accepts exactly Hermitian operator lists", "statement": "check_herm raises no error exactly when the operator defined by the operator lists is Hermitian.", "quantifier": "all operator lists, including repeated terms", "why_tests_cant": "Acceptance is decided by comparing term lists; all multiplicities matter.", "anchors": ["quspin/basis/base.py:check_hermitian"]}
{"id": "C27", "title": "Consolidating operator lists preserves the operator", "statement": "Merging equal terms of the static and dynamic lists yields the same operator at every time.", "quantifier": "all term lists, all coincidence patterns, all time functions", "why_tests_cant": "Coincidence patterns are unbounded.", "anchors": ["quspin/basis/base.py:_consolidate_local_lists", "quspin/operators/_make_hamiltonian.py:_consolidate_static,_consolidate_dynamic"]}
{"id": "C28", "title": "Products, powers and conjugates of drive functions are pointwise", "statement": "Combining time functions by multiplication, power and conjugation evaluates pointwise to the corresponding combination for every t and every nesting.", "quantifier": "all expression trees, all t", "why_tests_cant": "Expression trees are unbounded.", "anchors": ["quspin/operators/_functions.py"]}
{"id": "C29", "title": "Partial traces", "statement": "For every pure state and every set of subsystem sites the reduced density matrix returned for A is the partial trace over the other sites; its trace is the squared norm of the state; the mixed-state routine agrees on projectors; site reordering is a bijection of configurations.", "quantifier": "all N, sps, subsystems, states", "why_tests_cant": "Index gymnastics must be right for every subset of sites.", "anchors": ["quspin/basis/_reshape_subsys.py", "quspin/basis/lattice.py:_partial_trace"]}
{"id": "C30", "title": "Tensor bases give Kronecker products", "statement": "The operator returned for 'left|right' strings in a tensor basis is the Kronecker product of the two operators, and index() of a product state is consistent with it.", "quantifier": "all pairs of component operators and dimensions", "why_tests_cant": "Unbounded dimensions.", "anchors": ["quspin/basis/tensor.py:Op,index"]}
{"id": "C31", "title": "Photon ladder strings", "statement": "In the harmonic-oscillator basis with cutoff Np, for every string over I,n,+,- the returned column/row/element is the matrix element of the untruncated oscillator operator between levels 0..Np, and zero when the target level is outside.", "quantifier": "all strings, all cutoffs, all levels", "why_tests_cant": "Unbounded strings, negative and overflowing intermediate levels.", "anchors": ["quspin/basis/photon.py:ho_basis.Op"]}
{"id": "C32", "title": "Square-lattice symmetry maps are symmetries of the lattice", "statement": "The translation, reflection and diagonal maps supplied for an Lx x Ly lattice are permutations of the sites with the documented geometric action, translations commute and have orders Lx and Ly, reflections are involutions that conjugate translations to their inverses; the iterator over momenta visits every momentum pair at most once.", "quantifier": "all Lx, Ly", "why_tests_cant": "All lattice sizes.", "anchors": ["quspin/basis/transformations/square.py"]}
{"id": "C33", "title": "Parallel evaluation over symmetry blocks preserves order and terminates", "statement": "When blocks are evolved by several worker processes every block is handled by exactly one worker, results come out in the block order for each time point, and the hand-shake between workers and parent can neither deadlock nor drop or duplicate a result, for every scheduling.", "quantifier": "all numbers of workers, blocks, time points; all interleavings", "why_tests_cant": "Schedules cannot be enumerated by tests.", "anchors": ["quspin/tools/block_tools.py:_generate_parallel,_worker"]}
{"id": "C34", "title": "Block-diagonal hamiltonians keep every drive with its operator", "statement": "block_diag_hamiltonian of several blocks evaluates at each time to the direct sum of the blocks' evaluations.", "quantifier": "all families of blocks with any dynamic terms, all t", "why_tests_cant": "Depends on the iteration order of unordered containers and on which terms vanish in which block.", "anchors": ["quspin/tools/block_tools.py:block_diag_hamiltonian"]}
{"id": "C35", "title": "The integer type chosen for a basis is wide enough", "statement": "The integer type selected for (N, Np, sps) can hold every configuration of the basis, and operator strings never overflow it in a way that changes a matrix element.", "quantifier": "all N, Np, sps, strings", "why_tests_cant": "Failures only at sizes near powers of two.", "anchors": ["quspin/basis/basis_general/_basis_general_core/general_basis_utils.pyx:get_basis_type"]}
{"id": "C36", "title": "The period attached to a user map is its order", "statement": "For every valid user map construction terminates and the period used for the quantum number is the least p>0 such that applying the map p times is the identity on configurations; maps that are not signed permutations are rejected.", "quantifier": "all N, all maps", "why_tests_cant": "All N! 2^N maps.", "anchors": ["quspin/basis/basis_general/base_general.py:process_map"]}
{"id": "C37", "title": "Saved operators load back with the same keys", "statement": "Saving a quantum_operator to a zip archive and loading it returns each operator under the key it was saved with.", "quantifier": "all key strings and mixtures of dense and sparse operators", "why_tests_cant": "Keys are arbitrary strings.", "anchors": ["quspin/operators/quantum_operator_core.py:save_zip,load_zip"]}
{"id": "C38", "title": "One-dimensional momentum/parity/inversion blocks", "statement": "For a chain of L sites with unit cell a, translation, reflection and inversion of a configuration are the geometric operations on the sites, and a configuration is a representative in the momentum block k exactly when it is the largest among its translates and k is compatible with its period.", "quantifier": "all L, a dividing L, k, configurations", "why_tests_cant": "All L and configurations.", "anchors": ["quspin/basis/basis_1d/_basis_1d_core/sources/hcp_bitops.pyx", "quspin/basis/basis_1d/_basis_1d_core/sources/checkstate.pyx", "quspin/basis/basis_1d/_basis_1d_core/sources/refstate.pyx"]}
{"id": "C39", "title": "Lanczos basis", "statement": "In exact arithmetic the vectors and coefficients returned by the Lanczos routines satisfy the three-term recurrence, the vectors are orthonormal, the full and the iterator variants return the same tridiagonal matrix, and re-iterating the vector generator reproduces the same vectors.", "quantifier": "all Hermitian operators, start vectors, numbers of steps", "why_tests_cant": "Universally quantified over operators; break-down is a measure-zero event in random tests.", "anchors": ["quspin/tools/lanczos/_lanczos_utils.py"]}
{"id": "C40", "title": "Floquet time vectors split consistently", "statement": "The up, const and down segments of a Floquet time vector partition the time vector in order, and the stroboscopic indices of every segment point at the stroboscopic times of the whole vector.", "quantifier": "all N_up, N_const, N_down, len_T", "why_tests_cant": "All index arithmetic combinations.", "anchors": ["quspin/tools/Floquet.py:Floquet_t_vec"]}
{"id": "C41", "title": "Renyi entropies", "statement": "The entanglement entropy returned for Renyi parameter alpha is 1/(1-alpha) log(sum_i p_i^alpha) of the spectrum of the reduced density matrix.", "quantifier": "all spectra, all alpha>=0, alpha != 1", "why_tests_cant": "Real-valued identity for every spectrum.", "anchors": ["quspin/basis/lattice.py:_ent_entropy", "quspin/basis/tensor.py:ent_entropy"]}
{"id": "C42", "title": "Projectors to and from the full space", "statement": "The matrix that expands a reduced state to the full space is an isometry onto the symmetric subspace; projecting a full state back is its adjoint, so that project_to(project_from(v)) = v.", "quantifier": "all commuting maps, quantum numbers, vectors", "why_tests_cant": "All groups and vectors.", "anchors": ["quspin/basis/basis_general/_basis_general_core/source/general_basis_get_vec.h", "quspin/basis/basis_general/base_general.py:get_proj,project_from,project_to"]}
{"id": "C43", "title": "Conserved photon bases restrict the tensor operator", "statement": "In a photon basis with conserved total number, the operator returned for a number-conserving string is the restriction of the tensor-product operator to the sector.", "quantifier": "all number-conserving strings, all Ntot", "why_tests_cant": "All strings and totals.", "anchors": ["quspin/basis/photon.py:photon_basis.Op"]}
{"id": "C44", "title": "Matrix-free application agrees with the assembled matrix", "statement": "Applying an operator string to a vector without building the matrix adds exactly coupling times the matrix (transposed or conjugated when asked) times the vector to the output, whatever the order in which the parallel loop handles the states.", "quantifier": "all operators, vectors, transpose/conjugate flags and processing orders", "why_tests_cant": "All vectors and schedules.", "anchors": ["quspin/basis/basis_general/_basis_general_core/source/general_basis_op.h:general_inplace_op_core", "quspin/basis/basis_general/base_general.py:_inplace_Op"]}
{"id": "C45", "title": "Fermionic symmetry maps act as operators with the right sign", "statement": "For a spinless-fermion basis the sign attached to the image of a configuration under a user map is the sign obtained by moving the creation operators to their new sites and sorting them, so a pure site permutation U satisfies U c+_i = c+_map(i) U on every configuration and applying two permutations multiplies the signs.", "quantifier": "all N, all valid maps, all configurations", "why_tests_cant": "All N! 2^N maps and 2^N configurations; the sign comes from counting exchanges in a merge sort.", "anchors": ["quspin/basis/basis_general/_basis_general_core/source/spinless_fermion_basis_core.h:spinless_fermion_map_bits", "quspin/basis/basis_general/_basis_general_core/source/spinless_fermion_basis_core.h:getf_count"]}
{"id": "C46", "title": "The non-commuting warning is issued exactly for non-commuting maps", "statement": "Constructing a basis from several user maps warns that the symmetries do not commute exactly when two of the maps do not commute as transformations of the configurations.", "quantifier": "all N, all pairs of valid maps", "why_tests_cant": "All pairs of signed permutations.", "anchors": ["quspin/basis/basis_general/base_general.py:check_symmetry_maps"]}
{"id": "C47", "title": "Accepted fermionic maps form a symmetry group with their signs", "statement": "When a fermionic basis accepts a list of user maps that commute as transformations of the configurations, the maps together with the signs the basis attaches to them have the periods the library uses and commute with each other, so that the symmetry blocks are blocks of a symmetry group and Hermitian operators commuting with the maps have Hermitian matrices in each block.", "quantifier": "all N, all lists of accepted commuting maps, all configurations", "why_tests_cant": "All lists of commuting signed permutations and all 2^N configurations.", "anchors": ["quspin/basis/basis_general/_basis_general_core/source/spinless_fermion_basis_core.h:spinless_fermion_map_bits", "quspin/basis/basis_general/base_general.py:process_map"]}
{"id": "C48", "title": "Sparse products with several vectors are right for every memory layout", "statement": "Multiplying a CSR, CSC or DIA matrix with an array of several column vectors stores in (or adds to) element (i,v) of the output, and nowhere else, a times row i times vector v, for every row and column stride of the input and the output array.", "quantifier": "all matrices, all numbers of vectors, all strides for which the elements of the output are different cells", "why_tests_cant": "Unbounded sizes and strides; wrong layouts write outside the output array.", "anchors": ["quspin/tools/matvec/_oputils/csr.h:csr_matvecs_noomp_strided", "quspin/tools/matvec/_oputils/csc.h:csc_matvecs_noomp_strided", "quspin/tools/matvec/_oputils/dia.h:dia_matvecs_noomp_strided"]}
{"id": "C49", "title": "matvec and the functions of get_matvec_function honour overwrite_out, out and a", "statement": "matvec(array, other, overwrite_out, out, a) and the functions returned by get_matvec_function return a*array*other in a new array when out is None, and otherwise store it in out (overwrite_out=True) or add it to out, and return out.", "quantifier": "all matrices, vectors, factors a, contents of out", "why_tests_cant": "All arguments.", "anchors": ["quspin/tools/matvec/matvec_core.py:matvec", "quspin/tools/matvec/_oputils.pyx:_csr_dot"]}
{"id": "C53", "title": "In-place addition and subtraction agree with the out-of-place operations", "statement": "H += G, H -= G, H += M and H -= M change H into the operator that H + G, H - G, H + M and H - M return, at every time.", "quantifier": "all hamiltonians H and G, all sparse or dense matrices M, all t", "why_tests_cant": "All decompositions in static and dynamic parts and all coincidences of drive functions.", "anchors": ["quspin/operators/hamiltonian_core.py:hamiltonian._iadd_hamiltonian,_isub_hamiltonian,_iadd_sparse,_isub_sparse,_iadd_dense,_isub_dense"]}
{"id": "C54", "title": "project_to is a change of basis at every time", "statement": "H.project_to(P) evaluates at every time t to P^dagger H(t) P, for P an array, a sparse matrix or a hamiltonian, square or (arrays) rectangular.", "quantifier": "all hamiltonians, all P, all t", "why_tests_cant": "All decompositions in static and dynamic parts.", "anchors": ["quspin/operators/hamiltonian_core.py:hamiltonian.project_to"]}
{"id": "C50", "title": "The constructor of hamiltonian builds the operator its lists describe", "statement": "hamiltonian(static, dynamic, basis) evaluates at every time t to the sum of J times the matrix of the operator string over all bonds of the static list, plus the sum of f(t,*f_args) times J times the matrix of the operator string over all bonds of the dynamic list; hamiltonian(matrices, ...) to the sum of the matrices and drives times matrices.", "quantifier": "all static and dynamic lists, all drives and arguments, all t", "why_tests_cant": "All coincidences of strings, sites, drives and arguments.", "anchors": ["quspin/operators/hamiltonian_core.py:hamiltonian.__init__", "quspin/operators/_make_hamiltonian.py:make_static,make_dynamic"]}
{"id": "C51", "title": "All ways of evaluating a hamiltonian agree", "statement": "The matrices returned by tocsr, tocsc, todense, toarray and H(t), the element H[t,i,j], the diagonal, the trace, and the products dot and rdot (with their arguments a, out, overwrite_out and arrays of times) are all those of the one operator S + sum f(t) D.", "quantifier": "all operators, all formats of all parts, all times, states, scalars and output arrays", "why_tests_cant": "Tests compare a few methods on a few formats; agreement must hold for every combination of formats, output arguments and times.", "anchors": ["quspin/operators/hamiltonian_core.py: dot, rdot, tocsr, tocsc, todense, toarray, diagonal, trace, __getitem__, __call__"]}
{"id": "C52", "title": "Time evolution follows the equations of motion", "statement": "H.evolve passes to the solver the right-hand side of the Schroedinger equation (real or imaginary time, complex or stacked real arrays) or of the von Neumann equation; evolve returns for each requested time the state of the exact solution, in imaginary time with the norm of the initial state.", "quantifier": "all operators and formats, all states, all lists of times, all exact solvers", "why_tests_cant": "The right-hand side depends on formats and on symmetry of the matrix; tests use real symmetric operators, for which a wrong transpose is invisible.", "anchors": ["quspin/operators/hamiltonian_core.py: evolve, __LO, __ISO, __SO_real, __SO", "quspin/tools/evolution.py: evolve, _format_output, _evolve_list, _evolve_scalar"]}
{"id": "C55", "title": "Changing matrix formats never changes the operator", "statement": "update_matrix_formats gives the static and time-dependent parts the requested formats and leaves the operator and all later products unchanged, also if the call fails.", "quantifier": "all operators, all requests, all points of failure", "why_tests_cant": "The state left behind by a failed call, and combinations of formats, are not enumerable in tests.", "anchors": ["quspin/operators/hamiltonian_core.py: update_matrix_formats, _get_matvecs"]}
{"id": "C56", "title": "Evolution in the eigenbasis solves the equation of motion", "statement": "ED_state_vs_time returns, for states and density matrices, as array or generator, the solution of the Schroedinger or von Neumann equation that starts at the given state.", "quantifier": "all Hermitian operators with their eigensystems, all states, density matrices and times", "why_tests_cant": "Numerical comparison covers particular matrices and times only.", "anchors": ["quspin/tools/evolution.py: ED_state_vs_time"]}
{"id": "C57", "title": "Expectation values, fluctuations and matrix elements", "statement": "expt_value, quant_fluct and matrix_ele return <psi|H|psi>, <psi|H^2|psi>-<psi|H|psi>^2 and <phi|H|psi>, or tr(H rho) and tr(H^2 rho)-tr(H rho)^2, for one state, several states, density matrices and arrays of times.", "quantifier": "all operators, dimensions, states, density matrices and times", "why_tests_cant": "Branches depend on the dimension, the number of states and flags; the wrong ones are hit only for special shapes or operators that are not Hermitian.", "anchors": ["quspin/operators/hamiltonian_core.py: expt_value, _expt_value_core, quant_fluct, matrix_ele"]}
{"id": "C58", "title": "The particle-conservation check accepts exactly conserving operator lists", "statement": "check_pcon raises no error exactly when the operator defined by the operator lists conserves the number of particles (the magnetisation), at all times.", "quantifier": "all operator lists, including strings with repeated sites, repeated terms and several drives", "why_tests_cant": "Acceptance is decided on expanded and merged term lists; all strings and all ways of cancelling matter.", "anchors": ["quspin/basis/base.py: check_pcon, _expand_local_list, _consolidate_local_lists"]}
{"id": "C59", "title": "Arithmetic with quantum operators is correct and leaves other operators unchanged", "statement": "A+B, A-B, x*A, copies and transposes of quantum_operators have, for all parameters, the value that the mathematical expression has, and neither they nor in-place operations on one operator change any other operator or matrix of the user.", "quantifier": "all programs of such statements, all operators, names, parameters and matrices", "why_tests_cant": "Sharing of matrices shows up only in later statements of a program.", "anchors": ["quspin/operators/quantum_operator_core.py:__init__,__iadd__,__isub__,__imul__,__neg__,__add__,__sub__,__mul__,copy,transpose,astype"]}
{"id": "C60", "title": "Matrix exponentials at grid points", "statement": "exp_op.dot, rdot and sandwich give exp(aO)V, V exp(aO) and exp(aO)^dagger C exp(aO); with a grid they give the same with a replaced by a*t for every grid point t, in order; a shift s replaces O by O-s.", "quantifier": "all operators, numbers a, states, matrices and grids", "why_tests_cant": "The values along a grid are accumulated step by step; all grids and start points matter.", "anchors": ["quspin/operators/exp_op_core.py:dot,rdot,sandwich,set_grid,_iter_dot,_iter_rdot,_iter_sandwich"]}
{"id": "C61", "title": "Matrix exponentials and thermal averages from a Lanczos basis", "statement": "For a Hermitian operator A, a start vector r, the orthonormal Lanczos basis built from r and the eigenpairs of its tridiagonal matrix: expm_lanczos(E,V,Q_T,c) is exp(cA) r/|r| when the iteration ended without a residual, and Q exp(cT) e_0 in general, where T reproduces A^j r for all j below the number of Lanczos vectors; FTLM_static_iteration returns <r|exp(-beta A) O|r>/|r|^2 and <r|exp(-beta A)|r>/|r|^2.", "quantifier": "all dimensions, Hermitian operators, start vectors, numbers of Lanczos vectors, complex exponents, observables and inverse temperatures", "why_tests_cant": "Tests compare a few random matrices at a tolerance that hides a wrong weight or index; the identity has to hold for every operator, start vector and basis size.", "anchors": ["quspin/tools/lanczos/_expm.py:expm_lanczos", "quspin/tools/lanczos/_FTLM.py:FTLM_static_iteration"]}
{"id": "C62", "title": "Thermal averages of the low-temperature Lanczos method", "statement": "LTLM_static_iteration returns <r|exp(-beta A/2) O exp(-beta A/2)|r>/|r|^2 and <r|exp(-beta A)|r>/|r|^2 when the Lanczos iteration ended without a residual; the ratio of the two does not change when a constant is added to the Hamiltonian, and it is one for the identity.", "quantifier": "all dimensions, Hermitian operators, start vectors, numbers of Lanczos vectors, observables, inverse temperatures and energy offsets", "why_tests_cant": "The code drops Ritz values below machine precision; whether that is harmless depends on the spectrum and temperature, which tests only sample near infinite temperature.", "anchors": ["quspin/tools/lanczos/_LTLM.py:LTLM_static_iteration"]}
{"id": "C63", "title": "One-dimensional symmetry blocks store exactly the representatives", "statement": "In a one-dimensional basis with a parity, inversion, sublattice-inversion, parity-times-inversion, parity-and-inversion, or momentum-and-inversion block, a configuration is stored if and only if it is the largest of its orbit under the requested symmetries and its projection onto the requested quantum numbers does not vanish, and the number stored with it gives the norm of the projection.", "quantifier": "all chains (spins, bosons, spinless and spinful fermions), lengths, unit cells, momenta, quantum numbers and configurations", "why_tests_cant": "The number of configurations grows exponentially; exceptions occur only for configurations with special stabilisers.", "anchors": ["quspin/basis/basis_1d/_basis_1d_core/sources/checkstate.pyx", "quspin/basis/basis_1d/_basis_1d_core/sources/basis_templates.pyx", "quspin/basis/basis_1d/base_1d.py: basis_1d.__init__"]}
{"id": "C66", "title": "Sublattice blocks act on the documented sublattices", "statement": "zAblock/cAblock inverts the sites with even index and zBblock/cBblock the sites with odd index.", "quantifier": "all chain lengths, local dimensions and configurations", "why_tests_cant": "Must hold for every length; spectra of symmetric Hamiltonians do not reveal an exchange of the sublattices.", "anchors": ["quspin/basis/basis_1d/spin.py: spin_basis_1d.__init__", "quspin/basis/basis_1d/boson.py", "quspin/basis/basis_1d/_basis_1d_core/sources/hcp_bitops.pyx", "quspin/basis/basis_1d/_basis_1d_core/sources/boson_bitops.pyx"]}
{"id": "C64", "title": "One-dimensional bases find the representative of every state", "statement": "For every configuration, the representative that a one-dimensional basis assigns to it is the largest configuration of its orbit under the symmetries of the block, and the reported exponents and sign say how the symmetries take the configuration to the representative.", "quantifier": "all chains (spins, bosons, spinless and spinful fermions), lengths, unit cells and configurations", "why_tests_cant": "Must hold for every configuration of every length; wrong signs appear only for particular fermion configurations.", "anchors": ["quspin/basis/basis_1d/_basis_1d_core/sources/refstate.pyx"]}
{"id": "C65", "title": "Matrices in one-dimensional symmetry blocks are restrictions of the operator", "statement": "For an operator that commutes with the symmetries, the matrix built in a one-dimensional basis with symmetry blocks consists of the matrix elements of the operator between the normalised projections of the stored representatives onto the quantum numbers; a real data type is refused for complex momenta.", "quantifier": "all chains, lengths, unit cells, momenta, quantum numbers, sectors and sums of operator strings that commute with the symmetries", "why_tests_cant": "Must hold for every operator and block; tests compare spectra of a few Hamiltonians.", "anchors": ["quspin/basis/basis_1d/_basis_1d_core/sources/op_templates.pyx", "quspin/basis/basis_1d/_basis_1d_core/sources/basis_templates.pyx", "quspin/basis/basis_1d/base_1d.py: basis_1d.__init__, _Op"]}
{"id": "C67", "title": "One-dimensional bases without symmetry blocks list exactly the configurations of the sectors", "statement": "A one-dimensional basis without symmetry blocks contains every configuration with one of the requested particle numbers (all configurations if none is requested) once, in decreasing order, and nothing else.", "quantifier": "all chain lengths, numbers of levels per site and sets of particle numbers (pairs for fermions with spin, with or without doubly occupied sites)", "why_tests_cant": "Depends on integer widths and enumeration by bit tricks that must be right for every length and filling; large lengths cannot be enumerated in a test.", "anchors": ["quspin/basis/basis_1d/base_1d.py: basis_1d.__init__", "quspin/basis/basis_1d/_basis_1d_core/hcp_basis.pyx", "quspin/basis/basis_1d/_basis_1d_core/boson_basis.pyx", "quspin/basis/basis_1d/_basis_1d_core/spf_basis.pyx", "quspin/basis/basis_1d/_basis_1d_core/sources/basis_templates.pyx"]}
{"id": "C68", "title": "Matrices in one-dimensional bases without symmetry blocks", "statement": "The matrix built for a sum of operator strings in a one-dimensional basis without symmetry blocks has, between any two configurations of the basis, the matrix element of the operator; contributions that leave the basis are dropped.", "quantifier": "all bases without blocks and all sums of operator strings", "why_tests_cant": "Must hold for every operator string and every basis, including strings that leave the basis.", "anchors": ["quspin/basis/basis_1d/_basis_1d_core/sources/op_templates.pyx: op_template, n_op_template", "quspin/basis/base.py: _make_matrix"]}
{"id": "C69", "title": "The parallel action of a matrix exponential does not depend on the threads and converges to the exponential", "statement": "expm_multiply_parallel(A,a).dot(v) gives the shifted and scaled Taylor series of exp(a A) v, the same for every number of threads and every order in which they run; with growing number of terms it tends to exp(a A) v.", "quantifier": "all sparse matrices, vectors, constants a, numbers of threads and schedules, numbers of steps and terms", "why_tests_cant": "Schedules of threads cannot be enumerated, and the number of threads is chosen by the machine.", "anchors": ["quspin/tools/expm_multiply_parallel_core/expm_multiply_parallel_core.py: expm_multiply_parallel.dot", "quspin/tools/expm_multiply_parallel_core/source/expm_multiply_parallel.h: _expm_multiply", "quspin/tools/expm_multiply_parallel_core/source/csr_utils.h", "quspin/tools/expm_multiply_parallel_core/source/math_functions.h"]}
{"id": "C70", "title": "Vectors of one-dimensional symmetry blocks are taken to the right vectors of the full space", "statement": "project_from(v,sparse) (get_vec) of a one-dimensional basis gives the combination of the normalised projections of the stored states with the components of v, dense and sparse alike; the columns of get_proj are these projections, in the full space or in the sector of fixed particle number; inner products are kept; the states of the basis are unchanged afterwards.", "quantifier": "all chains (spins, bosons, spinless and spinful fermions), lengths, unit cells, momenta, block signs, stored states and vectors", "why_tests_cant": "Ranges over all lengths, blocks and vectors; the norms are decoded from bytes whose overflow shows only in long chains.", "anchors": ["quspin/basis/basis_1d/base_1d.py: basis_1d.project_from", "quspin/basis/basis_1d/base_1d.py: basis_1d.get_proj", "quspin/basis/basis_1d/base_1d.py: basis_1d._get_norms", "quspin/basis/basis_1d/base_1d.py: _get_vec_dense", "quspin/basis/basis_1d/base_1d.py: _get_vec_sparse", "quspin/basis/basis_1d/base_1d.py: _get_proj_sparse"]}
{"id": "C71", "title": "representative, normalization and get_amp describe the symmetry-reduced basis", "statement": "For a general basis with symmetries: representative(states) returns for every state the largest configuration of its symmetry orbit, with exponents of the symmetries that lead there and the sign, for every combination of optional outputs, thread count, distribution of the states and order of the writes (also in the branch where every thread runs the whole loop). normalization(states) returns the square of the norm of the projection of a representative onto the quantum numbers and zero for other states, or raises TypeError when a value does not fit the output type. get_amp in full_basis mode replaces every state by its representative and returns the amplitude on the state of the normalised basis state, zero if the state is excluded; given amplitudes of a vector it returns the coefficients in the reduced basis; in representative mode it turns coefficients into amplitudes.", "quantifier": "all sets of commuting signed maps with periods and quantum numbers (at most 32), all lists of states, all numbers of threads, distributions, interleavings and early exits on errors, real and complex outputs", "why_tests_cant": "Unit tests compare a few states of a few lattices on one schedule; the statement covers every symmetry group, state and interleaving of the writes.", "anchors": ["quspin/basis/basis_general/base_general.py:representative,normalization,get_amp", "quspin/basis/basis_general/_basis_general_core/source/general_basis_rep.h:general_normalization,general_representative", "quspin/basis/basis_general/_basis_general_core/source/general_basis_get_amp.h:get_amp_rep,get_amp_general,get_amp_general_light", "quspin/basis/basis_general/_basis_general_core/source/general_basis_core.pyx:representative,normalization,get_amp"]}
{"id": "C72", "title": "Op_bra_ket and Op_shift_sector give matrix elements between symmetry-projected states", "statement": "For a general basis: calling Op_bra_ket for every term of an operator that commutes with the symmetries gives lists of (matrix element, bra, ket) that name only states of the basis and whose coefficients of |t><s| add up to the matrix element of the operator between the normalised symmetry-projected states, for every number of threads and distribution of the kets, with and without reduce_output; a real dtype keeps the real part. Op_shift_sector adds P2^dagger O P1 v_in to v_out for an operator that takes the quantum numbers of the first basis to those of the second, for every order of the parallel loop.", "quantifier": "all sets of commuting signed maps with periods and quantum numbers (at most 32), all operators as lists of terms, all lists of distinct kets, all vectors, all thread counts, distributions, orders and contents of uninitialised memory", "why_tests_cant": "The result depends on the schedule and on what was left in memory; unit tests see one schedule of one small lattice.", "anchors": ["quspin/basis/basis_general/base_general.py:Op_bra_ket,Op_shift_sector", "quspin/basis/basis_general/_basis_general_core/source/general_basis_op.h:general_op_bra_ket,general_op_bra_ket_pcon,general_op_shift_sectors", "quspin/basis/basis_general/_basis_general_core/general_basis_core.pyx:op_bra_ket,op_shift_sector", "quspin/basis/basis_general/spin.py:Op_shift_sector", "quspin/basis/basis_general/fermion.py:Op_shift_sector"]}
{"id": "C73", "title": "diag_ensemble returns averages over infinite time", "statement": "After a quench to a Hamiltonian without degenerate energies, diag_ensemble returns lim 1/T int_0^T of the expectation value of the observable in the evolving state (pure, density matrix, or an ensemble of states with a given distribution), the standard deviation of the expectation value in time (delta_t_Obs), the square root of the time-averaged quantum variance (delta_q_Obs), and the diagonal (Renyi) entropy of the weights; energies closer than 1000 eps raise TypeError.", "quantifier": "all Hamiltonians with an orthonormal eigenbasis, all solutions of the Schroedinger / von Neumann equation, all observables, distributions, lists of arguments, system sizes and flags", "why_tests_cant": "The property speaks about the limit of infinite times and about every Hamiltonian, state and observable; tests compare with one numerical average.", "anchors": ["quspin/tools/measurements.py:diag_ensemble,_inf_time_obs"]}
{"id": "C74", "title": "Semi-momentum blocks: basis and matrices", "statement": "In a block of momentum and reflection (kblock with pblock), or of momentum and the product of reflection and inversion (kblock with pzblock), of a one-dimensional basis the states of the basis, of which two may share one configuration, are an orthonormal basis of all vectors made of waves with momentum k and -k that have the requested eigenvalue; the matrix built for an operator that commutes with the symmetries consists of its matrix elements between these states.", "quantifier": "all chains (spins, bosons, spinless and spinful fermions), lengths, unit cells, momenta, eigenvalues, particle sectors closed under the symmetries, and operators that commute with the symmetries", "why_tests_cant": "Whether a configuration is kept once, twice or not at all depends on its period, on the sign and on where its reflection is found among the translates; tests compare spectra for a few lengths and momenta.", "anchors": ["quspin/basis/basis_1d/_basis_1d_core/sources/basis_templates.pyx:make_t_p_basis_template,make_t_pz_basis_template", "quspin/basis/basis_1d/_basis_1d_core/sources/op_templates.pyx:MatrixElement_T_P,t_p_op_template,t_pz_op_template", "quspin/basis/basis_1d/_basis_1d_core/sources/checkstate.pyx:CheckState_T_P_template,CheckState_T_PZ_template"]}
{"id": "C75", "title": "Vectors of semi-momentum blocks in the full space", "statement": "For a block of momentum and reflection, or of momentum and the product of reflection and inversion, project_from (get_vec), dense and sparse, takes a vector of the block to the combination of the normalised semi-momentum states of the basis, keeps inner products and leaves the basis as it was; the columns of get_proj, in the full space or in a particle sector, are these states.", "quantifier": "all chains, lengths, unit cells, momenta, eigenvalues, particle sectors closed under the symmetries, and vectors of the block", "why_tests_cant": "A configuration may enter twice, with a cosine and a sine, its norm is read back from two stored integers, and the loop moves the stored states through all translations; tests look at a few lengths with a unit cell of one site.", "anchors": ["quspin/basis/basis_1d/base_1d.py:basis_1d.project_from,basis_1d.get_proj,basis_1d._get_norms,_get_vec_dense,_get_vec_sparse,_get_proj_sparse"]}
{"id": "C76", "title": "Semi-momentum blocks with reflection and inversion", "statement": "With a momentum, a reflection and an inversion eigenvalue given together (kblock, pblock, zblock), the states of the basis of a one-dimensional chain are an orthonormal basis of all vectors made of waves with momentum k and -k that have the two eigenvalues, and the matrix built for an operator that commutes with the three symmetries is its matrix in these states.", "quantifier": "all chains with an inversion (spins, bosons, fermions with spin), lengths, unit cells, momenta, both eigenvalues, particle sectors closed under the symmetries, and all operators given by terms that commute with the symmetries", "why_tests_cant": "Which of reflection, inversion and their product return a configuration to one of its translates is packed into one integer with ten cases; every case has its own norm and matrix element, and which cases occur depends on length, momentum and signs. Tests compare spectra of short chains.", "anchors": ["quspin/basis/basis_1d/_basis_1d_core/sources/basis_templates.pyx:make_t_p_z_basis_template", "quspin/basis/basis_1d/_basis_1d_core/sources/checkstate.pyx:CheckState_T_P_Z_template", "quspin/basis/basis_1d/_basis_1d_core/sources/refstate.pyx:RefState_T_P_Z_template", "quspin/basis/basis_1d/_basis_1d_core/sources/op_templates.pyx:MatrixElement_T_P_Z,t_p_z_op_template"]}
{"id": "C77", "title": "Vectors of blocks of momentum, reflection and inversion", "statement": "project_from (get_vec) and get_proj of a one-dimensional basis with kblock, pblock and zblock take a vector of the block to the combination of the normalised states the basis stands for, densely and sparsely, keep inner products and leave the basis as it was.", "quantifier": "all chains with an inversion, lengths, unit cells, momenta, eigenvalues, sectors and vectors", "why_tests_cant": "The norms are decoded from a packed integer whose range grows with the square of the length; the tests use short chains.", "anchors": ["quspin/basis/basis_1d/base_1d.py:project_from,get_proj,_get_norms,_get_vec_dense,_get_vec_sparse,_get_proj_sparse"]}
{"id": "C78", "title": "check_symm accepts only operator lists that have the symmetries of the basis", "statement": "When check_symm raises nothing, the operators given by static and dynamic lists commute with every symmetry the basis was built with (translation, reflection, spin inversion, their products, or the maps of a general lattice), at all values of the drives; lists that have the symmetries are accepted.", "quantifier": "all lattices, unit cells, maps, operator lists, couplings and drives", "why_tests_cant": "The check compares terms of a list of any length as strings, sites and numbers; whether this settles a statement about matrices of any size cannot be seen from samples.", "anchors": ["quspin/basis/basis_1d/_check_1d_symm.py:check_T,check_P,check_Z,check_PZ,check_ZA,check_ZB", "quspin/basis/basis_1d/_check_1d_symm_spf.py", "quspin/basis/basis_1d/base_1d.py:_check_symm", "quspin/basis/basis_general/base_general.py:_check_symm,_check_symm_map", "quspin/basis/base.py:check_symm"]}
{"id": "C79", "title": "Floquet describes the evolution over one period", "statement": "Floquet computes the evolution operator UF over one period of a continuous or stepwise protocol, its phases thetaF, the ordered quasienergies EF with exp(-i T EF) = thetaF, an orthonormal basis VF of Floquet states (also for degenerate phases), and a Hermitian Floquet Hamiltonian HF with exp(-i T HF) = UF.", "quantifier": "all dimensions, Hermitian protocols, numbers and durations of steps, drives, and combinations of requested attributes", "why_tests_cant": "The tests compare with one protocol; transposition, order of steps and degenerate phases show only for particular Hamiltonians.", "anchors": ["quspin/tools/Floquet.py:Floquet,_get_U_cont,_get_U_step_2,_get_U_step_3,_evolve_cont,_evolve_step_2,_evolve_step_3"]}
{"id": "C80", "title": "project_op carries operators between a space and a subspace", "statement": "project_op(Obs, proj) gives P^dagger O P for an operator on the large space and P O P^dagger for one on the small space, for arrays and for hamiltonians at every time; matrix elements between reduced states are those between the embedded states; for orthonormal columns going up and down again is the identity; other shapes raise.", "quantifier": "all dimensions, projectors, operators, drives and times", "why_tests_cant": "The tests project one static operator; rectangular projectors and driven operators take other branches.", "anchors": ["quspin/tools/misc.py:project_op", "quspin/operators/hamiltonian_core.py:hamiltonian.project_to,_rmul_sparse,_imul_sparse"]}
{"id": "C81", "title": "KL_div is the relative entropy", "statement": "KL_div(p1,p2) returns the relative entropy for every pair of discrete probability distributions; it is not negative and zero exactly when the distributions agree.", "quantifier": "all lengths and all distributions", "why_tests_cant": "Positivity and the characterisation of zero are statements about all distributions.", "anchors": ["quspin/tools/misc.py:KL_div"]}
{"id": "C82", "title": "mean_level_spacing is the mean ratio of neighbouring spacings", "statement": "mean_level_spacing(E) returns the mean of min/max of consecutive spacings of an ascending list without repetitions; the value lies in (0,1], is 1 exactly for equally spaced levels and does not depend on unit and origin of energy; it is nan exactly for degenerate spectra and an exception exactly for lists that are not ascending.", "quantifier": "all finite lists of energies", "why_tests_cant": "Range and invariance are statements about all spectra.", "anchors": ["quspin/tools/misc.py:mean_level_spacing"]}
{"id": "C83", "title": "obs_vs_time gives the expectation values of every observable at every time", "statement": "obs_vs_time returns, for each key of the dictionary, <psi(t)|O(t)|psi(t)> (or tr O(t) rho(t)) at every time, with the same values whether the states are given by an eigensystem, an array or a generator and whether or not they are returned; entropies are those of the states at the times; the arguments are left alone.", "quantifier": "all dimensions, dictionaries of matrices and driven operators, lists of times, states, density matrices, eigensystems and options", "why_tests_cant": "The tests run a few examples; coincidences of the number of times with the dimension, single times and several states per time take other branches.", "anchors": ["quspin/tools/measurements.py:obs_vs_time", "quspin/tools/evolution.py:ED_state_vs_time", "quspin/operators/hamiltonian_core.py:hamiltonian.expt_value,_expt_value_core"]}
{"id": "C84", "title": "ent_entropy describes the state it is given", "statement": "tools.measurements.ent_entropy returns entropy, reduced density matrices and singular values of the given state, density matrix, or density matrix given by eigenvectors in columns and eigenvalues.", "quantifier": "all dimensions, states, density matrices and options", "why_tests_cant": "For symmetric matrices of eigenvectors rows and columns agree; a wrong choice shows only for others.", "anchors": ["quspin/tools/measurements.py:ent_entropy"]}
{"id": "C85", "title": "Constructors of one-dimensional bases respect every quantum number they are given", "statement": "spin_basis_1d, boson_basis_1d, spinless_fermion_basis_1d and spinful_fermion_basis_1d either raise or make the block of exactly the vectors that have all the quantum numbers given as kblock, pblock, zblock (cblock, sblock), zAblock, zBblock, pzblock; momenta count modulo the number of unit cells; accepted symmetries of sublattices commute with the translation.", "quantifier": "all lengths, unit cells, numbers of levels, combinations and values of the block labels, all families of linear maps that represent the symmetries", "why_tests_cant": "There are 64 combinations of labels for each class; tests try the common ones. A label that is ignored gives a larger block without any error.", "anchors": ["quspin/basis/basis_1d/base_1d.py:basis_1d.__init__", "quspin/basis/basis_1d/spin.py:spin_basis_1d.__init__", "quspin/basis/basis_1d/boson.py:boson_basis_1d.__init__", "quspin/basis/basis_1d/fermion.py:spinless_fermion_basis_1d.__init__,spinful_fermion_basis_1d.__init__"]}
{"id": "C86", "title": "Particle sectors of one-dimensional bases fit the symmetries and the documentation", "statement": "If a one-dimensional basis with given particle numbers and inversion is made, inversion carries the sectors to themselves, and if inversion does so the basis is made; negative Nup counts from the top; m is the documented density.", "quantifier": "all lengths, numbers of levels, particle numbers, lists of particle numbers, labels", "why_tests_cant": "The wrong cases are accepted (or refused) silently for combinations the tests do not try.", "anchors": ["quspin/basis/basis_1d/spin.py:spin_basis_1d.__init__", "quspin/basis/basis_1d/boson.py:boson_basis_1d.__init__", "quspin/basis/basis_1d/fermion.py:spinful_fermion_basis_1d.__init__"]}
{"id": "C87", "title": "Photon bases with conserved quanta contain all states", "statement": "photon_basis(constructor, L, Ntot=N) contains the product states of every particle configuration with at most N particles and the remaining quanta as photons.", "quantifier": "all lengths, levels per site and numbers of quanta, for spins, bosons, spinless and spinful fermions", "why_tests_cant": "A missing sector changes spectra but raises nothing; the tests use spin-1/2 chains.", "anchors": ["quspin/basis/photon.py:photon_basis.__init__", "quspin/basis/basis_1d/spin.py:_Np", "quspin/basis/basis_1d/boson.py:_Np", "quspin/basis/basis_1d/fermion.py:_Np"]}
{"id": "C88", "title": "block_ops moves states of the full space through symmetry blocks", "statement": "For blocks that a Hamiltonian leaves invariant, block_ops.evolve returns the states of the motion in the full space that starts from the part of the given state in the blocks, and block_ops.expm returns exp(t a (H+shift)) of that part, up to the documented-by-code tolerance per block; this does not depend on what was called before, on saved data, on n_jobs, on iterate or on the grouping of blocks.", "quantifier": "all sets of blocks, states, Hamiltonians (also driven), times, grids, and all histories of update_blocks, compute_all_blocks, evolve and expm, including calls that raise", "why_tests_cant": "Data kept from earlier calls can only be wrong after particular histories, and a block counted twice or left out changes the state without an error.", "anchors": ["quspin/tools/block_tools.py:block_ops.__init__,update_blocks,compute_all_blocks,_get_P,_get_H,evolve,expm,_expm_gen,_block_expm_iter,_block_evolve_iter"]}
{"id": "C89", "title": "quantum_LinearOperator acts as the sum of its operator strings and its diagonal", "statement": "A quantum_LinearOperator made from operator strings and an optional diagonal acts in dot, expt_value and matrix_ele as the matrix that is the sum of all strings and the diagonal, whichever strings are diagonal; set_diagonal replaces the whole diagonal part; numbers, output arrays and sparse matrices are handled as documented and arguments are not changed.", "quantifier": "all bases, operator strings, diagonals, states, sets of states, density matrices, factors", "why_tests_cant": "Tests compare a few chains with hamiltonian; the split into a stored diagonal and strings depends on every matrix element of every string in the block.", "anchors": ["quspin/operators/quantum_LinearOperator_core.py:quantum_LinearOperator.__init__,set_diagonal,dot,expt_value,quant_fluct,matrix_ele,_matvec,_mul_scalar,_mul_sparse", "quspin/basis/base.py:_coo_dot,_is_diagonal,_update_diag,basis._inplace_Op"]}
{"id": "C90", "title": "Checks of operator lists in photon bases", "statement": "A photon basis accepts an operator list in the check for hermiticity only if the sum of its operators is hermitian, and in the check for conservation only if every term conserves the total number of quanta.", "quantifier": "all static and dynamic operator lists of spins or bosons with photons", "why_tests_cant": "The checks must refuse every list that is not hermitian or does not conserve the number; tests use a few good lists.", "anchors": ["quspin/basis/photon.py:photon_basis._hc_opstr,_sort_opstr,_expand_opstr,_non_zero,_get__lists", "quspin/basis/photon.py:ho_basis", "quspin/basis/base.py:basis.check_hermitian,check_pcon"]}
{"id": "C91", "title": "get_proj and project_from of tensor and photon bases", "statement": "get_proj of a tensor basis is the Kronecker product of the projectors of its parts, get_proj of a photon basis with a conserved total number puts every state of the particle basis at the level of the missing quanta, project_from is the product with the matrix of get_proj, and both keep overlaps.", "quantifier": "all parts, all states or sets of states, all cutoffs, all total numbers", "why_tests_cant": "project_from goes through a singular value decomposition or a loop over photon numbers; the results must agree for every state.", "anchors": ["quspin/basis/tensor.py:tensor_basis.get_proj,project_from,_combine_project_froms", "quspin/basis/photon.py:photon_basis.get_proj,project_from,_conserved_project_from,_conserved_get_proj"]}
{"id": "C92", "title": "Partial traces of tensor and photon bases", "statement": "partial_trace of a tensor or photon basis returns for the subsystem and for the rest the partial traces of the state, for one state, for columns of states, for one density matrix and for stacks of density matrices.", "quantifier": "all parts, all states, both subsystems, all forms of input", "why_tests_cant": "Every entry of the result for every state and form of input is concerned; tests look at the entropies of a few states.", "anchors": ["quspin/basis/tensor.py:tensor_basis.partial_trace", "quspin/basis/photon.py:photon_basis.partial_trace", "quspin/basis/_reshape_subsys.py:_tensor_partial_trace_pure,_tensor_partial_trace_mixed"]}
{"id": "C93", "title": "coherent_state and photon_Hspace_dim", "statement": "coherent_state(a,n) returns the first n amplitudes exp(-|a|^2/2) a^k/sqrt(k!) of the coherent state with amplitude a, an eigenstate of the annihilation operator; photon_Hspace_dim returns the number of states of the spin-photon space, with and without a conserved total number.", "quantifier": "all amplitudes, cutoffs, numbers of spins, quanta and photons", "why_tests_cant": "A formula with logarithms and a hypergeometric function has to agree with the definitions for all arguments.", "anchors": ["quspin/basis/photon.py:coherent_state,photon_Hspace_dim"]}
{"id": "C94", "title": "User-defined bases", "statement": "If the functions given to user_basis implement one-site operators, signed symmetry maps, an increasing enumeration of a particle sector and a criterion for states, then the basis consists of the symmetrised states that meet the criterion and all matrices are restrictions of the products of the operators; optional arguments may be left out and all documented forms of particle sectors are accepted.", "quantifier": "all user functions, symmetries, criteria, operator strings, states, numbers of threads, orders of symmetries", "why_tests_cant": "The functions are arbitrary; tests reproduce two or three built-in bases.", "anchors": ["quspin/basis/basis_general/base_user.py:user_basis.__init__,_process_user_blocks", "quspin/basis/basis_general/_basis_general_core/source/user_basis_core.h:user_basis_core.op,check_state,map_state", "quspin/basis/basis_general/_basis_general_core/user_core.pyx"]}
{"id": "C95", "title": "The order of symmetries does not matter", "statement": "Bases of the general classes built with the same symmetries in a different order (block_order) have the same states in the same order, the same norms and the same symmetrised states, and hence the same matrices.", "quantifier": "all commuting signed symmetry maps, all sectors, all permutations", "why_tests_cant": "All symmetry groups and all permutations are concerned.", "anchors": ["quspin/basis/basis_general/base_user.py:_process_user_blocks", "quspin/basis/basis_general/base_general.py:process_map", "quspin/basis/basis_general/_basis_general_core/source/general_basis_core.h"]}
{"id": "C96", "title": "General bases use every symmetry they are given", "statement": "A basis of the general classes is the basis of all symmetries given by keyword, for the default order and every block_order; keywords that are None and maps that act trivially make no difference.", "quantifier": "all lists of symmetries, quantum numbers, orders, configurations", "why_tests_cant": "Every combination of symmetries, orders and trivially acting maps is concerned.", "anchors": ["quspin/basis/basis_general/base_general.py:basis_general.__init__"]}
{"id": "C97", "title": "Particle sectors of general bases", "statement": "Bases of the general classes without maps contain exactly the configurations with the given number of particles, with one of the numbers of a list, or all configurations without a number; negative numbers of up spins count from the fully polarised state; as the lattice part of a photon basis with a total number of quanta they contain exactly the configurations with at most this number of particles.", "quantifier": "all system sizes, levels per site, numbers and lists of numbers", "why_tests_cant": "All sizes, numbers and lists are concerned.", "anchors": ["quspin/basis/basis_general/boson.py:boson_basis_general.__init__", "quspin/basis/basis_general/base_higher_spin.py:higher_spin_basis_general.__init__", "quspin/basis/basis_general/fermion.py:spinless_fermion_basis_general.__init__", "quspin/basis/basis_general/spin.py:spin_basis_general.__init__"]}
{"id": "C98", "title": "Options of get_proj, project_to and project_from of general bases", "statement": "For bases of the general classes, pcon chooses the space (all configurations, or those with the particle numbers of the basis) and sparse the format: get_proj has one row per state of that space, project_from takes arrays of any number of states of the basis to as many states of that space, project_to goes back, anything else is refused, and each accepts the other's results.", "quantifier": "all bases, options, shapes and formats of arguments", "why_tests_cant": "All combinations of sectors, options and shapes are concerned.", "anchors": ["quspin/basis/basis_general/base_general.py:basis_general.get_proj", "quspin/basis/basis_general/base_general.py:basis_general.project_to", "quspin/basis/basis_general/base_general.py:basis_general.project_from"]}
{"id": "C99", "title": "expm_multiply_parallel objects have no memory of earlier parameters", "statement": "After any sequence of calls of set_a, successful or not, an expm_multiply_parallel object acts as a new one made with the last accepted a; the constructor accepts a dtype exactly if a and A can be cast to it; dot accepts exactly vectors of the right length (with overwrite_v or a work array: of the right type), and its result type holds A, a and the vector; if a or A vanishes the result is exact.", "quantifier": "all matrices, scalars, types, vectors and histories of calls", "why_tests_cant": "All histories of calls and all combinations of types are concerned.", "anchors": ["quspin/tools/expm_multiply_parallel_core/expm_multiply_parallel_core.py:expm_multiply_parallel"]}
{"id": "C100", "title": "csr_matvec is the product of matrix and vector", "statement": "csr_matvec(A,v,a,out,overwrite_out) writes a A v to the output, or adds it, for every matrix, vector and output array, any number of threads and any order of their steps.", "quantifier": "all matrices, vectors, scalars, types, output arrays, numbers of threads and interleavings", "why_tests_cant": "All interleavings, shapes and types are concerned.", "anchors": ["quspin/tools/expm_multiply_parallel_core/csr_matvec_core.py:csr_matvec", "quspin/tools/expm_multiply_parallel_core/source/csr_matvec.h:csrmv_merge"]}
{"id": "C101", "title": "partial_trace of lattice bases reduces every given state, in every symmetry block", "statement": "For a state of a symmetry block, several states in columns, a density matrix or a stack of density matrices, partial_trace returns, for each of them, the partial trace over the other sites of its density matrix in the full space, in the order of the sites asked for; without sub_sys_A the subsystem is the first half; lists with a site twice, a number that is no site or all sites are refused.", "quantifier": "all blocks, lists of sites, numbers of states, states and density matrices, dense and sparse", "why_tests_cant": "All blocks, subsystems and ways of giving states are concerned.", "anchors": ["quspin/basis/lattice.py:lattice_basis._partial_trace", "quspin/basis/lattice.py:lattice_basis.partial_trace"]}
{"id": "C102", "title": "The methods of quantum_operator act as the sum of the matrices with the given parameters", "statement": "A quantum_operator stands for the sum of the matrices of its input, each times the parameter given for its name, or 1. dot, rdot, matvec, rmatvec, toarray/todense/tocsr/tocsc, aslinearoperator, getH, conj, transpose, expt_value, quant_fluct, matrix_ele and tohamiltonian give the products, the adjoint, the means, variances and matrix elements of this operator, after any history of calls to update_matrix_formats.", "quantifier": "All inputs (operator strings and matrices under any names), all parameters, all states (vectors, columns, density matrices), outputs, factors, storage formats and histories of calls to update_matrix_formats", "why_tests_cant": "Names, parameters, formats, states and the history of format changes are unbounded; tests use one operator with real parameters, output arrays for rdot, and formats that are known.", "anchors": ["quspin/operators/quantum_operator_core.py: quantum_operator.__init__, dot, rdot, matvec, rmatvec, aslinearoperator, toarray, expt_value, quant_fluct, matrix_ele, getH, update_matrix_formats, tohamiltonian"]}
{"id": "C103", "title": "Commutators, anti-commutators and changes of the container of a hamiltonian", "statement": "commutator(a, b) is a b - b a and anti_commutator(a, b) is a b + b a at every time, for hamiltonians and matrices in any container. as_dense_format and as_sparse_format give an operator with the same matrices under the same drives in the containers asked for, and leave the hamiltonian they are called on as it is, also when the result is changed later.", "quantifier": "All pairs of hamiltonians and matrices of any size with any static parts, drives and containers; all times; all formats", "why_tests_cant": "Sizes, matrices, drives and containers are unbounded; the tests use sparse hamiltonians, where * is the matrix product.", "anchors": ["quspin/operators/hamiltonian_core.py: commutator, anti_commutator, hamiltonian.as_dense_format, hamiltonian.as_sparse_format"]}
{"id": "C104", "title": "inplace_Op acts with the matrix of Op and checks its arguments", "statement": "basis.inplace_Op(v_in, op_list, dtype, transposed, conjugated, v_out) adds to v_out (to zero if absent) the product of the matrix of the operator list, as built from Op, transposed and conjugated on request, with every state in the columns of v_in; v_out is modified in place and returned with its shape; operator lists that Op refuses and arrays that do not fit are refused with an exception; all bases treat the same arguments alike.", "quantifier": "All bases, operator lists, numbers of states, transposed and conjugated flags, arrays v_in and v_out of any shape, type and layout, all orders in which threads work on the columns", "why_tests_cant": "The operator lists, array shapes, layouts and thread schedules are unbounded; tests compare a few matrices with contiguous arrays of the right shape.", "anchors": ["quspin/basis/base.py: basis.inplace_Op, basis._inplace_Op, _coo_dot", "quspin/basis/basis_general/base_general.py: basis_general._inplace_Op, basis_general._Op", "quspin/basis/basis_general/spin.py: spin_basis_general._inplace_Op"]}
{"id": "C105", "title": "evolve solves the equation asked for and shares no state with the caller", "statement": "hamiltonian.evolve solves the equation named by eom, imag_time and stack_state and refuses combinations it does not support. One time, a list of times and a generator give the same states. The initial state of the caller is left as it was, and what a program does with a state it received changes neither later states nor the initial state.", "quantifier": "All operators, initial states of any shape, type and memory layout, options, lists of times in any order with repetitions, and all programs that change the states they receive in place between two states", "why_tests_cant": "Programs consuming the generator, times, shapes and layouts are unbounded; the tests only read the states.", "anchors": ["quspin/operators/hamiltonian_core.py: hamiltonian.evolve", "quspin/tools/evolution.py: evolve, _evolve_iter, _evolve_list, _evolve_scalar, _format_output"]}
{"id": "C106", "title": "A hamiltonian made of strings and matrices is the sum of its entries", "statement": "hamiltonian(static_list, dynamic_list) is at every time the sum of all entries of the lists, in whatever way operator strings, sparse matrices, dense matrices and nested lists are mixed and drives repeated. Malformed entries, matrices of different sizes and matrices the type of the operator cannot hold are refused, and the arguments N, basis, shape and the checks have the effect documented for them.", "quantifier": "All static and dynamic lists of any length mixing strings and matrices, all containers, sizes and types, all drives, and all combinations of the arguments N, basis, shape, dtype and keywords", "why_tests_cant": "Lists and combinations of arguments are unbounded; the tests build a few pure lists.", "anchors": ["quspin/operators/hamiltonian_core.py: hamiltonian.__init__, _check_static, _check_dynamic, hamiltonian._mat_checks"]}
{"id": "C107", "title": "ent_entropy of tensor and photon bases returns what was asked for", "statement": "ent_entropy of a tensor or photon basis returns, for every state, array of states, sparse state, density matrix or stack of density matrices, a dictionary with exactly the keys asked for by return_rdm and return_rdm_EVs; Sent_A is the entropy of the part named by sub_sys_A, Sent_B that of the other part, and the matrices are the reduced density matrices. Dense and sparse input agree, enforce_pure decides how square arrays are read, and states of a photon basis with conserved total number count with their number of photons.", "quantifier": "All dimensions of the two parts, all states, numbers of columns and stacks, all values of sub_sys_A, return_rdm, enforce_pure, return_rdm_EVs, sparse and alpha, all photon bases with and without conserved total number", "why_tests_cant": "The tests compare a few random states for small systems and never combine all options; dimensions, stacks and options are unbounded.", "anchors": ["quspin/basis/tensor.py: tensor_basis.ent_entropy, tensor_basis._p_pure, tensor_basis._p_pure_sparse, tensor_basis._p_mixed", "quspin/basis/photon.py: photon_basis.ent_entropy", "quspin/basis/_reshape_subsys.py: _tensor_reshape_pure, _tensor_partial_trace_mixed"]}
{"id": "C108", "title": "The answers of a general basis do not depend on its history", "statement": "However often and in whatever order a basis of basis_general is made, given other prefixes (make_basis_blocks), pickled and unpickled or copied, with exceptions caught in between, it has the parameters and the compiled object it was constructed with, never reads outside of its arrays, and once made it lists the same states and finds each of them at its place. Making a made basis again succeeds. A user basis finds its states whatever the order in which next_state visits them.", "quantifier": "All classes of general bases, all sizes, symmetries and particle sectors, all histories of make, make_basis_blocks and pickling with all estimates, prefix lengths and numbers of threads", "why_tests_cant": "Tests make a basis once, with default prefixes, and pickle a few small ones; histories are unbounded and the failures need blocks of more than a thousand states or user functions that go down.", "anchors": ["quspin/basis/basis_general/base_general.py: basis_general.make, basis_general.make_basis_blocks, basis_general.__getstate__", "quspin/basis/basis_general/base_hcb.py: hcb_basis_general.__setstate__", "quspin/basis/basis_general/base_higher_spin.py: higher_spin_basis_general.__setstate__", "quspin/basis/basis_general/boson.py: boson_basis_general.__setstate__", "quspin/basis/basis_general/fermion.py: __setstate__", "quspin/basis/basis_general/base_user.py: user_basis.__init__, is_sorted_decending"]}
{"id": "C109", "title": "Diagonalisation returns the spectrum of the operator that was asked for", "statement": "eigh(time) and eigh(pars=...) of a hamiltonian or quantum_operator return the eigenvalues of the operator at this time or for these couplings in ascending order, with orthonormal eigenvectors; eigvalsh returns the same numbers, eigsh(k) the k first of them; a hamiltonian and a quantum_operator with the same matrix have the same numbers. aslinearoperator(time) multiplies with the operator at this time and, from the other side, with its hermitian conjugate. The documented keyword arguments are accepted, and a space without states gives arrays without rows.", "quantifier": "All operators, hermitian at the time asked for, all times, couplings, numbers of eigenvalues and choices of the triangle", "why_tests_cant": "Tests diagonalise a few operators with the default arguments; triangles, keyword arguments and empty spaces are not tried, and the equality of the three spectra needs uniqueness of the sorted spectrum.", "anchors": ["quspin/operators/hamiltonian_core.py: hamiltonian.eigsh, hamiltonian.eigh, hamiltonian.eigvalsh, hamiltonian.aslinearoperator, hamiltonian.__call__", "quspin/operators/quantum_operator_core.py: quantum_operator.eigsh, quantum_operator.eigh, quantum_operator.eigvalsh"]}
{"id": "C110", "title": "The two notations of spinful fermions describe the same thing", "statement": "In a spinful fermion basis on L sites, the string up|down acts as the letters before the bar on the sites of spin up times the letters after the bar on the sites of spin down, in general bases and chains, and as the advanced string on the orbitals i and L+i; other sites are refused. A simple map moves spin up and spin down on site i to the site its entry names, with the spins exchanged where the entry is negative; exactly one-to-one maps are accepted. Basis states are shown with the occupations of both spins, and index of the two halves that are shown returns the position of the state. A subsystem given as a pair of lists is the set of these sites of spin up and spin down in partial traces and entropies. Lists that pass the symmetry check commute with the motion the simple maps describe.", "quantifier": "All numbers of sites, strings, sites, maps, basis states, lists of states, subsystems and operator lists", "why_tests_cant": "Tests compare the two notations for a few models on few sites with the sites in range; sites out of range, maps with entries beyond the lattice, and subsystems of general bases are not tried.", "anchors": ["quspin/basis/basis_general/fermion.py: process_spinful_map, spinful_fermion_basis_general.__init__, spinful_fermion_basis_general._Op, spinful_fermion_basis_general._simple_to_adv, spinful_fermion_basis_general.index, spinful_fermion_basis_general._get_state, spinful_fermion_basis_general.ent_entropy, spinful_fermion_basis_general._check_symm", "quspin/basis/basis_1d/fermion.py: spinful_fermion_basis_1d._Op, spinful_fermion_basis_1d.index, spinful_fermion_basis_1d.partial_trace, spinful_fermion_basis_1d.ent_entropy", "quspin/basis/basis_general/base_general.py: basis_general._Op, process_map"]}
{"id": "C111", "title": "The bitwise functions on basis integers are element-wise, whatever the threads do", "statement": "bitwise_not, bitwise_and, bitwise_or, bitwise_xor, bitwise_leftshift and bitwise_rightshift return an array whose selected elements are the results of the operation on the unsigned integers of the arguments and whose other elements are those of out (zero if out is not given); nothing but out is written, out may be one of the arguments, and arguments that do not fit together are refused.", "quantifier": "all six functions, all six integer types, all arrays, masks and out arrays and their places in memory, all numbers of threads and schedules", "why_tests_cant": "The tests use a new out, a mask of ones and equal types; the result in place depends on the number of threads and on the schedule.", "anchors": ["quspin/basis/basis_general/_basis_general_core/general_basis_utils.pyx: bitwise_not, bitwise_and, bitwise_or, bitwise_xor, bitwise_leftshift, bitwise_rightshift", "quspin/basis/basis_general/_basis_general_core/source/general_basis_bitops.h: bitwise_op, bitwise_shift_op, bitwise_not_op_core"]}
{"id": "C112", "title": "Integers keep their value between python and the basis types, and the chosen type holds every state", "statement": "python_int_to_basis_int represents every non-negative integer that fits into the given type (the smallest one if none is given) and refuses the others; basis_int_to_python_int gives the python integer of the same value, so conversions there and back change nothing; basis_zeros and basis_ones return arrays filled with 0 and 1; the type get_basis_type returns holds all states of all requested sectors and is the smallest that does; basis.index of any integer ends with the position or an exception.", "quantifier": "all integers, all data types, all shapes, all numbers of sites, states per site and particle sectors", "why_tests_cant": "Integers have up to 16384 bits and the boundaries of the types, rounding to floats and loops that never end show only for particular values.", "anchors": ["quspin/basis/basis_general/_basis_general_core/general_basis_utils.pyx: basis_int_to_python_int, python_int_to_basis_int, basis_zeros, basis_ones, get_basis_type, _get_basis_index", "quspin/basis/basis_general/_basis_general_core/source/general_basis_core.pxd: python_to_basis, python_to_basis_inplace, basis_to_python, set_zeros, set_ones"]}
{"id": "C113", "title": "The memory reserved for one-dimensional momentum blocks suffices", "statement": "When a one-dimensional basis with a momentum block is made, the number of entries reserved beforehand for the states and their normalisations is at least the number of states that the block contains, so that nothing is written beyond the end of the arrays.", "quantifier": "every number of sites and unit cell, every momentum, every list of particle numbers, all kinds of one-dimensional bases, blocks of momentum alone and with inversions or reflection", "why_tests_cant": "The estimate is a formula in the number of states, with a margin that is never tested where it is tight: the claim is an inequality about the number of orbits of translations for all lengths and particle numbers; a violation writes outside of an array without any message.", "anchors": ["quspin/basis/basis_1d/_basis_1d_core/hcp_basis.pyx: get_Ns", "quspin/basis/basis_1d/_basis_1d_core/boson_basis.pyx: get_Ns", "quspin/basis/basis_1d/_basis_1d_core/spf_basis.pyx: get_Ns", "quspin/basis/basis_1d/_basis_1d_core/sources/hcp_basis.pyx: n_t_basis, t_basis", "quspin/basis/basis_1d/base_1d.py: basis_1d.__init__"]}
{"id": "C114", "title": "Places of states in one-dimensional bases", "statement": "In a basis of spins, bosons or spinless fermions on a chain, index gives the position of a Fock state named by its integer or by its string of occupations, and raises for states that are not in the basis; state_to_int and int_to_state undo each other on the states of the basis.", "quantifier": "All numbers of sites and of states per site, all lists of basis states, all integers and all strings.", "why_tests_cant": "Tests look up a few states of small spin-1/2 chains without symmetries; strings with letters, states held twice by a block, and every length of chain need an argument about the conversion and the search.", "anchors": ["quspin/basis/basis_1d/base_1d.py: _index, _state_to_int, _int_to_state", "quspin/basis/lattice.py: index, state_to_int, int_to_state"]}
{"id": "C115", "title": "Types and lengths of the arrays of matrix-vector products", "statement": "The functions returned by get_matvec_function run code compiled for the types of the matrix, the number a, the vector and the output they are given, on the lengths of the matrix, or refuse the call; without an output the result has the common type of matrix and vector. The complex numbers of the compiled code are added, multiplied, divided and compared like complex numbers, also in place and with themselves.", "quantifier": "All number types of indices, matrix, vector and output, all lengths, all lists of types the dispatch may be generated for, all complex numbers.", "why_tests_cant": "The tests use outputs of the right type and length; the pairs of generated tables that must agree entry by entry, and all combinations of types and lengths that have to be refused, need an argument about the generator and the missing comparisons.", "anchors": ["quspin/tools/matvec/generate_oputils.py: generate_get_switch, generate_csr, generate_csc, generate_dia", "quspin/tools/matvec/_oputils.pyx: _csr_dot, _csr_matvec, _csc_dot", "quspin/tools/matvec/_oputils/complex_ops.h: complex_wrapper"]}
{"id": "C116", "title": "Memory of the symmetry blocks of general bases", "statement": "A general basis with symmetries is constructed without an error about memory, with every number of threads, when no estimate of the number of states is given or when the given Ns_block_est is larger than the number of states.", "quantifier": "All groups of commuting symmetries with signs and quantum numbers, numbers of states, classes, levels per site, estimates, numbers of threads and schedules.", "why_tests_cant": "Whether the default is enough depends on the number of orbits of the group; the tests use lattices whose states are rarely symmetric.", "anchors": ["quspin/basis/basis_general/base_hcb.py: hcb_basis_general.__init__", "quspin/basis/basis_general/base_higher_spin.py: higher_spin_basis_general.__init__", "quspin/basis/basis_general/boson.py: boson_basis_general.__init__", "quspin/basis/basis_general/fermion.py: __init__", "quspin/basis/basis_general/base_general.py: basis_general.make"]}
