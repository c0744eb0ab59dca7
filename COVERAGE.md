# Coverage of the code by the model

Generated from the citations in `lean/Verif/Model/*.lean`: the line ranges cited by at least one definition (gaps of up to three lines closed),
the model files that cite them, and for Python files the functions none of whose lines is cited. What is not listed as cited is not modelled.
Where a definition simplifies, its comment says so. Files without logic (setup, `__init__`, type lists) are left out.

* `quspin/basis/_basis_utils.pyx` (129 lines): lines 62-129 in `PartialTrace`.
* `quspin/basis/_basis_utils/shuffle_sites.h` (53 lines): lines 25-28, 34-46 in `PartialTrace`.
* `quspin/basis/_reshape_subsys.py` (286 lines): lines 14-78, 107-135, 172-214, 219-227, 239-259, 274-281 in `Entropy`, `PartialTrace`, `PartialTraceCall`, `SpinfulCalls`, `TensorTrace`.
* `quspin/basis/base.py` (868 lines): lines 6-28, 107-178, 220-251, 420-718, 742-768, 772-850 in `ChainPlain`, `CheckSymm`, `Consolidate`, `InplaceCall`, `LinearOp`, `LinearOpCalls`, `OpStrings`, `PhotonChecks`, `Reduced`, `SemiMomentum`, `SpinfulCalls`. Not cited: `basis.__init__`, `basis.Ns`, `basis.operators`, `basis.N`, `basis.blocks`, `basis.sps`, `basis._Op`, `basis.Op`, `basis.partial_trace`, `basis.ent_entropy`, `basis.__iter__`, `basis.__getitem__`, `basis._hc_opstr`, `basis._sort_opstr`, `basis._expand_opstr`, `basis._non_zero`.
* `quspin/basis/basis_1d/_basis_1d_core/basis_ops.py` (103 lines): not modelled.
* `quspin/basis/basis_1d/_basis_1d_core/boson_basis.pyx` (95 lines): lines 24-43, 49-63, 71-80 in `Boson`, `Chain`, `ChainPlain`, `Reserve`.
* `quspin/basis/basis_1d/_basis_1d_core/boson_ops.pyx` (27 lines): not modelled.
* `quspin/basis/basis_1d/_basis_1d_core/hcp_basis.pyx` (94 lines): lines 25-44, 49-63, 73-82 in `Boson`, `Chain`, `ChainPlain`, `Reserve`.
* `quspin/basis/basis_1d/_basis_1d_core/hcp_ops.pyx` (29 lines): not modelled.
* `quspin/basis/basis_1d/_basis_1d_core/sources/basis_templates.pyx` (663 lines): lines 7-14, 28-34, 57-62, 83-88, 110-115, 139-144, 152-181, 231-282, 312-317, 326-349, 378-393, 425-457, 481, 492-510 in `Chain`, `ChainOp`, `SemiMomentum`, `SemiThree`.
* `quspin/basis/basis_1d/_basis_1d_core/sources/bitcount.h` (29 lines): lines 7-29 in `Chain`, `Ops`.
* `quspin/basis/basis_1d/_basis_1d_core/sources/boson_basis.pyx` (342 lines): lines 4-15, 27-41 in `ChainPlain`.
* `quspin/basis/basis_1d/_basis_1d_core/sources/boson_bitops.pyx` (204 lines): lines 8-32, 46-67, 83-104, 121-147, 163-189 in `Chain`.
* `quspin/basis/basis_1d/_basis_1d_core/sources/boson_next_state.pyx` (53 lines): lines 5-51 in `ChainPlain`.
* `quspin/basis/basis_1d/_basis_1d_core/sources/boson_ops.pyx` (247 lines): lines 5-76 in `Ops`.
* `quspin/basis/basis_1d/_basis_1d_core/sources/checkstate.pyx` (559 lines): lines 5-556 in `Chain`, `SemiMomentum`, `SemiThree`.
* `quspin/basis/basis_1d/_basis_1d_core/sources/hcp_basis.pyx` (336 lines): lines 3-12, 24-40, 112-127 in `ChainPlain`, `Reserve`.
* `quspin/basis/basis_1d/_basis_1d_core/sources/hcp_bitops.pyx` (147 lines): lines 10-31, 46-65, 84-91, 108-110, 126-128 in `Chain`, `Ops`.
* `quspin/basis/basis_1d/_basis_1d_core/sources/hcp_next_state.pyx` (20 lines): lines 7-14 in `ChainOp`, `ChainPlain`.
* `quspin/basis/basis_1d/_basis_1d_core/sources/hcp_ops.pyx` (254 lines): lines 4-83 in `Ops`.
* `quspin/basis/basis_1d/_basis_1d_core/sources/op_templates.pyx` (1407 lines): lines 4-20, 24-49, 79-95, 140-143, 193-196, 236-240, 246, 254-264, 276-324, 330-431, 437-487, 492-598, 605-714, 721-815, 825-858, 903-907, 1132-1163, 1214-1218, 1263-1266, 1315-1317, 1355-1358, 1396-1399 in `Chain`, `ChainOp`, `ChainPlain`, `SemiMomentum`, `SemiThree`.
* `quspin/basis/basis_1d/_basis_1d_core/sources/refstate.pyx` (519 lines): lines 6-40, 46-59, 67-103, 112-196, 200-218, 224-258, 262-376, 380-413, 445-446, 469-518 in `Chain`, `Lookup`, `SemiMomentum`, `SemiThree`.
* `quspin/basis/basis_1d/_basis_1d_core/sources/spf_basis.pyx` (299 lines): lines 3-25, 34-50 in `ChainPlain`.
* `quspin/basis/basis_1d/_basis_1d_core/sources/spf_bitops.pyx` (123 lines): lines 18-37, 52-78, 93-103 in `Chain`.
* `quspin/basis/basis_1d/_basis_1d_core/sources/spf_next_state.pyx` (30 lines): lines 14-28 in `ChainPlain`.
* `quspin/basis/basis_1d/_basis_1d_core/sources/spf_ops.pyx` (242 lines): lines 31-58 in `Ops`.
* `quspin/basis/basis_1d/_basis_1d_core/spf_basis.pyx` (103 lines): lines 24-43, 48-72, 82-91 in `Boson`, `Chain`, `ChainPlain`, `Reserve`.
* `quspin/basis/basis_1d/_basis_1d_core/spf_ops.pyx` (29 lines): not modelled.
* `quspin/basis/basis_1d/_basis_1d_core/types.pxd` (48 lines): not modelled.
* `quspin/basis/basis_1d/_check_1d_symm.py` (185 lines): lines 9-21, 27-45, 50-74, 78-90, 95-121, 128-154, 158-185 in `CheckSymm`.
* `quspin/basis/basis_1d/_check_1d_symm_spf.py` (114 lines): lines 13-110 in `CheckSymm`.
* `quspin/basis/basis_1d/base_1d.py` (1421 lines): lines 46-134, 138, 144-438, 455-462, 474-483, 523-598, 611-967, 975-1040, 1046-1419 in `Chain`, `ChainIndex`, `ChainInit`, `ChainOp`, `ChainPlain`, `ChainVec`, `CheckSymm`, `Embedding`, `PartialTraceCall`, `Reserve`, `SemiMomentum`, `SpinfulCalls`, `StateStrings`, `Tensor`. Not cited: `OpstrError.__init__`, `bitops.__init__`, `basis_1d.L`, `basis_1d.N`, `basis_1d.description`, `basis_1d.get_vec`.
* `quspin/basis/basis_1d/boson.py` (291 lines): lines 125-137, 147-227, 260-270 in `Chain`, `ChainInit`, `ChainVec`, `OpStrings`. Not cited: `boson_basis_1d._sort_opstr`, `boson_basis_1d._hc_opstr`, `boson_basis_1d._expand_opstr`.
* `quspin/basis/basis_1d/fermion.py` (917 lines): lines 61-129, 247-267, 323-385, 414-435, 487-502, 582-593, 632-638, 710-777, 820-872 in `Chain`, `ChainInit`, `ChainVec`, `OpStrings`, `SpinfulCalls`. Not cited: `spinless_fermion_basis_1d._fermion_basis`, `spinless_fermion_basis_1d._sort_opstr`, `spinless_fermion_basis_1d._hc_opstr`, `spinless_fermion_basis_1d._non_zero`, `spinless_fermion_basis_1d._expand_opstr`, `spinful_fermion_basis_1d.int_to_state`, `spinful_fermion_basis_1d.state_to_int`, `spinful_fermion_basis_1d.N`, `spinful_fermion_basis_1d._fermion_basis`, `spinful_fermion_basis_1d._sort_opstr`, `spinful_fermion_basis_1d._hc_opstr`, `spinful_fermion_basis_1d._non_zero`, `spinful_fermion_basis_1d._expand_opstr`, `spinful_fermion_basis_1d._check_symm`, `_non_zero_spinless`, `_non_zero_spinful`, `_expand_opstr_spinful`.
* `quspin/basis/basis_1d/spin.py` (373 lines): lines 106-124, 134-145, 154-246, 262-371 in `Chain`, `ChainInit`, `ChainVec`, `OpStrings`, `Ops`, `PhotonChecks`.
* `quspin/basis/basis_general/_basis_general_core/boson_core.pyx` (143 lines): lines 87-139 in `Boson`, `GeneralSectors`.
* `quspin/basis/basis_general/_basis_general_core/general_basis_utils.pyx` (1106 lines): lines 14-19, 49-76, 104-168, 172-209, 241-269, 298-402, 447-512, 557-632, 677-735, 797-855, 961-1091 in `Benes`, `BitOps`, `Boson`, `GeneralSectors`, `HcbBasis`, `IntTypes`, `Lookup`.
* `quspin/basis/basis_general/_basis_general_core/hcb_core.pyx` (110 lines): lines 60-106 in `GeneralSectors`, `HcbBasis`, `Pcon`.
* `quspin/basis/basis_general/_basis_general_core/higher_spin_core.pyx` (140 lines): lines 84-92 in `GeneralSectors`.
* `quspin/basis/basis_general/_basis_general_core/source/benes_perm.h` (305 lines): lines 77-106, 111-147, 153-287, 297-303 in `Benes`.
* `quspin/basis/basis_general/_basis_general_core/source/bits_info.h` (133 lines): lines 20-29, 119-128 in `Benes`, `BitCount`, `Lookup`.
* `quspin/basis/basis_general/_basis_general_core/source/boson_basis_core.h` (175 lines): lines 14-22, 34-38, 53-55, 91-169 in `Boson`, `Lookup`, `Maps`, `Ops`.
* `quspin/basis/basis_general/_basis_general_core/source/complex_ops.h` (270 lines): lines 10-18, 33-86, 126-131, 147-191 in `MatvecTypes`.
* `quspin/basis/basis_general/_basis_general_core/source/general_basis_bitops.h` (180 lines): lines 12-40, 50-176 in `BitOps`.
* `quspin/basis/basis_general/_basis_general_core/source/general_basis_core.h` (407 lines): lines 70-197 in `Amp`, `HcbBasis`, `Symmetry`.
* `quspin/basis/basis_general/_basis_general_core/source/general_basis_core.pxd` (156 lines): lines 65-106 in `IntTypes`, `Lookup`.
* `quspin/basis/basis_general/_basis_general_core/source/general_basis_core.pyx` (1029 lines): lines 16-80, 293-427, 441-498, 711-718, 722-800, 934-1025 in `Amp`, `BraKet`, `GeneralMake`, `GeneralSectors`, `HcbBasis`, `InplaceCall`, `Lookup`, `Projector`, `Spinful`.
* `quspin/basis/basis_general/_basis_general_core/source/general_basis_get_amp.h` (243 lines): lines 17-49, 62, 66-76, 80-107, 117-136, 171-182, 186-204, 212-219 in `Amp`.
* `quspin/basis/basis_general/_basis_general_core/source/general_basis_get_vec.h` (404 lines): lines 64-103, 183-221, 231-271, 277-318, 357-397 in `Projector`.
* `quspin/basis/basis_general/_basis_general_core/source/general_basis_matrix.h` (186 lines): not reachable from the library (dead code).
* `quspin/basis/basis_general/_basis_general_core/source/general_basis_op.h` (1409 lines): lines 63-205, 241-290, 533-586, 614-634, 1162-1219, 1226-1304, 1320-1402 in `BraKet`, `GeneralMake`, `InplaceCall`, `Reduced`, `UserBasis`.
* `quspin/basis/basis_general/_basis_general_core/source/general_basis_rep.h` (120 lines): lines 14-115 in `Amp`.
* `quspin/basis/basis_general/_basis_general_core/source/general_basis_types.pxd` (77 lines): lines 61-65 in `BitOps`.
* `quspin/basis/basis_general/_basis_general_core/source/hcb_basis_core.h` (185 lines): lines 15-24, 44-83, 124-176 in `Benes`, `Lookup`, `Maps`, `Ops`, `Pcon`.
* `quspin/basis/basis_general/_basis_general_core/source/higher_spin_basis_core.h` (64 lines): lines 23-61 in `Ops`.
* `quspin/basis/basis_general/_basis_general_core/source/local_pcon_basis_core.h` (28 lines): not modelled.
* `quspin/basis/basis_general/_basis_general_core/source/make_general_basis.h` (401 lines): lines 31-142, 158-350, 355-385 in `Lookup`, `MakeBasis`, `Symmetry`.
* `quspin/basis/basis_general/_basis_general_core/source/misc.h` (201 lines): lines 33-36, 40-64, 123-134 in `Amp`, `GeneralMake`, `Lookup`.
* `quspin/basis/basis_general/_basis_general_core/source/openmp.h` (94 lines): not modelled.
* `quspin/basis/basis_general/_basis_general_core/source/spinful_fermion_basis_core.h` (113 lines): lines 45-100 in `Spinful`.
* `quspin/basis/basis_general/_basis_general_core/source/spinless_fermion_basis_core.h` (216 lines): lines 25-48, 52-60, 66-92, 168-210 in `FermionMaps`, `Maps`, `Ops`.
* `quspin/basis/basis_general/_basis_general_core/source/two_hcb_basis_core.h` (76 lines): not reachable from the library (dead code).
* `quspin/basis/basis_general/_basis_general_core/source/user_basis_core.h` (156 lines): lines 70-88, 116-148 in `Lookup`, `UserBasis`.
* `quspin/basis/basis_general/_basis_general_core/spinful_fermion_core.pyx` (110 lines): lines 61-67, 83-92 in `Spinful`.
* `quspin/basis/basis_general/_basis_general_core/spinless_fermion_core.pyx` (265 lines): lines 58-104 in `GeneralSectors`.
* `quspin/basis/basis_general/_basis_general_core/user_core.pyx` (189 lines): lines 41 in `UserBasis`.
* `quspin/basis/basis_general/base_general.py` (1186 lines): lines 13-74, 94-174, 180-183, 208-236, 245-321, 414-417, 455-480, 516-572, 618-698, 732-788, 813-835, 888-1002, 1034-1048, 1065-1179 in `Amp`, `BlockMemory`, `Boson`, `BraKet`, `CheckSymm`, `Embedding`, `GeneralInit`, `GeneralMake`, `GeneralSectors`, `HcbBasis`, `InplaceCall`, `Lookup`, `Maps`, `PartialTraceCall`, `ProjectCalls`, `Projector`, `Reduced`, `Spinful`, `SpinfulCalls`, `StateStrings`, `Symmetry`. Not cited: `basis_general.description`, `basis_general._reduce_n_dtype`, `basis_general.get_vec`.
* `quspin/basis/basis_general/base_hcb.py` (80 lines): lines 14-70, 75-77 in `BlockMemory`, `GeneralMake`, `GeneralSectors`, `HcbBasis`, `ProjectCalls`.
* `quspin/basis/basis_general/base_higher_spin.py` (83 lines): lines 15-27, 32-83 in `BlockMemory`, `GeneralMake`, `GeneralSectors`.
* `quspin/basis/basis_general/base_user.py` (512 lines): lines 44-50, 69-94, 210-368, 483-493 in `GeneralMake`, `ProjectCalls`, `UserBasis`. Not cited: `user_basis.__setstate__`.
* `quspin/basis/basis_general/boson.py` (295 lines): lines 7-25, 116-258, 262-272, 278-295 in `BlockMemory`, `Boson`, `GeneralMake`, `GeneralSectors`, `OpStrings`, `ProjectCalls`.
* `quspin/basis/basis_general/fermion.py` (974 lines): lines 105-164, 176-178, 185-227, 232-258, 365-494, 504-506, 595-606, 617-622, 636-646, 652-706, 747-753, 766-974 in `BlockMemory`, `BraKet`, `CheckSymm`, `GeneralMake`, `GeneralSectors`, `OpStrings`, `Spinful`, `SpinfulCalls`. Not cited: `spinless_fermion_basis_general._fermion_basis`, `spinful_fermion_basis_general._fermion_basis`, `spinful_fermion_basis_general._inplace_Op`, `spinful_fermion_basis_general.Op_bra_ket`.
* `quspin/basis/basis_general/spin.py` (375 lines): lines 136-144, 149-154, 176-238, 252-361 in `BraKet`, `GeneralMake`, `GeneralSectors`, `InplaceCall`, `OpStrings`, `Ops`, `ProjectCalls`. Not cited: `spin_basis_general.Op_bra_ket`.
* `quspin/basis/lattice.py` (598 lines): lines 54-387, 421-582 in `ChainIndex`, `Entropy`, `ObsVsTime`, `PartialTraceCall`, `SpinfulCalls`, `StateStrings`. Not cited: `lattice_basis.__init__`, `lattice_basis.__getitem__`, `lattice_basis.__iter__`, `lattice_basis.dtype`, `lattice_basis.states`, `lattice_basis._int_to_state`, `lattice_basis._state_to_int`, `lattice_basis._index`.
* `quspin/basis/photon.py` (1026 lines): lines 15-47, 72-77, 156, 164-170, 262-308, 359-390, 424-434, 477-530, 601-636, 699-876, 880-897, 935-936, 941-942, 959-983, 990-1025 in `ChainInit`, `Embedding`, `EntropyCall`, `GeneralSectors`, `Oscillator`, `PhotonChecks`, `Tensor`, `TensorTrace`. Not cited: `photon_basis.particle_basis`, `photon_basis.particle_Ns`, `photon_basis.particle_N`, `photon_basis.particle_sps`, `photon_basis.photon_basis`, `photon_basis.photon_Ns`, `photon_basis.photon_sps`, `photon_basis.chain_Ns`, `photon_basis.chain_N`, `photon_basis.get_vec`, `photon_basis._check_symm`, `ho_basis.Np`, `ho_basis.N`, `ho_basis.sps`, `ho_basis.get_vec`, `ho_basis.project_from`, `ho_basis.__getitem__`, `ho_basis.__iter__`, `ho_basis.get_proj`.
* `quspin/basis/tensor.py` (1185 lines): lines 53-97, 120-240, 342-353, 398-668, 673-806, 811-952, 989-1097 in `Embedding`, `Entropy`, `EntropyCall`, `OpStrings`, `PhotonChecks`, `Tensor`, `TensorTrace`. Not cited: `tensor_basis.basis_left`, `tensor_basis.basis_right`, `tensor_basis.N`, `tensor_basis.get_vec`, `tensor_basis.project_from`.
* `quspin/basis/transformations/site_info.py` (22 lines): lines 6 in `Square`. Not cited: `site_info.N`, `site_info.sites`, `site_info_2d.__init__`, `site_info_2d.coor_iter`.
* `quspin/basis/transformations/square.py` (174 lines): lines 11-12, 31-43, 92-119, 130-173 in `Square`. Not cited: `site_info_square.X`, `site_info_square.Y`, `square_lattice_trans.site_info`, `square_lattice_trans.Z`, `square_lattice_trans.Z_A`, `square_lattice_trans.Z_B`, `square_lattice_trans.T_x`, `square_lattice_trans.T_y`, `square_lattice_trans.P_x`, `square_lattice_trans.P_y`, `square_lattice_trans.P_e`, `square_lattice_trans.P_d`.
* `quspin/operators/_functions.py` (146 lines): lines 5-11, 22-26, 31-50, 55-81, 87-93, 98-109, 114-130, 135-145 in `Functions`. Not cited: `function.conj`, `function.__ne__`.
* `quspin/operators/_make_hamiltonian.py` (147 lines): lines 12-79, 94-111, 117-146 in `Consolidate`, `Hamiltonian`, `Misc`. Not cited: `test_function`.
* `quspin/operators/exp_op_core.py` (821 lines): lines 11, 81, 92-106, 125-151, 161-169, 209-349, 396-426, 482-513, 577-610, 670-696, 700-761, 771-782 in `ExpOp`. Not cited: `exp_op.ndim`, `exp_op.O`, `exp_op.a`, `exp_op.get_shape`, `exp_op.Ns`, `exp_op.grid`, `exp_op.step`, `exp_op.iterate`, `exp_op.unset_grid`, `exp_op.set_iterate`, `_hamiltonian_rdot`, `_hamiltonian_iter_sandwich`, `isexp_op`.
* `quspin/operators/hamiltonian_core.py` (3019 lines): lines 48-112, 121-160, 165-167, 251-462, 527-530, 560-564, 568-711, 755-776, 780-990, 1040-1042, 1047-1053, 1058-1064, 1076-1083, 1180-1191, 1222-1229, 1260-1265, 1269-1350, 1416-1485, 1510-1690, 1714-1766, 1791-1799, 1828-1830, 1834-1901, 1905-1999, 2005-2029, 2052-2054, 2076-2079, 2087-2318, 2327-2337, 2343-2577, 2583-2722, 2728-2777, 2783-2966, 2984-2998 in `BlockDiag`, `Commutator`, `Consolidate`, `Construct`, `Evaluate`, `Evolution`, `EvolveCall`, `Formats`, `Hamiltonian`, `Heap`, `LinearOp`, `Misc`, `ObsVsTime`, `Spectrum`. Not cited: `hamiltonian.basis`, `hamiltonian.ndim`, `hamiltonian.Ns`, `hamiltonian.get_shape`, `hamiltonian.is_dense`, `hamiltonian.dtype`, `hamiltonian.static`, `hamiltonian.dynamic`, `hamiltonian.T`, `hamiltonian.nbytes`, `hamiltonian.check_is_dense`, `hamiltonian.rotate_by`, `ishamiltonian`.
* `quspin/operators/quantum_LinearOperator_core.py` (855 lines): lines 50-141, 181-189, 201-220, 274-505, 539-626, 630-634, 639-640, 700-732, 743-744, 749-751, 763-765, 774-795 in `LinearOp`, `LinearOpCalls`. Not cited: `quantum_LinearOperator.shape`, `quantum_LinearOperator.basis`, `quantum_LinearOperator.ndim`, `quantum_LinearOperator.static_list`, `quantum_LinearOperator.get_shape`, `quantum_LinearOperator.Ns`, `quantum_LinearOperator.dtype`, `quantum_LinearOperator.diagonal`, `quantum_LinearOperator.eigsh`, `quantum_LinearOperator.__add__`, `quantum_LinearOperator.__iadd__`, `quantum_LinearOperator.__radd__`, `quantum_LinearOperator.__sub__`, `quantum_LinearOperator.__isub__`, `quantum_LinearOperator.__rsub__`, `quantum_LinearOperator._mul_hamiltonian`, `quantum_LinearOperator._rmul_hamiltonian`, `quantum_LinearOperator._add_hamiltonian`, `quantum_LinearOperator._add_sparse`, `quantum_LinearOperator._add_dense`, `quantum_LinearOperator._sub_sparse`, `quantum_LinearOperator._sub_hamiltonian`, `quantum_LinearOperator._sub_dense`, `quantum_LinearOperator.__numpy_ufunc__`, `isquantum_LinearOperator`.
* `quspin/operators/quantum_operator_core.py` (1567 lines): lines 33-34, 107-290, 345-347, 375, 397, 419, 461-517, 556, 593-613, 648-659, 667-674, 711, 733-735, 768-771, 803-812, 845-852, 879-889, 913-923, 957-966, 993-1001, 1025-1028, 1048-1062, 1082-1107, 1130-1131, 1151-1152, 1172, 1193-1198, 1220-1222, 1249-1250, 1275-1279, 1292-1300, 1305-1312, 1321-1325, 1330-1337, 1346-1350, 1358-1359, 1364-1368, 1390-1428, 1443-1447, 1470-1519, 1524-1566 in `Archive`, `QOpCalls`, `QOpHeap`, `QuantumOperator`, `Spectrum`. Not cited: `quantum_operator.get_operators`, `quantum_operator.shape`, `quantum_operator.basis`, `quantum_operator.ndim`, `quantum_operator.Ns`, `quantum_operator.get_shape`, `quantum_operator.is_dense`, `quantum_operator.dtype`, `quantum_operator.T`, `quantum_operator.__idiv__`, `quantum_operator.__div__`, `quantum_operator._mat_checks`, `isquantum_operator`.
* `quspin/tools/Floquet.py` (792 lines): lines 39-59, 83-109, 118, 124, 130, 170-415, 441-517, 641-681, 685-697, 731-743 in `Floquet`, `FloquetTimes`. Not cited: `_range_iter`, `Floquet_t_vec.__iter__`, `Floquet_t_vec.__getitem__`, `Floquet_t_vec.__mul__`, `Floquet_t_vec.__div__`, `Floquet_t_vec.__truediv__`, `Floquet_t_vec.__len__`, `Floquet_t_vec.N`, `Floquet_t_vec.shape`, `Floquet_t_vec.len_T`, `Floquet_t_vec.T`, `Floquet_t_vec.vals`, `Floquet_t_vec.len`, `Floquet_t_vec.dt`, `Floquet_t_vec.i`, `Floquet_t_vec.f`, `Floquet_t_vec.tot`, `Floquet_t_vec.strobo`, `Floquet_t_vec.up`, `Floquet_t_vec.const`, `_strobo_times.inds`, `_strobo_times.vals`, `_strobo_times.__iter__`, `_strobo_times.__getitem__`, `_strobo_times.__mul__`, `_strobo_times.__div__`, `_strobo_times.__truediv__`, `_strobo_times.__len__`, `_periodic_ramp.__iter__`, `_periodic_ramp.__getitem__`, `_periodic_ramp.__mul__`, `_periodic_ramp.__div__`, `_periodic_ramp.__truediv__`, `_periodic_ramp.__len__`, `_periodic_ramp.N`, `_periodic_ramp.vals`, `_periodic_ramp.i`, `_periodic_ramp.f`, `_periodic_ramp.tot`, `_periodic_ramp.len`, `_periodic_ramp.strobo`.
* `quspin/tools/block_tools.py` (944 lines): lines 96-137, 154-159, 169-245, 252, 256-266, 306-368, 416-443, 447-791 in `BlockDiag`, `BlockOps`, `Blocks`. Not cited: `block_ops.dtype`, `block_ops.save_previous_data`, `block_ops.H_dict`, `block_ops.P_dict`, `block_ops.basis_dict`, `block_ops.static`, `block_ops.dynamic`.
* `quspin/tools/evolution.py` (424 lines): lines 81-137, 143-337, 345-358, 362-424 in `Evolution`, `EvolveCall`. Not cited: `_cmplx_f`.
* `quspin/tools/expm_multiply_parallel_core/csr_matvec_core.py` (75 lines): lines 54-74 in `CsrMatvecOld`.
* `quspin/tools/expm_multiply_parallel_core/csr_matvec_wrapper.pyx` (180 lines): lines 36, 42-150 in `CsrMatvecOld`.
* `quspin/tools/expm_multiply_parallel_core/expm_multiply_parallel_core.py` (297 lines): lines 56-85, 123-145, 175-213, 217-223 in `ExpmObject`, `ExpmParallel`. Not cited: `expm_multiply_parallel.a`, `expm_multiply_parallel.A`, `matvec_p`, `LazyOperatorNormInfo.__init__`, `LazyOperatorNormInfo.onenorm`, `LazyOperatorNormInfo.d`, `LazyOperatorNormInfo.alpha`.
* `quspin/tools/expm_multiply_parallel_core/expm_multiply_parallel_wrapper.pyx` (122 lines): lines 24-30, 99-122 in `ExpmObject`.
* `quspin/tools/expm_multiply_parallel_core/generate_source.py` (138 lines): lines 42-58 in `ExpmObject`. Not cited: `generate_expm_multiply`, `generate_source`.
* `quspin/tools/expm_multiply_parallel_core/source/csr_matvec.h` (175 lines): lines 53-115 in `CsrMatvecOld`.
* `quspin/tools/expm_multiply_parallel_core/source/csr_utils.h` (164 lines): lines 4-29, 139-163 in `ExpmParallel`.
* `quspin/tools/expm_multiply_parallel_core/source/expm_multiply_parallel.h` (168 lines): lines 55-166 in `ExpmParallel`.
* `quspin/tools/expm_multiply_parallel_core/source/iterators.h` (64 lines): not modelled.
* `quspin/tools/expm_multiply_parallel_core/source/math_functions.h` (126 lines): lines 53-77 in `ExpmParallel`.
* `quspin/tools/lanczos/_FTLM.py` (136 lines): lines 94-110 in `LanczosThermal`. Not cited: `_FTLM_dynamic_iteration`.
* `quspin/tools/lanczos/_LTLM.py` (140 lines): lines 93-140 in `LanczosThermal`.
* `quspin/tools/lanczos/_expm.py` (52 lines): lines 49-50 in `LanczosThermal`.
* `quspin/tools/lanczos/_lanczos_utils.py` (417 lines): lines 10-64, 68-343, 358-417 in `Lanczos`. Not cited: `_get_first_lv_iter`, `_get_first_lv`.
* `quspin/tools/matvec/_oputils.pyx` (595 lines): lines 64-88, 120-144, 177-202, 509-595 in `Evaluate`, `Matvec`, `MatvecTypes`.
* `quspin/tools/matvec/_oputils/complex_ops.h` (194 lines): not modelled.
* `quspin/tools/matvec/_oputils/csc.h` (457 lines): lines 6-118, 151-161, 166-203, 289-454 in `Matvec`.
* `quspin/tools/matvec/_oputils/csr.h` (428 lines): lines 25-86, 90-135, 264-427 in `Matvec`, `MatvecTypes`.
* `quspin/tools/matvec/_oputils/csrmv_merge.h` (264 lines): lines 29-257 in `CsrMatvecOld`, `Matvec`.
* `quspin/tools/matvec/_oputils/dia.h` (515 lines): lines 14-168, 177-259, 342-513 in `Matvec`.
* `quspin/tools/matvec/_oputils/matvec.h` (487 lines): not reachable from the library (dead code).
* `quspin/tools/matvec/_oputils/matvecs.h` (476 lines): not reachable from the library (dead code).
* `quspin/tools/matvec/_oputils/openmp.h` (57 lines): lines 11-49 in `Matvec`.
* `quspin/tools/matvec/_oputils/parse_types.h` (47 lines): not modelled.
* `quspin/tools/matvec/_oputils/utils.h` (19 lines): lines 6-12 in `Matvec`.
* `quspin/tools/matvec/generate_oputils.py` (393 lines): lines 19-21, 26-64, 69-359 in `MatvecTypes`. Not cited: `generate_oputils`.
* `quspin/tools/matvec/matvec_core.py` (104 lines): lines 47-101 in `Matvec`. Not cited: `get_matvec_function`.
* `quspin/tools/measurements.py` (1266 lines): lines 32-100, 267-460, 486-505, 547-699, 1185-1264 in `DiagEnsemble`, `EntWrapper`, `ObsVsTime`. Not cited: `_ent_entropy`, `_reshape_as_subsys`.
* `quspin/tools/misc.py` (227 lines): lines 69-111, 139-164, 201-223 in `Misc`.
