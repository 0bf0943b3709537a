# Functions of /repo/src and the model

Generated by matching the citations in the comments of `lean/Verif` with the functions of each source file. A function is
listed under "cited" if a comment cites lines of it or names it. This is an upper bound on what is modelled: a citation says
that a definition models some of these lines, not that every statement of the function is modelled. Simplifications are
stated in the comment at the definition. A function under "not cited" has no model. Functions are found by a regular
expression, so a few entries may be split or missing. `src/Drivers` (examples; the Ipopt adapter is modelled in
`Verif/Ipopt`) and headers with inline functions, except `*Impl.hpp`, are not listed here.

Definitions marked "No counterpart in the code" (77) only serve to state and run the model.

## Interface/chiopInterface.cpp

Areas: CApi.

* cited: `hiop_mds_create_problem`, `hiop_mds_solve_problem`, `hiop_sparse_create_problem`, `hiop_sparse_solve_problem`, `hiop_sparse_destroy_problem`, `hiop_dense_create_problem`, `hiop_dense_solve_problem`, `hiop_dense_destroy_problem`
* not cited: `hiop_mds_destroy_problem`

## Interface/hiopFortranInterface.c

Areas: CApi.

* cited: `get_starting_point_sparse_wrapper`, `get_prob_sizes_sparse_wrapper`, `get_vars_info_sparse_wrapper`, `get_cons_info_sparse_wrapper`, `get_sparse_blocks_info_wrapper`, `eval_f_sparse_wrapper`, `eval_c_sparse_wrapper`, `eval_grad_sparse_wrapper`, `eval_jac_sparse_wrapper`, `eval_hess_sparse_wrapper`, `FC_GLOBAL`, `get_starting_point_dense_wrapper`, `get_prob_sizes_dense_wrapper`, `get_vars_info_dense_wrapper`, `get_cons_info_dense_wrapper`, `eval_f_dense_wrapper`, `eval_c_dense_wrapper`, `eval_grad_dense_wrapper`, `eval_jac_dense_wrapper`
* not cited: none

## Interface/hiopInterfacePrimalDecomp.cpp

Areas: IntVec, PriDec.

* cited: none
* not cited: `get_MPI_comm`, `set_rval`, `set_rgrad`, `set_rhess`, `set_x0`, `get_S`, `get_rval`, `get_rgrad`, `get_rhess`, `get_x0`

## LinAlg/LinAlgFactory.cpp

Areas: Mem.

* cited: `create_vector`, `create_vector_int`, `create_matrix_dense`, `create_matrix_sparse`, `create_matrix_sparse_csr`, `create_matrix_sym_sparse`, `create_raw_array`, `delete_raw_array`
* not cited: none

## LinAlg/MatrixSparseCsrCudaKernels.cu

Areas: CsrGpu.

* cited: `csr_add_vec_to_diag`, `csr_add_val_to_diag`, `csr_set_diag_to_val`, `csr_copy_diag_to_vec`, `csr_form_diag_symbolic`, `csr_scalerows`, `csr_set_diag_kernel`, `csr_add_diag_kernel`, `csr_get_diag_kernel`, `csr_form_diag_symbolic_kernel`, `csr_scalerows_kernel`
* not cited: none

## LinAlg/ReSolve/IterativeRefinement.cpp

Areas: Fgmres, KryKer.

* cited: `IterativeRefinement`, `getFinalResidalNorm`, `getInitialResidalNorm`, `getBNorm`, `getFinalNumberOfIterations`, `matrixAInfNrm`, `fgmres`, `cudaMatvec`, `GramSchmidt`
* not cited: `~IterativeRefinement`, `setup_system_matrix`, `setup`, `vectorInfNrm`, `resolveCheckCudaError`

## LinAlg/ReSolve/KrylovSolverKernels.cu

Areas: Fgmres, KryKer.

* cited: `MassIPTwoVec_kernel`, `massAxpy3_kernel`, `matrixInfNormPart1`, `mass_inner_product_two_vectors`, `mass_axpy`, `matrix_row_sums`
* not cited: none

## LinAlg/ReSolve/MatrixCsr.cpp

Areas: none.

* cited: none
* not cited: `MatrixCsr`, `~MatrixCsr`, `allocate_size`, `allocate_nnz`, `clear_data`, `update_from_host_mirror`, `copy_to_host_mirror`, `resolveCheckCudaError`

## LinAlg/ReSolve/RefactorizationSolver.cpp

Areas: Fgmres, Refact, Wrap.

* cited: `RefactorizationSolver`, `setup_factorization`, `factorize`, `setup_refactorization`, `refactorize`, `triangular_solve`, `createM`, `refactorizationSetupCusolverGLU`
* not cited: `~RefactorizationSolver`, `enable_iterative_refinement`, `setup_iterative_refinement_matrix`, `configure_iterative_refinement`, `initializeKLU`, `initializeCusolverGLU`, `initializeCusolverRf`, `refactorizationSetupCusolverRf`, `resolveCheckCudaError`

## LinAlg/VectorCudaKernels.cu

Areas: Gpu, IntVec.

* cited: `component_min_cu`, `component_max_cu`, `copy_from_index_cu`, `axpy_w_map_cu`, `axzpy_cu`, `axdzpy_cu`, `axdzpy_w_pattern_cu`, `adxpy_w_pattern_cu`, `component_div_w_pattern_cu`, `add_constant_cu`, `add_constant_w_pattern_cu`, `invert_cu`, `set_linear_damping_term_cu`, `add_linear_damping_term_cu`, `is_posive_w_pattern_cu`, `set_val_w_pattern_cu`, `select_pattern_cu`, `project_into_bounds_cu`, `fraction_to_the_boundry_cu`, `fraction_to_the_boundry_w_pattern_cu`, `set_match_pattern_cu`, `adjust_duals_cu`, `set_nonlinear_type_cu`, `set_to_linspace_cu`, `compute_cusum_cu`, `copyToStartingAt_w_pattern_cu`, `copy_from_index_kernel`, `axpy_w_map_kernel`, `set_array_from_to_kernel`, `thrust_fill_kernel`, `infnorm_local_kernel`, `onenorm_local_kernel`, `thrust_component_mult_kernel`, `transform`, `thrust_component_div_kernel`, `thrust_component_abs_kernel`, `thrust_component_sgn_kernel`, `thrust_component_sqrt_kernel`, `thrust_negate_kernel`, `log_barr_obj_kernel`, `thrust_sum_kernel`, `linear_damping_term_kernel`, `min_local_kernel`, `all_positive_w_pattern_kernel`, `min_w_pattern_kernel`, `check_bounds_kernel`, `min_frac_to_bds_kernel`, `min_frac_to_bds_w_pattern_kernel`, `match_pattern_kernel`, `is_zero_kernel`, `isnan_kernel`, `isinf_kernel`, `isfinite_kernel`, `num_of_elem_less_than_kernel`, `num_of_elem_absless_than_kernel`, `copyToStartingAt_w_pattern_kernel`, `set_to_linspace_kernel`, `compute_cusum_kernel`, `inclusive_scan`
* not cited: `match_pattern_cu`, `component_min_kernel`, `component_max_kernel`, `axzpy_kernel`, `axdzpy_kernel`, `axdzpy_w_pattern_kernel`, `add_constant_kernel`, `add_constant_w_pattern_kernel`, `invert_kernel`, `adxpy_w_pattern_kernel`, `component_div_w_pattern_kernel`, `set_linear_damping_term_kernel`, `add_linear_damping_term_kernel`, `is_posive_w_pattern_kernel`, `set_val_w_pattern_kernel`, `project_into_bounds_kernel`, `fraction_to_the_boundry_kernel`, `fraction_to_the_boundry_w_pattern_kernel`, `select_pattern_kernel`, `component_match_pattern_kernel`, `adjustDuals_plh_kernel`

## LinAlg/VectorHipKernels.cpp

Areas: Gpu, IntVec.

* cited: `component_min_hip`, `component_max_hip`, `copy_from_index_hip`, `axpy_w_map_hip`, `axzpy_hip`, `axdzpy_hip`, `axdzpy_w_pattern_hip`, `adxpy_w_pattern_hip`, `component_div_w_pattern_hip`, `add_constant_hip`, `add_constant_w_pattern_hip`, `invert_hip`, `set_linear_damping_term_hip`, `add_linear_damping_term_hip`, `is_posive_w_pattern_hip`, `set_val_w_pattern_hip`, `select_pattern_hip`, `project_into_bounds_hip`, `fraction_to_the_boundry_hip`, `fraction_to_the_boundry_w_pattern_hip`, `set_match_pattern_hip`, `adjust_duals_hip`, `set_nonlinear_type_hip`, `set_to_linspace_hip`, `compute_cusum_hip`, `copyToStartingAt_w_pattern_hip`, `copy_from_index_kernel`, `axpy_w_map_kernel`, `set_array_from_to_kernel`, `thrust_fill_kernel`, `infnorm_local_kernel`, `onenorm_local_kernel`, `thrust_component_mult_kernel`, `transform`, `thrust_component_div_kernel`, `thrust_component_abs_kernel`, `thrust_component_sgn_kernel`, `thrust_component_sqrt_kernel`, `thrust_negate_kernel`, `log_barr_obj_kernel`, `thrust_sum_kernel`, `linear_damping_term_kernel`, `min_local_kernel`, `min_w_pattern_kernel`, `check_bounds_kernel`, `min_frac_to_bds_kernel`, `match_pattern_kernel`, `is_zero_kernel`, `isnan_kernel`, `isinf_kernel`, `isfinite_kernel`, `num_of_elem_less_than_kernel`, `num_of_elem_absless_than_kernel`, `copyToStartingAt_w_pattern_kernel`, `set_to_linspace_kernel`, `compute_cusum_kernel`, `inclusive_scan`
* not cited: `match_pattern_hip`, `component_min_kernel`, `component_max_kernel`, `axzpy_kernel`, `axdzpy_kernel`, `axdzpy_w_pattern_kernel`, `add_constant_kernel`, `add_constant_w_pattern_kernel`, `invert_kernel`, `adxpy_w_pattern_kernel`, `component_div_w_pattern_kernel`, `set_linear_damping_term_kernel`, `add_linear_damping_term_kernel`, `is_posive_w_pattern_kernel`, `set_val_w_pattern_kernel`, `project_into_bounds_kernel`, `fraction_to_the_boundry_kernel`, `fraction_to_the_boundry_w_pattern_kernel`, `select_pattern_kernel`, `component_match_pattern_kernel`, `adjustDuals_plh_kernel`, `set_array_from_to_kernel`, `all_positive_w_pattern_kernel`, `min_frac_to_bds_w_pattern_kernel`

## LinAlg/hiopKrylovSolver.cpp

Areas: Krylov, Refine.

* cited: `hiopPCGSolver`, `solve`, `hiopBiCGStabSolver`
* not cited: `hiopKrylovSolver`, `~hiopKrylovSolver`, `set_x0`, `~hiopPCGSolver`, `~hiopBiCGStabSolver`

## LinAlg/hiopLinSolver.cpp

Areas: none.

* cited: none
* not cited: `hiopLinSolver`, `~hiopLinSolver`, `hiopLinSolverSymDense`, `~hiopLinSolverSymDense`, `sysMatrix`, `hiopLinSolverSymSparse`, `hiopLinSolverNonSymSparse`

## LinAlg/hiopLinSolverCholCuSparse.cpp

Areas: Wrap.

* cited: `hiopLinSolverCholCuSparse`, `initial_setup`, `matrixChanged`, `solve`, `permute_vec`
* not cited: `~hiopLinSolverCholCuSparse`, `do_symb_analysis`

## LinAlg/hiopLinSolverMA86Z.cpp

Areas: none.

* cited: none
* not cited: `hiopLinSolverMA86Z`, `~hiopLinSolverMA86Z`, `matrixChanged`, `solve`

## LinAlg/hiopLinSolverSparseGinkgo.cpp

Areas: Lin, Wrap.

* cited: `update_matrix`, `firstCall`, `matrixChanged`, `solve`
* not cited: `create_exec`, `setup_solver_factory`, `hiopLinSolverSymSparseGinkgo`, `~hiopLinSolverSymSparseGinkgo`

## LinAlg/hiopLinSolverSparsePARDISO.cpp

Areas: Lin, Wrap.

* cited: `firstCall`, `matrixChanged`, `solve`
* not cited: `hiopLinSolverSymSparsePARDISO`, `~hiopLinSolverSymSparsePARDISO`, `hiopLinSolverNonSymSparsePARDISO`, `~hiopLinSolverNonSymSparsePARDISO`

## LinAlg/hiopLinSolverSparseReSolve.cpp

Areas: Lin, Wrap.

* cited: `matrixChanged`, `solve`, `firstCall`, `update_matrix_values`, `compute_nnz`, `set_csr_indices_values`
* not cited: `hiopLinSolverSymSparseReSolve`, `~hiopLinSolverSymSparseReSolve`, `hiopCheckCudaError`

## LinAlg/hiopLinSolverSparseSTRUMPACK.cpp

Areas: Lin, Wrap.

* cited: `firstCall`, `matrixChanged`, `solve`
* not cited: `hiopLinSolverSymSparseSTRUMPACK`, `~hiopLinSolverSymSparseSTRUMPACK`, `hiopLinSolverNonSymSparseSTRUMPACK`, `~hiopLinSolverNonSymSparseSTRUMPACK`

## LinAlg/hiopLinSolverSymDenseMagma.cpp

Areas: Wrap.

* cited: `matrixChanged`, `solve`, `compute_inertia`
* not cited: `hiopLinSolverSymDenseMagmaBuKa`, `~hiopLinSolverSymDenseMagmaBuKa`, `hiopLinSolverSymDenseMagmaNopiv`, `~hiopLinSolverSymDenseMagmaNopiv`, `hiopLinSolverSymDenseMagmaBuKa_old2`, `~hiopLinSolverSymDenseMagmaBuKa_old2`, `compute_inertia`

## LinAlg/hiopLinSolverSymSparseMA57.cpp

Areas: Wrap.

* cited: `hiopLinSolverSymSparseMA57`, `constructor_part`, `firstCall`, `matrixChanged`, `solve`
* not cited: `~hiopLinSolverSymSparseMA57`, `increase_pivot_tol`

## LinAlg/hiopLinSolverUMFPACKZ.cpp

Areas: Kron.

* cited: `hiopLinSolverUMFPACKZ`, `matrixChanged`, `solve`
* not cited: `~hiopLinSolverUMFPACKZ`, `resid_abs_norm`

## LinAlg/hiopLinearOperator.cpp

Areas: none.

* cited: none
* not cited: `hiopMatVecOpr`, `times_vec`, `trans_times_vec`

## LinAlg/hiopMatrixComplexDense.cpp

Areas: Kron.

* cited: `hiopMatrixComplexDense`, `negate`, `timesVec`, `isfinite`, `print`, `addMatrix`, `addSparseMatrix`
* not cited: `~hiopMatrixComplexDense`, `copyFrom`, `copyRowsFrom`, `setToZero`, `setToConstant`, `alloc_clone`, `new_copy`, `max_abs_value`, `addMatrix`, `assertSymmetry`

## LinAlg/hiopMatrixComplexSparseTriplet.cpp

Areas: Kron.

* cited: `hiopMatrixComplexSparseTriplet`, `timesVec`, `new_slice`, `new_sliceFromSym`, `new_sliceFromSymToSym`, `print`
* not cited: `~hiopMatrixComplexSparseTriplet`, `alloc_clone`, `new_copy`, `setToZero`, `setToConstant`, `max_abs_value`

## LinAlg/hiopMatrixDenseRajaImpl.hpp

Areas: Mem, Raja.

* cited: `~hiopMatrixDenseRaja`, `hiopMatrixDenseRaja`, `appendRow`, `copyFrom`, `copy_to`, `copyRowsFrom`, `shiftRows`, `replaceRow`, `getRow`, `overwriteUpperTriangleWithLower`, `overwriteLowerTriangleWithUpper`, `new_copy`, `setToZero`, `setToConstant`, `timesVec`, `transTimesVec`, `timesMat`, `timesMat_local`, `addDiagonal`, `addSubDiagonal`, `addMatrix`, `max_abs_value`, `row_max_abs_value`, `scale_row`, `symmetrize`
* not cited: `alloc_clone`, `isfinite`, `print`, `assertSymmetry`, `copyToDev`, `copyFromDev`, `new_mxnlocal_host_buff`

## LinAlg/hiopMatrixDenseRowMajor.cpp

Areas: CApi, Checkpoint, DenseMat, Duals, Fr, FrMpi, Kkt, Mds, Mpi, Nlp, QN.

* cited: `hiopMatrixDenseRowMajor`, `appendRow`, `copyFrom`, `copy_to`, `copyRowsFrom`, `copyBlockFromMatrix`, `copyFromMatrixBlock`, `shiftRows`, `replaceRow`, `getRow`, `set_Hess_FR`, `set_Jac_FR`, `overwriteUpperTriangleWithLower`, `overwriteLowerTriangleWithUpper`, `alloc_clone`, `new_copy`, `setToZero`, `setToConstant`, `isfinite`, `print`, `transTimesVec`, `timesMat`, `timesMat_local`, `transTimesMat`, `timesMatTrans_local`, `timesMatTrans`, `addDiagonal`, `addSubDiagonal`, `addMatrix`, `max_abs_value`, `row_max_abs_value`, `scale_row`, `symmetrize`
* not cited: `~hiopMatrixDenseRowMajor`, `assertSymmetry`

## LinAlg/hiopMatrixMDS.cpp

Areas: Fr, Mds.

* cited: `set_Jac_FR`, `set_Hess_FR`
* not cited: none

## LinAlg/hiopMatrixRajaSparseTripletImpl.hpp

Areas: Mem, Raja.

* cited: `setToZero`, `setToConstant`, `max_abs_value`, `row_max_abs_value`, `isfinite`, `new_copy`, `checkIndexesAreOrdered`, `allocAndBuildRowStarts`, `copy_to_dev`, `is_diagonal`
* not cited: `~hiopMatrixRajaSparseTriplet`, `alloc_clone`, `print`, `copyToDev`, `copyFromDev`, `~RowStartsInfo`, `copy_from_dev`

## LinAlg/hiopMatrixSparseCSRSeq.cpp

Areas: Csr.

* cited: `hiopMatrixSparseCSRSeq`, `alloc`, `dealloc`, `setToZero`, `addDiagonal`, `copyFrom`, `times_mat_alloc`, `times_mat_symbolic`, `times_mat_numeric`, `form_from_symbolic`, `form_from_numeric`, `form_transpose_from_symbolic`, `form_transpose_from_numeric`, `form_diag_from_symbolic`, `form_diag_from_numeric`, `scale_cols`, `scale_rows`, `add_matrix_alloc`, `add_matrix_numeric`, `set_diagonal`, `check_csr_is_ordered`
* not cited: `~hiopMatrixSparseCSRSeq`, `setToConstant`, `timesVec`, `transTimesVec`, `timesMat`, `transTimesMat`, `timesMatTrans`, `addSubDiagonal`, `copySubDiagonalFrom`, `setSubDiagonalTo`, `addMatrix`, `max_abs_value`, `row_max_abs_value`, `scale_row`, `isfinite`, `alloc_clone`, `new_copy`, `copy_to`, `copyRowsFrom`, `copyRowsBlockFrom`, `copySubmatrixFrom`, `copySubmatrixFromTrans`, `print`

## LinAlg/hiopMatrixSparseCsrCuda.cpp

Areas: CsrGpu.

* cited: `alloc`, `dealloc`, `addDiagonal`, `csr_add_diag_kernel`, `copy_to`, `form_from_symbolic`, `form_from_numeric`, `form_diag_from_symbolic`, `form_diag_from_numeric`, `scale_rows`, `csr_scalerows_kernel`, `set_diagonal`, `csr_set_diag_kernel`, `extract_diagonal`, `csr_get_diag_kernel`, `check_csr_is_ordered`
* not cited: `hiopMatrixSparseCSRCUDA`, `~hiopMatrixSparseCSRCUDA`, `setToZero`, `setToConstant`, `timesVec`, `transTimesVec`, `timesMat`, `transTimesMat`, `timesMatTrans`, `addSubDiagonal`, `copySubDiagonalFrom`, `setSubDiagonalTo`, `addMatrix`, `max_abs_value`, `row_max_abs_value`, `scale_row`, `isfinite`, `alloc_clone`, `new_copy`, `copyFrom`, `copyRowsFrom`, `copyRowsBlockFrom`, `copySubmatrixFrom`, `copySubmatrixFromTrans`, `print`, `times_mat_alloc`, `times_mat_symbolic`, `times_mat_numeric`, `form_transpose_from_symbolic`, `form_transpose_from_numeric`, `scale_cols`, `add_matrix_alloc`, `add_matrix_numeric`

## LinAlg/hiopMatrixSparseTriplet.cpp

Areas: Csr, Fr, Kkt, Lin, Mds, Sparse.

* cited: `hiopMatrixSparseTriplet`, `timesVec`, `transTimesVec`, `timesMat`, `timesMatTrans`, `copySubDiagonalFrom`, `setSubDiagonalTo`, `addMatrix`, `max_abs_value`, `row_max_abs_value`, `scale_row`, `copyFrom`, `copy_to`, `checkIndexesAreOrdered`, `allocAndBuildRowStarts`, `copyRowsFrom`, `copyRowsBlockFrom`, `set_Jac_FR`, `new_copy`, `startingAtAddSubDiagonalToStartingAt`, `copySubmatrixFrom`, `copySubmatrixFromTrans`, `setSubmatrixToConstantDiag_w_colpattern`, `setSubmatrixToConstantDiag_w_rowpattern`, `numberOfOffDiagNonzeros`, `convert_to_csr_arrays`, `sort`, `is_diagonal`, `extract_diagonal`, `set_Hess_FR`
* not cited: `~hiopMatrixSparseTriplet`, `setToZero`, `setToConstant`, `transTimesMat`, `addDiagonal`, `addSubDiagonal`, `isfinite`, `alloc_clone`, `new_copy`, `print`

## LinAlg/hiopVectorCompoundPD.cpp

Areas: Compound, Krylov, Refine.

* cited: `hiopVectorCompoundPD`, `alloc_clone`, `new_copy`, `copy_from_resid`, `copy_from_iterate`, `setToZero`, `setToConstant`, `setToConstant_w_patternSelect`, `copyFrom`, `copy_from_w_pattern`, `twonorm`, `dotProductWith`, `infnorm`, `infnorm_local`, `onenorm`, `onenorm_local`, `componentMult`, `componentDiv`, `componentDiv_w_selectPattern`, `component_min`, `component_max`, `component_abs`, `component_sgn`, `scale`, `axpy`, `axpy_w_pattern`, `axzpy`, `axdzpy`, `axdzpy_w_pattern`, `addConstant`, `addConstant_w_patternSelect`, `min`, `min_w_pattern`, `negate`, `logBarrier_local`, `sum_local`, `addLogBarrierGrad`, `linearDampingTerm_local`, `addLinearDampingTerm`, `allPositive`, `projectIntoBounds_local`, `fractionToTheBdry_local`, `selectPattern`, `matchesPattern`, `allPositive_w_patternSelect`, `adjustDuals_plh`, `is_zero`, `numOfElemsLessThan`, `numOfElemsAbsLessThan`, `addVector`
* not cited: `~hiopVectorCompoundPD`, `set_to_random_uniform`, `copy_from_vectorpar`, `copy_to_vectorpar`, `copy_from_indexes`, `copyFromStarting`, `copy_from_starting_at`, `startingAtCopyFromStartingAt`, `copyToStarting`, `copyToStartingAt_w_pattern`, `copy_from_two_vec_w_pattern`, `copy_to_two_vec_w_pattern`, `startingAtCopyToStartingAt_w_pattern`, `copyTo`, `component_sqrt`, `invert`, `isnan_local`, `isinf_local`, `isfinite_local`, `print`, `set_array_from_to`, `is_equal`, `getVector`, `get_num_parts`

## LinAlg/hiopVectorCuda.cpp

Areas: Gpu.

* cited: `hiopVectorCuda`, `setToZero`, `setToConstant`, `setToConstant_w_patternSelect`, `copyFrom`, `copy_from_w_pattern`, `copyFromStarting`, `copy_from_starting_at`, `copy_from_indexes`, `startingAtCopyFromStartingAt`, `copyToStarting`, `copyToStartingAt_w_pattern`, `copyToStartingAt_w_pattern_kernel`, `copy_from_two_vec_w_pattern`, `copy_to_two_vec_w_pattern`, `startingAtCopyToStartingAt`, `startingAtCopyToStartingAt_w_pattern`, `twonorm`, `infnorm_local`, `onenorm_local`, `componentMult`, `componentDiv`, `componentDiv_w_selectPattern`, `component_min`, `component_max`, `component_abs`, `component_sgn`, `component_sqrt`, `scale`, `axpy`, `axpy_w_pattern`, `axzpy`, `axdzpy`, `axdzpy_w_pattern`, `addConstant`, `addConstant_w_patternSelect`, `dotProductWith`, `negate`, `invert`, `logBarrier_local`, `addLogBarrierGrad`, `sum_local`, `linearDampingTerm_local`, `addLinearDampingTerm`, `allPositive`, `allPositive_w_patternSelect`, `min`, `min_w_pattern`, `projectIntoBounds_local`, `fractionToTheBdry_local`, `fractionToTheBdry_w_pattern_local`, `selectPattern`, `matchesPattern`, `adjustDuals_plh`, `is_zero`, `isnan_local`, `isinf_local`, `isfinite_local`, `numOfElemsLessThan`, `numOfElemsAbsLessThan`, `set_array_from_to`
* not cited: `~hiopVectorCuda`, `set_to_random_uniform`, `copy_from_vectorpar`, `copy_to_vectorpar`, `copyTo`, `infnorm`, `onenorm`, `print`, `alloc_clone`, `new_copy`, `copyToDev`, `copyFromDev`, `is_equal`

## LinAlg/hiopVectorHip.cpp

Areas: Gpu.

* cited: `hiopVectorHip`, `setToZero`, `setToConstant`, `setToConstant_w_patternSelect`, `copyFrom`, `copy_from_w_pattern`, `copyFromStarting`, `copy_from_starting_at`, `copy_from_indexes`, `startingAtCopyFromStartingAt`, `copyToStarting`, `copyToStartingAt_w_pattern`, `copyToStartingAt_w_pattern_kernel`, `copy_from_two_vec_w_pattern`, `copy_to_two_vec_w_pattern`, `startingAtCopyToStartingAt`, `startingAtCopyToStartingAt_w_pattern`, `twonorm`, `infnorm_local`, `onenorm_local`, `componentMult`, `componentDiv`, `componentDiv_w_selectPattern`, `component_min`, `component_max`, `component_abs`, `component_sgn`, `component_sqrt`, `scale`, `axpy`, `axpy_w_pattern`, `axzpy`, `axdzpy`, `axdzpy_w_pattern`, `addConstant`, `addConstant_w_patternSelect`, `dotProductWith`, `negate`, `invert`, `logBarrier_local`, `addLogBarrierGrad`, `sum_local`, `linearDampingTerm_local`, `addLinearDampingTerm`, `allPositive`, `allPositive_w_patternSelect`, `min`, `min_w_pattern`, `projectIntoBounds_local`, `fractionToTheBdry_local`, `fractionToTheBdry_w_pattern_local`, `selectPattern`, `matchesPattern`, `adjustDuals_plh`, `is_zero`, `isnan_local`, `isinf_local`, `isfinite_local`, `numOfElemsLessThan`, `numOfElemsAbsLessThan`, `set_array_from_to`
* not cited: `~hiopVectorHip`, `set_to_random_uniform`, `copy_from_vectorpar`, `copy_to_vectorpar`, `copyTo`, `infnorm`, `onenorm`, `print`, `alloc_clone`, `new_copy`, `copyToDev`, `copyFromDev`, `is_equal`

## LinAlg/hiopVectorIntCompoundPD.cpp

Areas: IntVec.

* cited: `hiopVectorIntCompoundPD`, `set_to_zero`, `set_to_constant`, `addVector`
* not cited: `~hiopVectorIntCompoundPD`, `getVector`, `get_local_size`, `get_num_parts`

## LinAlg/hiopVectorIntCuda.cpp

Areas: Gpu, IntVec.

* cited: `hiopVectorIntCuda`, `copy_from`, `copy_from_vectorseq`, `copy_to_vectorseq`, `set_to_zero`, `set_to_constant`, `linspace`
* not cited: `~hiopVectorIntCuda`

## LinAlg/hiopVectorIntHip.cpp

Areas: Gpu, IntVec.

* cited: `hiopVectorIntHip`, `copy_from`, `copy_from_vectorseq`, `copy_to_vectorseq`, `set_to_zero`, `set_to_constant`, `linspace`
* not cited: `~hiopVectorIntHip`

## LinAlg/hiopVectorIntRajaImpl.hpp

Areas: IntVec, Mem.

* cited: `hiopVectorIntRaja`, `~hiopVectorIntRaja`, `copy_from_dev`, `copy_to_dev`, `copy_from_vectorseq`, `copy_to_vectorseq`, `copy_from`, `set_to_zero`, `set_to_constant`, `linspace`
* not cited: none

## LinAlg/hiopVectorIntSeq.cpp

Areas: IntVec.

* cited: `hiopVectorIntSeq`, `copy_from`, `copy_from_vectorseq`, `copy_to_vectorseq`, `set_to_zero`, `set_to_constant`, `linspace`
* not cited: `~hiopVectorIntSeq`

## LinAlg/hiopVectorPar.cpp

Areas: Barrier, FrMpi, Iterate, Kkt, Mpi, Nlp, PriDec, QN, Raja, Range, RemMpi, Vec.

* cited: `hiopVectorPar`, `setToConstant_w_patternSelect`, `copy_from_w_pattern`, `copy_from_indexes`, `copyFromStarting`, `copy_from_starting_at`, `startingAtCopyFromStartingAt`, `copyToStarting`, `copyToStartingAt_w_pattern`, `copy_from_two_vec_w_pattern`, `copy_to_two_vec_w_pattern`, `startingAtCopyToStartingAt_w_pattern`, `twonorm`, `dotProductWith`, `infnorm`, `infnorm_local`, `onenorm`, `onenorm_local`, `componentMult`, `componentDiv`, `componentDiv_w_selectPattern`, `component_min`, `component_max`, `component_abs`, `component_sgn`, `scale`, `axpy`, `axpy_w_pattern`, `axzpy`, `axdzpy`, `axdzpy_w_pattern`, `addConstant`, `addConstant_w_patternSelect`, `min`, `min_w_pattern`, `negate`, `logBarrier_local`, `sum_local`, `addLogBarrierGrad`, `linearDampingTerm_local`, `addLinearDampingTerm`, `allPositive`, `projectIntoBounds_local`, `fractionToTheBdry_local`, `selectPattern`, `matchesPattern`, `allPositive_w_patternSelect`, `adjustDuals_plh`, `is_zero`, `numOfElemsLessThan`, `numOfElemsAbsLessThan`, `is_equal`
* not cited: `~hiopVectorPar`, `alloc_clone`, `new_copy`, `setToZero`, `setToConstant`, `set_to_random_uniform`, `copyFrom`, `copy_from_vectorpar`, `copy_to_vectorpar`, `copyTo`, `component_sqrt`, `invert`, `isnan_local`, `isinf_local`, `isfinite_local`, `print`, `set_array_from_to`

## LinAlg/hiopVectorRajaCuda.cpp

Areas: none.

* cited: none
* not cited: `set_to_random_uniform`

## LinAlg/hiopVectorRajaHip.cpp

Areas: none.

* cited: none
* not cited: `set_to_random_uniform`

## LinAlg/hiopVectorRajaImpl.hpp

Areas: Callback, Mem, Raja.

* cited: `hiopVectorRaja`, `~hiopVectorRaja`, `setToConstant`, `setToConstant_w_patternSelect`, `copy_to_vectorpar`, `copy_from_w_pattern`, `copy_from_indexes`, `copyFromStarting`, `copy_from_starting_at`, `copyToStarting`, `copy_from_two_vec_w_pattern`, `copy_to_two_vec_w_pattern`, `startingAtCopyToStartingAt`, `twonorm`, `dotProductWith`, `infnorm_local`, `onenorm_local`, `componentMult`, `componentDiv`, `componentDiv_w_selectPattern`, `component_min`, `component_max`, `component_abs`, `component_sgn`, `component_sqrt`, `scale`, `axpy`, `axpy_w_pattern`, `axzpy`, `axdzpy`, `axdzpy_w_pattern`, `addConstant`, `addConstant_w_patternSelect`, `min`, `min_w_pattern`, `negate`, `invert`, `logBarrier_local`, `sum_local`, `addLogBarrierGrad`, `linearDampingTerm_local`, `addLinearDampingTerm`, `allPositive`, `projectIntoBounds_local`, `fractionToTheBdry_local`, `fractionToTheBdry_w_pattern_local`, `selectPattern`, `matchesPattern`, `allPositive_w_patternSelect`, `adjustDuals_plh`, `is_zero`, `isnan_local`, `isinf_local`, `isfinite_local`, `print`, `copyToDev`, `copyFromDev`, `numOfElemsLessThan`, `numOfElemsAbsLessThan`, `set_array_from_to`, `is_equal`
* not cited: `alloc_clone`, `new_copy`, `setToZero`, `copyFrom`, `copy_from_vectorpar`, `copyTo`, `infnorm`, `onenorm`

## LinAlg/hiopVectorRajaOmp.cpp

Areas: none.

* cited: none
* not cited: `set_to_random_uniform`

## Optimization/hiopAlgFilterIPM.cpp

Areas: Callback, Checkpoint, Driver, Evals, Filter, Fr, IterLog, Iterate, Life, Nlp, ProbType, QN, Select, Session, SoftFr, StartPt, Stats, UserArgs.

* cited: `hiopAlgFilterIPMBase`, `alloc_alg_objects`, `reload_options`, `resetSolverStatus`, `startingProcedure`, `evalNlp`, `evalNlp_noHess`, `evalNlp_HessOnly`, `update_log_barrier_params`, `evalNlpAndLogErrors`, `evalNlp_funcOnly`, `evalNlp_derivOnly`, `getObjective`, `getDualSolutions`, `getNumIterations`, `displayTerminationMsg`, `hiopAlgFilterIPMQuasiNewton`, `run`, `outputIteration`, `save_state_to_file`, `load_state_from_file`, `save_state_to_sidre_group`, `copy_array_to_view`, `load_state_from_sidre_group`, `copy_array_from_view`, `checkpointing_stuff`, `hiopAlgFilterIPMNewton`, `decideAndCreateLinearSystem`, `switch_to_safer_KKT`, `switch_to_fast_KKT`, `ensure_moving_lims`, `accept_line_search_conditions`, `apply_second_order_correction`, `apply_feasibility_restoration`, `solve_feasibility_restoration`, `reset_var_from_fr_sol`, `solve_soft_feasibility_restoration`, `compute_search_direction`, `compute_search_direction_inertia_free`
* not cited: `dealloc_alg_objects`, `~hiopAlgFilterIPMBase`, `reInitializeNlpObjects`, `thetaLogBarrier`, `getSolution`, `~hiopAlgFilterIPMQuasiNewton`, `~hiopAlgFilterIPMNewton`

## Optimization/hiopAlgPrimalDecomp.cpp

Areas: IntVec, PdSession, PriDec.

* cited: `set_n`, `update_ratio`, `get_alpha_f`, `check_convergence_grad`, `set_verbosity`, `stopping_criteria`, `set_max_iteration`, `set_tolerance`, `set_acceptable_tolerance`, `set_acceptable_count`, `set_initial_alpha_ratio`, `set_alpha_min`, `set_alpha_max`, `set_local_accum`, `run`, `run_local`, `run_single`
* not cited: `~HessianApprox`, `get_alpha_BB`, `get_alpha_tr`, `~hiopAlgPrimalDecomposition`, `getObjective`, `getSolution`, `getDualSolutions`, `getSolveStatus`, `getNumIterations`

## Optimization/hiopDualsUpdater.cpp

Areas: Duals.

* cited: `hiopDualsLsqUpdate`, `go`, `hiopDualsLsqUpdateLinsysRedDense`, `~hiopDualsLsqUpdateLinsysRedDense`, `do_lsq_update`, `hiopDualsLsqUpdateLinsysAugSparse`, `~hiopDualsLsqUpdateLinsysAugSparse`
* not cited: `~hiopDualsLsqUpdate`, `hiopDualsLsqUpdateLinsysRedDenseSym`, `factorize_mat`, `solve_with_factors`

## Optimization/hiopFRProb.cpp

Areas: Evals, Fr, FrMpi, Life, ProbType.

* cited: `hiopFRProbSparse`, `get_prob_info`, `get_vars_info`, `get_cons_info`, `eval_f`, `eval_grad_f`, `eval_cons`, `eval_Jac_cons`, `eval_Hess_Lagr`, `get_warmstart_point`, `iterate_callback`, `force_update_x`, `hiopFRProbMDS`, `denseVecBase2FR`, `hiopFRProbDense`, `~hiopFRProbDense`, `get_MPI_comm`, `get_vecdistrib_info`, `get_prob_sizes`
* not cited: `~hiopFRProbSparse`, `get_MPI_comm`, `get_prob_sizes`, `get_sparse_blocks_info`, `~hiopFRProbMDS`, `get_sparse_dense_blocks_info`, `eval_Jac_cons`

## Optimization/hiopFactAcceptor.cpp

Areas: Life, Perturb.

* cited: `requireReFactorization`
* not cited: none

## Optimization/hiopFilter.cpp

Areas: Filter.

* cited: `contains`
* not cited: `print`

## Optimization/hiopHessianLowRank.cpp

Areas: Checkpoint, Mpi, QN.

* cited: `hiopHessianLowRank`, `alloc_for_limited_mem`, `updateLogBarrierDiagonal`, `update`, `updateInternalBFGSRepresentation`, `solve`, `factorizeV`, `solveWithV`, `growL`, `growD`, `updateL`, `updateD`, `timesVec_noLogBarrierTerm`, `timesVec`
* not cited: `~hiopHessianLowRank`, `print`, `new_l_vec1`, `new_l_vec2`, `new_lxl_mat1`, `new_kx2l_mat1`, `new_kxl_mat1`, `new_S1`, `new_Y1`

## Optimization/hiopIterate.cpp

Areas: Barrier, Iterate, Mpi, StartPt.

* cited: `hiopIterate`, `print`, `setBoundsDualsToConstant`, `setEqualityDualsToConstant`, `normOneOfBoundDuals`, `normOneOfEqualityDuals`, `normOneOfDuals`, `selectPattern`, `determineSlacks`, `compute_safe_slacks`, `determineDualsBounds_d`, `takeStep_primals`, `takeStep_duals`, `adjust_small_slacks`, `adjustDuals_primalLogHessian`, `evalLogBarrier`, `addLogBarGrad_x`, `addLogBarGrad_d`, `linearDampingTerm`, `addLinearDampingTermToGrad_x`, `addLinearDampingTermToGrad_d`
* not cited: `~hiopIterate`, `alloc_clone`, `new_copy`, `copyFrom`, `updateDualsIneq`

## Optimization/hiopKKTLinSys.cpp

Areas: Kkt, Krylov, Life, Perturb, QN, Refine, Sparse, Stats.

* cited: `hiopKKTLinSys`, `~hiopKKTLinSys`, `errorKKT`, `compute_directions_for_full_space`, `factorizeWithCurvCheck`, `factorize`, `factorize_inertia_free`, `test_direction`, `hiopKKTLinSysCompressedXYcYd`, `update`, `computeDirections`, `hiopKKTLinSysCompressedXDYcYd`, `compute_directions_w_IR`, `hiopKKTLinSysLowRank`, `~hiopKKTLinSysLowRank`, `solveWithRefin`, `solve`, `hiopMatVecKKTFullOpr`, `times_vec`, `trans_times_vec`, `hiopPrecondKKTOpr`, `hiopKKTLinSysNormalEquation`
* not cited: `~hiopKKTLinSysCompressedXYcYd`, `~hiopKKTLinSysCompressedXDYcYd`, `solveError`, `split_vec_to_build_it`, `combine_res_to_build_vec`, `split_vec_to_build_res`, `combine_dir_to_build_vec`, `~hiopKKTLinSysNormalEquation`

## Optimization/hiopKKTLinSysMDS.cpp

Areas: Kkt, KktFile, Select.

* cited: `hiopKKTLinSysCompressedMDSXYcYd`, `factorizeWithCurvCheck`, `update`, `build_kkt_matrix`, `determineAndCreateLinsys`
* not cited: `~hiopKKTLinSysCompressedMDSXYcYd`

## Optimization/hiopKKTLinSysSparse.cpp

Areas: Kkt, Lin, Select, Sparse.

* cited: `hiopKKTLinSysCompressedSparseXYcYd`, `build_kkt_matrix`, `determineAndCreateLinsys`, `hiopKKTLinSysCompressedSparseXDYcYd`, `hiopKKTLinSysSparseFull`, `~hiopKKTLinSysSparseFull`, `solve`
* not cited: `~hiopKKTLinSysCompressedSparseXYcYd`, `~hiopKKTLinSysCompressedSparseXDYcYd`

## Optimization/hiopKKTLinSysSparseCondensed.cpp

Areas: Csr, CsrGpu, Kkt, Select.

* cited: `hiopKKTLinSysCondensedSparse`, `build_kkt_matrix`, `solve_compressed_direct`, `solveCompressed`, `determine_and_create_linsys`
* not cited: `~hiopKKTLinSysCondensedSparse`

## Optimization/hiopKKTLinSysSparseNormalEqn.cpp

Areas: Csr, Kkt, KktFile, Select.

* cited: `hiopKKTLinSysSparseNormalEqn`, `~hiopKKTLinSysSparseNormalEqn`, `build_kkt_matrix`, `determine_and_create_linsys`, `solveCompressed`, `factorizeWithCurvCheck`
* not cited: none

## Optimization/hiopNlpFormulation.cpp

Areas: CApi, Callback, Evals, IneqForm, Iterate, Mpi, Nlp, ProbType, RemMpi, Session, StartPt, Stats, UserArgs.

* cited: `hiopNlpFormulation`, `finalizeInitialization`, `process_bounds`, `process_constraints`, `apply_scaling`, `eval_f`, `eval_grad_f`, `get_starting_point`, `get_warmstart_point`, `eval_c`, `eval_d`, `eval_c_d`, `eval_Jac_c_d`, `user_callback_solution`, `user_callback_iterate`, `user_callback_full_iterate`, `user_force_update`, `get_obj_scale`, `adjust_bounds`, `reset_bounds`, `hiopNlpDenseConstraints`, `eval_Jac_c`, `eval_Jac_d`, `eval_Jac_c_d_interface_impl`, `eval_Hess_Lagr`
* not cited: `~hiopNlpFormulation`, `alloc_primal_vec`, `alloc_dual_eq_vec`, `alloc_dual_ineq_vec`, `alloc_dual_vec`, `print`, `~hiopNlpDenseConstraints`, `alloc_duals_lsq_updater`, `alloc_Jac_c`, `alloc_Jac_d`, `alloc_Jac_cons`, `alloc_Hess_Lagr`, `alloc_multivector_primal`

## Optimization/hiopNlpTransforms.cpp

Areas: Mpi, Nlp, RemMpi, StartPt.

* cited: `~hiopFixedVarsRemover`, `setFSVectorDistrib`, `allocRSVectorDistrib`, `setupDecisionVectorPart`, `setupConstraintsPart`, `copyFsToRs`, `apply_inv_to_vector`, `apply_to_vector`, `applyToMatrix`, `applyInvToMatrix`, `~hiopFixedVarsRelaxer`, `~hiopBoundsRelaxer`, `hiopNLPObjGradScaling`
* not cited: `~hiopNLPObjGradScaling`

## Optimization/hiopPDPerturbation.cpp

Areas: Kkt, Perturb.

* cited: `initialize`, `update_degeneracy_type`, `compute_initial_deltas`, `compute_perturb_wrong_inertia`, `compute_perturb_singularity`, `guts_of_compute_perturb_wrong_inertia`, `compute_delta_c`, `set_delta_curr_vec`, `hiopPDPerturbationDualFirstScalar`, `~hiopPDPerturbationDualFirstScalar`, `compute_dual_perturb_impl`, `compute_primal_perturb_impl`
* not cited: `check_consistency`, `set_delta_last_vec`

## Optimization/hiopResidual.cpp

Areas: Mpi, Resid, Stats.

* cited: `hiopResidual`, `compute_nlp_infeasib_onenorm`, `update`, `print`, `copyFrom`, `update_soc`
* not cited: `~hiopResidual`

## Utils/MathKernelsCuda.cu

Areas: Gpu.

* cited: `copy_to_mapped_dest_cu`, `copy_from_mapped_src_cu`, `copy_src_to_mapped_dest_kernel`, `copy_mapped_src_to_dest_kernel`
* not cited: `array_random_uniform_cuda`, `set_to_constant_cu`, `array_random_uniform_kernel`, `set_to_val_kernel`

## Utils/MathKernelsHip.cpp

Areas: Gpu.

* cited: `copy_to_mapped_dest_hip`, `copy_from_mapped_src_hip`, `copy_src_to_mapped_dest_kernel`, `copy_mapped_src_to_dest_kernel`
* not cited: `array_random_uniform_hip`, `set_to_constant_hip`, `array_random_uniform_kernel`, `set_to_val_kernel`

## Utils/MathKernelsHost.cpp

Areas: none.

* cited: none
* not cited: `array_random_uniform_kernel`

## Utils/RajaUmpireUtils.cpp

Areas: none.

* cited: none
* not cited: `get_umpire_mem_address_info`

## Utils/hiopKronReduction.cpp

Areas: Kron.

* cited: `hiopKronReduction`, `go`, `apply_nonaux_to_aux`
* not cited: `~hiopKronReduction`

## Utils/hiopLogger.cpp

Areas: Options.

* cited: `printf`, `printf_error`
* not cited: `write`

## Utils/hiopOptions.cpp

Areas: Nlp, Options, PdSession, Perturb, PriDec, Select.

* cited: `hiopOptions`, `GetNumeric`, `GetInteger`, `GetString`, `register_num_option`, `register_str_option`, `register_int_option`, `load_from_file`, `is_user_defined`, `set_val`, `SetNumericValue`, `SetIntegerValue`, `SetStringValue`, `log_printf`, `print`, `hiopOptionsNLP`, `register_options`, `ensure_consistence`, `hiopOptionsPriDec`
* not cited: `~hiopOptions`, `~hiopOptionsNLP`, `~hiopOptionsPriDec`
