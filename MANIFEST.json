{
 "claims": [
  {
   "property": "C01",
   "status": "proved",
   "theorems": [
    "Curvlinops.splitList_raises_iff",
    "Curvlinops.splitList_isSplit",
    "Curvlinops.isSplit_unique",
    "Curvlinops.splitList_negative_sizes"
   ],
   "note": "Raises exactly on a length mismatch; for non-negative sizes the result is the unique split. For negative sizes the length claim is false (witness splitList_negative_sizes)."
  },
  {
   "property": "C02",
   "status": "proved",
   "theorems": [
    "Curvlinops.matmul_accepts",
    "Curvlinops.matmul_rejects",
    "Curvlinops.matmul_reaches_iff",
    "Curvlinops.pre_of_inSpace",
    "Curvlinops.pre_of_not_accepted"
   ],
   "note": "Exactly the documented inputs reach the operator; zero-dimensional tensors raise IndexError, everything else ValueError."
  },
  {
   "property": "C03",
   "status": "proved",
   "theorems": [
    "Curvlinops.matmul_correct",
    "Curvlinops.matmul_no_output"
   ],
   "note": "For every operator that represents a dense matrix on tensor lists, all four formats give the dense product in the format of the input."
  },
  {
   "property": "C04",
   "status": "proved",
   "theorems": [
    "Curvlinops.matmul_column",
    "Curvlinops.matmul_identity"
   ],
   "note": "Entry-wise."
  },
  {
   "property": "C05",
   "status": "proved",
   "theorems": [
    "Curvlinops.matmul_output_shape",
    "Curvlinops.matmul_malformed_raises"
   ],
   "note": "For an arbitrary _matmat."
  },
  {
   "property": "C06",
   "status": "partial",
   "theorems": [
    "Curvlinops.matmul_preserves_argument",
    "Curvlinops.matmul_preserves_vectors_and_tensors",
    "Curvlinops.kfacInverse_overwrites_argument",
    "Curvlinops.kfacInverse_overwrites_argument_witness"
   ],
   "note": "Preserved for operators whose _matmat does not assign to its argument list, and for every operator if the argument is a tensor or a list of vectors. The claim is false for the KFAC inverse: it is proved that a list of matrices holds the result afterwards."
  },
  {
   "property": "C07",
   "status": "proved",
   "theorems": [
    "Curvlinops.initBlockSizes_spec"
   ],
   "note": "Constructor argument checks, both directions."
  },
  {
   "property": "C08",
   "status": "proved",
   "theorems": [
    "Curvlinops.curvatureOp_batching",
    "Curvlinops.matmul_batching"
   ],
   "note": "Any partition into non-empty batches, both reductions."
  },
  {
   "property": "C09",
   "status": "proved",
   "theorems": [
    "Curvlinops.matmul_batch_order"
   ],
   "note": "Any permutation of the batches."
  },
  {
   "property": "C10",
   "status": "proved",
   "theorems": [
    "Curvlinops.matmul_linear"
   ],
   "note": "For every operator that represents a matrix, all formats."
  },
  {
   "property": "C100",
   "status": "proved",
   "theorems": [
    "Curvlinops.matmat_rounding",
    "Curvlinops.gradientAndLoss_rounding",
    "Curvlinops.batching_rounding",
    "Curvlinops.batchError_le",
    "Curvlinops.order_matters_in_floating_point",
    "Curvlinops.binary_close",
    "Curvlinops.binary_natCast"
   ],
   "note": "Standard model of floating point arithmetic (relative error per operation, no overflow or underflow, one precision); the accuracy of a single mini-batch is a hypothesis."
  },
  {
   "property": "C101",
   "status": "proved",
   "theorems": [
    "Curvlinops.neumann_rounding",
    "Curvlinops.neumann_rounding_inverse",
    "Curvlinops.neumann_rounding_symmetric",
    "Curvlinops.supNorm_monotone",
    "Curvlinops.euclNorm_monotone",
    "Curvlinops.euclNorm_eq"
   ],
   "note": "Standard model of floating point arithmetic (relative error per operation, no overflow or underflow); the accuracy of single products with A is a hypothesis."
  },
  {
   "property": "C102",
   "status": "proved",
   "theorems": [
    "Curvlinops.netGradient_spec",
    "Curvlinops.descent",
    "Curvlinops.descent_step",
    "Curvlinops.solution_descent",
    "Curvlinops.curvature_solutions_descend",
    "Curvlinops.mc_solutions_descend",
    "Curvlinops.kfac_exact_descent",
    "Curvlinops.kfac_value_descent",
    "Curvlinops.kfac_heuristic_descent",
    "Curvlinops.neumann_descent",
    "Curvlinops.neumann_ascends",
    "Curvlinops.newton_ascends"
   ],
   "note": "exact arithmetic; the model treats the data independently; differentiability at the parameters is a hypothesis, as is the tangent bound of the quantitative part"
  },
  {
   "property": "C103",
   "status": "partial",
   "theorems": [
    "Curvlinops.submatrix_stable_partial",
    "Curvlinops.submatrix_follows_lists",
    "Curvlinops.submatrix_follows_negative",
    "Curvlinops.submatrix_rows_outside",
    "Curvlinops.submatrix_rows_changed",
    "Curvlinops.submatrix_lists_witness",
    "Curvlinops.kfac_shared_partial",
    "Curvlinops.kfac_trace_shared",
    "Curvlinops.kfac_det_shared",
    "Curvlinops.kfac_logdet_shared",
    "Curvlinops.kfac_frobenius_shared",
    "Curvlinops.kfac_shared_witness",
    "Curvlinops.submatrix_rejected"
   ],
   "note": "The code violates the claim: sub-matrices keep the caller's index lists, and the KFAC properties return the cached tensors. Proved: what follows the caller's changes and to which value, with numerical witnesses, and that everything else is unaffected by any program."
  },
  {
   "property": "C104",
   "status": "proved",
   "theorems": [
    "Curvlinops.hutch_budget",
    "Curvlinops.hutchpp_budget",
    "Curvlinops.hutchpp_budget_bound",
    "Curvlinops.lanczos_budget",
    "Curvlinops.spectrum_budget",
    "Curvlinops.neumann_budget",
    "Curvlinops.submatrix_budget"
   ],
   "note": "Products that raise are counted as well. For functions of an operator (Lanczos, spectra, Neumann, sub-matrix) the number is the number of products that determine the result."
  },
  {
   "property": "C105",
   "status": "proved",
   "theorems": [
    "Curvlinops.exported_accurate",
    "Curvlinops.neumann_exported",
    "Curvlinops.exportCast_id",
    "Curvlinops.cast_widen"
   ],
   "note": "Standard model of floating point arithmetic (relative error per operation, no overflow or underflow); the accuracy of the products of a single mini-batch is a hypothesis."
  },
  {
   "property": "C106",
   "status": "proved",
   "theorems": [
    "Curvlinops.gradient_reparam",
    "Curvlinops.datum_jacobian_reparam",
    "Curvlinops.jacobianOp_reparam",
    "Curvlinops.transposedJacobianOp_reparam",
    "Curvlinops.ggnOp_reparam",
    "Curvlinops.lossOps_reparam",
    "Curvlinops.mcOp_reparam",
    "Curvlinops.naturalGradient_reparam",
    "Curvlinops.hessianOp_reparam",
    "Curvlinops.hessianOp_not_reparam"
   ],
   "note": "All parts, exact arithmetic. For the supported losses the Jacobians of the terms in the new parameters are J D, which datum_jacobian_reparam proves for every differentiable model; hessianOp_not_reparam is the witness for 'not in general'. mcOp_reparam assumes that labels are drawn from the predictions only, as sample_grad_output does."
  },
  {
   "property": "C107",
   "status": "proved",
   "theorems": [
    "Curvlinops.hessian_directional",
    "Curvlinops.risk_quadratic_model",
    "Curvlinops.jacobian_directional",
    "Curvlinops.transposedJacobian_gradient",
    "Curvlinops.linearizedRisk_quadratic_model",
    "Curvlinops.quadratic_model_minimizer",
    "Curvlinops.gaussNewton_step"
   ],
   "note": "Derivative of the returned gradients along v is the Hessian product; derivative of predictions is the Jacobian product; transposed Jacobian as gradient of weighted predictions; epsilon-delta quadratic models with Hessian (risk) and GGN (linearized risk); minimizers of the quadratic model are exactly the solutions of A x = -g, instantiated for the GGN."
  },
  {
   "property": "C108",
   "status": "proved",
   "theorems": [
    "Curvlinops.selected_unbiased",
    "Curvlinops.ggn_selected_unbiased",
    "Curvlinops.ef_selected_unbiased",
    "Curvlinops.hessian_selected_unbiased",
    "Curvlinops.gradient_selected_unbiased",
    "Curvlinops.selected_variance",
    "Curvlinops.resampled_variance",
    "Curvlinops.exchangeable_replacement",
    "Curvlinops.exchangeable_subset",
    "Curvlinops.exchangeable_shuffled",
    "Curvlinops.loader_mean",
    "Curvlinops.loader_mean_unequal",
    "Curvlinops.kfac_factors_unbiased",
    "Curvlinops.kfac_biased"
   ],
   "note": "Outcomes of the selection are equally likely elements of a finite type. Both negative statements of the property are proved with witnesses. KFAC's Monte-Carlo factors: the samples belong to the data."
  },
  {
   "property": "C109",
   "status": "proved",
   "theorems": [
    "Curvlinops.damped_rep",
    "Curvlinops.add_shape",
    "Curvlinops.cgSolve_error",
    "Curvlinops.cgSolve_descent",
    "Curvlinops.neumann_example",
    "Curvlinops.mergeParams_spec",
    "Curvlinops.mergeParams_raises",
    "Curvlinops.ggn_task",
    "Curvlinops.ggn_merge"
   ],
   "note": "The contract of SciPy's CG (exit code 0: residual at most tol times the norm of the right-hand side) and that eigsh returns the largest eigenvalue are hypotheses; divideCG_solves shows that the contract can be met."
  },
  {
   "property": "C11",
   "status": "proved",
   "theorems": [
    "Curvlinops.netHessianOp_represents",
    "Curvlinops.netHessianOp_blocks",
    "Curvlinops.netHessian_symm"
   ],
   "note": "For losses twice continuously differentiable in the parameters at the current parameters (per datum); automatic differentiation is modelled by partial derivatives."
  },
  {
   "property": "C110",
   "status": "partial",
   "theorems": [
    "Curvlinops.power_run",
    "Curvlinops.rayleigh_bounds",
    "Curvlinops.iterQuot_mono",
    "Curvlinops.power_converges",
    "Curvlinops.power_stops",
    "Curvlinops.power_method_converges",
    "Curvlinops.power_method_next",
    "Curvlinops.power_method_more",
    "Curvlinops.power_method_result",
    "Curvlinops.power_eigenvectors",
    "Curvlinops.power_nan",
    "Curvlinops.power_docstring_violation",
    "Curvlinops.power_zero_nan"
   ],
   "note": "Proved except for what the code violates: the documented descending order and shape [D, k] (power_docstring_violation), and NaN where the remaining eigenvalue is 0 (power_zero_nan). Convergence of the second and later eigenpairs is proved under exact earlier eigenvectors."
  },
  {
   "property": "C111",
   "status": "proved",
   "theorems": [
    "Curvlinops.hessian_symmetry",
    "Curvlinops.ggn_symmetry",
    "Curvlinops.ef_symmetry",
    "Curvlinops.gradient_symmetry",
    "Curvlinops.mc_symmetry",
    "Curvlinops.mc_shift_symmetry",
    "Curvlinops.OutChange.draw_law",
    "Curvlinops.kfac_symmetry"
   ],
   "note": "Exact arithmetic. For the type-2 factors the loss terms of one datum are changed in the same way (other data in other ways); everywhere else each loss term can be changed in its own way. In kfac_symmetry the square roots, gradients and draws are those the code computes for the changed predictions; mc_symmetry assumes corresponding draws, draw_law says they are distributed as the code samples."
  },
  {
   "property": "C112",
   "status": "proved",
   "theorems": [
    "Curvlinops.kfac_matrix_mapped",
    "Curvlinops.kfac_pullback",
    "Curvlinops.kfacInverse_pullback",
    "Curvlinops.NetChange.predict",
    "Curvlinops.seqNet_kfac_change",
    "Curvlinops.NetChange.same",
    "Curvlinops.NetChange.gradient",
    "Curvlinops.seqNet_inverse_change",
    "Curvlinops.seqNet_step_change",
    "Curvlinops.kfacInverse_damping_not_invariant",
    "Curvlinops.kfac_forwardOnly_not_invariant"
   ],
   "note": "All parts, exact arithmetic. kfac_matrix_mapped and the two pullback theorems are about any layers whose hooks see changed inputs and derivatives; the seqNet theorems derive this for sequential networks and add predictions, gradients and steps. The draws of the Monte-Carlo variant are data of both networks."
  },
  {
   "property": "C113",
   "status": "proved",
   "theorems": [
    "Curvlinops.seqNet_type2_error",
    "Curvlinops.seqNet_empirical_error",
    "Curvlinops.ErrorIsCov.bias",
    "Curvlinops.sharedAfter_single",
    "Curvlinops.kfac_error_witness"
   ],
   "note": "ErrorIsCov states the covariance formula, the average over pairs, the Frobenius bound, the traces and the exact cases; kfac_error_witness is a network with a nonzero error"
  },
  {
   "property": "C114",
   "status": "proved",
   "theorems": [
    "Curvlinops.kfac_distance_type2",
    "Curvlinops.kfac_distance_empirical",
    "Curvlinops.kfac_distance_sharp",
    "Curvlinops.damped_solvable"
   ],
   "note": "Exact arithmetic; decompositions that meet their contract; new state."
  },
  {
   "property": "C115",
   "status": "proved",
   "theorems": [
    "Curvlinops.kfacInverse_monotone",
    "Curvlinops.kfacInverse_exact_monotone",
    "Curvlinops.kfacInverse_factors_le_exact",
    "Curvlinops.kfacInverse_value_le_exact",
    "Curvlinops.kfacInverse_heuristic_le_exact",
    "Curvlinops.kfacInverse_heuristic_monotone",
    "Curvlinops.kfacInverse_heuristic_bias",
    "Curvlinops.LoewnerLe.diag"
   ],
   "note": "Exact arithmetic; decompositions that meet their contract; new state. The exception for separately treated biases is proved with a witness."
  },
  {
   "property": "C116",
   "status": "partial",
   "theorems": [
    "Curvlinops.layoutFactors_batchFirst",
    "Curvlinops.layoutFactors_expand",
    "Curvlinops.kfac_layout_expand",
    "Curvlinops.kfac_layout_merged",
    "Curvlinops.layoutFactors_merged_reduce",
    "Curvlinops.layout_independent_partial",
    "Curvlinops.layout_merged_witness",
    "Curvlinops.layout_seqFirst_batching",
    "Curvlinops.layout_seqFirst_reduce",
    "Curvlinops.layout_dependence"
   ],
   "note": "The claim is violated by the code (layout_dependence, layout_seqFirst_batching, layout_seqFirst_reduce). Proved: equality when the first dimension is the batch, the exact scale of factors and products for KFAC-expand otherwise, and equality of reduce and expand when all positions are merged."
  },
  {
   "property": "C117",
   "status": "proved",
   "theorems": [
    "Curvlinops.AtLeast.diag",
    "Curvlinops.curvatureOp_added",
    "Curvlinops.ggn_added",
    "Curvlinops.ef_added",
    "Curvlinops.drawAll_append",
    "Curvlinops.mc_added",
    "Curvlinops.kfac_added",
    "Curvlinops.kfac_added_zero",
    "Curvlinops.kfac_added_witness"
   ],
   "note": "KFAC may decrease with reduction sum (kfac_added_witness); the factors of kfac_added are sharp (kfac_added_zero)."
  },
  {
   "property": "C118",
   "status": "proved",
   "theorems": [
    "Curvlinops.kfac_spectrum",
    "Curvlinops.kfac_spectrum_kron",
    "Curvlinops.kfac_eigen_exist",
    "Curvlinops.kfac_spectrum_nonneg",
    "Curvlinops.kfac_scalars_spectrum",
    "Curvlinops.kfacInverse_exact_spectrum",
    "Curvlinops.kfacInverse_damped_spectrum",
    "Curvlinops.HasSpectrum.unique",
    "Curvlinops.HasSpectrum.bounds",
    "Curvlinops.HasSpectrum.attained",
    "Curvlinops.HasSpectrum.trace",
    "Curvlinops.HasSpectrum.det",
    "Curvlinops.HasSpectrum.squares"
   ],
   "note": "For every KFAC operator (any world and options); eigendecompositions of the factors exist (kfac_eigen_exist), and the spectrum is unique. Exact arithmetic."
  },
  {
   "property": "C119",
   "status": "proved",
   "theorems": [
    "Curvlinops.scaled_rep",
    "Curvlinops.sub_rep",
    "Curvlinops.deflate_rep",
    "Curvlinops.deflate_shape",
    "Curvlinops.deflate_matrix_raises",
    "Curvlinops.eigen_complete",
    "Curvlinops.deflated_residual",
    "Curvlinops.deflated_spectrum",
    "Curvlinops.deflated_rest",
    "Curvlinops.deflated_top",
    "Curvlinops.deflated_boundaries",
    "Curvlinops.deflated_trace",
    "Curvlinops.deflated_lanczos",
    "Curvlinops.hessian_deflated"
   ],
   "note": "Products, spectrum and estimates of operators from which eigenpairs are subtracted."
  },
  {
   "property": "C12",
   "status": "proved",
   "theorems": [
    "Curvlinops.hessianOp_blocks",
    "Curvlinops.blockDiagonal_single"
   ],
   "note": "Together with the batching."
  },
  {
   "property": "C120",
   "status": "proved",
   "theorems": [
    "Curvlinops.submatrix_interlaces",
    "Curvlinops.restriction_interlaces",
    "Curvlinops.hessian_interlaces",
    "Curvlinops.ggn_interlaces",
    "Curvlinops.ef_interlaces",
    "Curvlinops.mc_interlaces",
    "Curvlinops.ggn_eigenvalues_added",
    "Curvlinops.ef_eigenvalues_added",
    "Curvlinops.mc_eigenvalues_added",
    "Curvlinops.kfac_eigenvalues_added",
    "Curvlinops.kfac_eigenvalues_type2",
    "Curvlinops.kfac_eigenvalues_empirical",
    "Curvlinops.kfac_eigenvalues_sharp",
    "Curvlinops.lossOps_hasEigenvalues",
    "Curvlinops.mc_hasEigenvalues",
    "Curvlinops.hessian_hasEigenvalues",
    "Curvlinops.kfac_hasEigenvalues"
   ],
   "note": "Interlacing, monotonicity and perturbation of eigenvalues across operators."
  },
  {
   "property": "C121",
   "status": "proved",
   "theorems": [
    "Curvlinops.labelResidual_moment",
    "Curvlinops.labelResidual_mse",
    "Curvlinops.labelResidual_ce",
    "Curvlinops.mcResidual_mean",
    "Curvlinops.mcResidual_markov",
    "Curvlinops.mcMatrix_average",
    "Curvlinops.fisher_residual",
    "Curvlinops.fisher_average_residual",
    "Curvlinops.fisher_eigenvalues",
    "Curvlinops.seeded_generator_exists"
   ],
   "note": "Independence of the labels, also between seeds, is an assumption on the generator; generators that satisfy it are constructed."
  },
  {
   "property": "C122",
   "status": "proved",
   "theorems": [
    "Curvlinops.extractBlock_eq",
    "Curvlinops.blockBounds_negative",
    "Curvlinops.extractBlock_last",
    "Curvlinops.extractBlock_last_column",
    "Curvlinops.blockOp_eye",
    "Curvlinops.hessian_blocks",
    "Curvlinops.mixedDerivatives_transpose",
    "Curvlinops.functorch_blocks",
    "Curvlinops.hessian_group_blocks"
   ],
   "note": "Blocks for all pairs of non-negative positions, models and groups; position -1 and parameters without entries are described by extractBlock_last, extractBlock_last_column and blockOp_eye."
  },
  {
   "property": "C123",
   "status": "proved",
   "theorems": [
    "Curvlinops.exported_wrong_shape",
    "Curvlinops.SciOp.dot_wrong_size",
    "Curvlinops.SciOp.matvec_columns",
    "Curvlinops.mkSubmatrix_shape",
    "Curvlinops.submatrix_wrong_size"
   ],
   "note": "Shape checks of the export and of SciPy's operators, for arbitrary operators."
  },
  {
   "property": "C124",
   "status": "partial",
   "theorems": [
    "Curvlinops.load_other_product_partial",
    "Curvlinops.load_other_trace",
    "Curvlinops.load_other_shape",
    "Curvlinops.load_other_witness",
    "Curvlinops.weightProduct_joint_factor",
    "Curvlinops.jointProduct_weight_factor"
   ],
   "note": "The code violates the claim for the properties: trace returns the value for the other parameters and shape the other shape (load_other_witness, load_other_trace, load_other_shape). Proved: products raise RuntimeError when the operators differ in the bias of a layer whose weight they share and weights and biases are treated jointly."
  },
  {
   "property": "C125",
   "status": "proved",
   "theorems": [
    "Curvlinops.hessian_group_eigenvalues",
    "Curvlinops.hessian_block_eigenvalues",
    "Curvlinops.groupHessian_hasEigenvalues"
   ],
   "note": "Exact arithmetic, twice continuously differentiable losses."
  },
  {
   "property": "C126",
   "status": "proved",
   "theorems": [
    "Curvlinops.kfac_majorized_linear",
    "Curvlinops.kfac_majorized_single",
    "Curvlinops.kfac_majorized_empirical",
    "Curvlinops.Majorized.damped",
    "Curvlinops.seqNet_hasEigenvalues"
   ],
   "note": "Eigenvalues with multiplicities, sorted; KFAC and GGN/EF operators on the same sequential network."
  },
  {
   "property": "C127",
   "status": "proved",
   "theorems": [
    "Curvlinops.IsMean.eigenvalues",
    "Curvlinops.MeanMajorized.extreme",
    "Curvlinops.MeanMajorized.damped",
    "Curvlinops.ggn_selected_eigenvalues",
    "Curvlinops.ef_selected_eigenvalues",
    "Curvlinops.hessian_selected_eigenvalues",
    "Curvlinops.loader_eigenvalues",
    "Curvlinops.lossOps_nonneg",
    "Curvlinops.selected_exaggerates"
   ],
   "note": "Means over a finite type of equally likely selections, as in C108."
  },
  {
   "property": "C128",
   "status": "proved",
   "theorems": [
    "Curvlinops.fisher_eigenvalues_mean",
    "Curvlinops.HasSpectrum.random"
   ],
   "note": "Random generators with independent draws from the predictive distributions, as in C121; means are lower Lebesgue integrals of non-negative functions."
  },
  {
   "property": "C129",
   "status": "partial",
   "theorems": [
    "Curvlinops.jacobian_outputs_differ",
    "Curvlinops.jacobian_num_data",
    "Curvlinops.transposed_raises",
    "Curvlinops.transposed_num_data_partial",
    "Curvlinops.transposed_num_data_large",
    "Curvlinops.num_data_witness",
    "Curvlinops.concatenateBatches_differ"
   ],
   "note": "The code violates the claim for the transposed Jacobian: a num_data that is too large is accepted and entries of the argument are ignored. Proved: the matrix it multiplies with then, a witness, and the exceptions in all other cases."
  },
  {
   "property": "C13",
   "status": "proved",
   "theorems": [
    "Curvlinops.ggnOp_represents",
    "Curvlinops.ggnMatrix_symmetric",
    "Curvlinops.ggnMatrix_psd",
    "Curvlinops.ggnLossOp_represents",
    "Curvlinops.ggnLoss_symm_psd",
    "Curvlinops.lossHessian_psd"
   ],
   "note": "General losses given by their Hessian, and MSELoss/CrossEntropyLoss/BCEWithLogitsLoss with both reductions and several loss terms per datum."
  },
  {
   "property": "C130",
   "status": "proved",
   "theorems": [
    "Curvlinops.tour_accepted",
    "Curvlinops.tour_hessian",
    "Curvlinops.tour_kfac",
    "Curvlinops.tour_lines",
    "Curvlinops.tour_labels"
   ],
   "note": "Block sizes, matrices, lines and labels of the visual tour."
  },
  {
   "property": "C131",
   "status": "proved",
   "theorems": [
    "Curvlinops.kfac_input_rounding",
    "Curvlinops.kfac_grad_rounding",
    "Curvlinops.inputAccuracy_le",
    "Curvlinops.kfac_rounding_symmetric",
    "Curvlinops.kfac_rounding_forward_only",
    "Curvlinops.kfac_block_rounding",
    "Curvlinops.kfac_input_rounding_damped",
    "Curvlinops.kfac_grad_rounding_damped",
    "Curvlinops.float32_factor_indefinite"
   ],
   "note": "errors relative to the factors of the bounds, for every order of summation; no overflow and no underflow"
  },
  {
   "property": "C132",
   "status": "proved",
   "theorems": [
    "Curvlinops.kfacMatmatFl_rel",
    "Curvlinops.kfac_product_rounding_of_factors",
    "Curvlinops.kfac_product_rounding",
    "Curvlinops.kfac_product_rounding_symmetric"
   ],
   "note": "End to end from what the hooks see to the entries of the product; the external part is the accuracy of sums in torch's kernels."
  },
  {
   "property": "C133",
   "status": "proved",
   "theorems": [
    "Curvlinops.inverse_nearby",
    "Curvlinops.kfacInverse_nearby",
    "Curvlinops.kfacInverse_rounding"
   ],
   "note": "The inversion itself is exact (correct linear algebra routines, as in C41); the errors are those of the factors."
  },
  {
   "property": "C134",
   "status": "proved",
   "theorems": [
    "Curvlinops.kfacTraceFl_rel",
    "Curvlinops.kfacSquaresFl_rel",
    "Curvlinops.kfac_scalars_rounding_of_factors",
    "Curvlinops.kfacFrobeniusFl_no_layers",
    "Curvlinops.kfac_scalars_rounding"
   ],
   "note": "Sums inside torch in any order (FlSum); sqrt_ is correctly rounded. Conv2d layers enter through their patches. det and logdet use LU decompositions of torch and are not treated."
  },
  {
   "property": "C135",
   "status": "proved",
   "theorems": [
    "Curvlinops.rademacherFl_ofFn",
    "Curvlinops.samplesFl_within",
    "Curvlinops.hutchTraceFl_rademacher",
    "Curvlinops.hutchDiagFl_rademacher",
    "Curvlinops.hutchNormFl_rademacher",
    "Curvlinops.samplesFl_names",
    "Curvlinops.kfac_multipliesWithin"
   ],
   "note": "One floating point type for vectors and results; conversions inside the operator's product count as errors of the product. 2 and -1 are representable. The expectation is over fair bits; for normal vectors the bound is per sample. kfac_multipliesWithin connects the assumption to C132."
  },
  {
   "property": "C136",
   "status": "proved",
   "theorems": [
    "Curvlinops.hutchpp_bias_rademacher",
    "Curvlinops.hutchpp_bias_normal",
    "Curvlinops.gramDefect_eq_zero",
    "Curvlinops.hutchpp_bias_le",
    "Curvlinops.hutchpp_unbiased_iff",
    "Curvlinops.hutchppFl_setup",
    "Curvlinops.hutchppFl_sample_within",
    "Curvlinops.hutchppFl_rademacher",
    "Curvlinops.hutchppFl_first",
    "Curvlinops.hutchppFl_sample_error",
    "Curvlinops.hutchppFl_setup_errors",
    "Curvlinops.hutchppFl_names"
   ],
   "note": "bias of an inexact basis, exactly; rounding errors of set-up and samples"
  },
  {
   "property": "C137",
   "status": "proved",
   "theorems": [
    "Curvlinops.checkDeterministic_accepts",
    "Curvlinops.checkDeterministic_unordered",
    "Curvlinops.check_accepts_reordered",
    "Curvlinops.check_refuses_different",
    "Curvlinops.check_refuses_shuffled"
   ],
   "note": "acceptance and refusal up to rounding errors; float32 witness of a refused reordering"
  },
  {
   "property": "C138",
   "status": "proved",
   "theorems": [
    "Curvlinops.deflated_trace_eq",
    "Curvlinops.deflated_squares",
    "Curvlinops.deflated_unbiased_rademacher",
    "Curvlinops.deflated_unbiased_normal",
    "Curvlinops.deflated_trace_inexact",
    "Curvlinops.deflated_rayleigh",
    "Curvlinops.deflated_form_close",
    "Curvlinops.deflated_bounds_inexact",
    "Curvlinops.eigenvalue_near",
    "Curvlinops.deflated_zero_near",
    "Curvlinops.deflated_eigs_inexact"
   ],
   "note": "Deflation with numbers and vectors that need not be eigenpairs: expectation, variance, and the spectrum in terms of the residuals."
  },
  {
   "property": "C139",
   "status": "proved",
   "theorems": [
    "Curvlinops.submatrix_within",
    "Curvlinops.outerFl_within",
    "Curvlinops.outerFl_stretched",
    "Curvlinops.outerFl_matrix_raises",
    "Curvlinops.projectorFl_within",
    "Curvlinops.scaled_within",
    "Curvlinops.add_within'",
    "Curvlinops.damping_within",
    "Curvlinops.damped_within",
    "Curvlinops.deflateFl_within",
    "Curvlinops.deflateFl_shape",
    "Curvlinops.deflatedFl_trace",
    "Curvlinops.SciWithin.multiplies"
   ],
   "note": "Model/UtilityRounding.lean; contraction orders with three-axis intermediates are not modelled."
  },
  {
   "property": "C14",
   "status": "proved",
   "theorems": [
    "Curvlinops.ggnOp_eq_functorch"
   ],
   "note": "The loss is assumed twice continuously (C^2) differentiable at the output; model differentiable at the parameters."
  },
  {
   "property": "C140",
   "status": "proved",
   "theorems": [
    "Curvlinops.export_within",
    "Curvlinops.curvature_within",
    "Curvlinops.kfac_within",
    "Curvlinops.SciWithin.accurate",
    "Curvlinops.exported_trace",
    "Curvlinops.exported_block_trace",
    "Curvlinops.exported_deflated_trace",
    "Curvlinops.exported_neumann"
   ],
   "note": "Entry-wise accuracy of the SciPy export, for curvature operators and KFAC, and its consequences for estimators, sub-matrices, deflation and the Neumann inverse."
  },
  {
   "property": "C141",
   "status": "proved",
   "theorems": [
    "Curvlinops.computed_averages",
    "Curvlinops.GoodComputed.enough",
    "Curvlinops.hutchTraceFl_average",
    "Curvlinops.hutchDiagFl_average",
    "Curvlinops.hutchNormFl_average",
    "Curvlinops.mean_raises",
    "Curvlinops.exported_average",
    "Curvlinops.triStream_fair"
   ],
   "note": "Chebyshev bound plus rounding errors, and almost sure limits. Independent fair bits are a hypothesis about the generator; one that satisfies it is constructed."
  },
  {
   "property": "C15",
   "status": "proved",
   "theorems": [
    "Curvlinops.efOp_represents",
    "Curvlinops.ef_matrix",
    "Curvlinops.ef_symm_psd",
    "Curvlinops.termSandwich_lossGradOuter"
   ],
   "note": "All three losses, both reductions, every batching; autodiff of the loss modelled by partial derivatives."
  },
  {
   "property": "C16",
   "status": "proved",
   "theorems": [
    "Curvlinops.efOp_eq_functorch",
    "Curvlinops.refGroupGrad_eq"
   ],
   "note": ""
  },
  {
   "property": "C17",
   "status": "proved",
   "theorems": [
    "Curvlinops.mcMatmat_history",
    "Curvlinops.mcMatmat_reproducible",
    "Curvlinops.mcStep_device",
    "Curvlinops.mcStep_device_last"
   ],
   "note": "Arbitrary generator; results may differ between devices, as the generators do."
  },
  {
   "property": "C18",
   "status": "proved",
   "theorems": [
    "Curvlinops.wouldBeGrad_unbiased",
    "Curvlinops.mcMatrix_unbiased",
    "Curvlinops.wouldBeGrad_ce_unbiased",
    "Curvlinops.wouldBeGrad_bce_unbiased",
    "Curvlinops.wouldBeGrad_mse_unbiased"
   ],
   "note": "Expectation over draws from the predictive distribution; pseudo-randomness itself is trusted."
  },
  {
   "property": "C19",
   "status": "proved",
   "theorems": [
    "Curvlinops.mcOp_represents",
    "Curvlinops.mcMatrix_symm_psd",
    "Curvlinops.mcMatmat_nonbinary",
    "Curvlinops.mcMatmat_bce_nonbinary",
    "Curvlinops.binaryTargets_other",
    "Curvlinops.mcMatmat_no_samples"
   ],
   "note": ""
  },
  {
   "property": "C20",
   "status": "proved",
   "theorems": [
    "Curvlinops.jacobianOp_rows",
    "Curvlinops.jacobian_zero_columns"
   ],
   "note": "Any batching, at least one column; with zero columns the product raises (jacobian_zero_columns)."
  },
  {
   "property": "C21",
   "status": "proved",
   "theorems": [
    "Curvlinops.transposedJacobianOp_rows",
    "Curvlinops.jacobian_adjoint"
   ],
   "note": "Any two batchings of the same data."
  },
  {
   "property": "C22",
   "status": "proved",
   "theorems": [
    "Curvlinops.adjoint_plain",
    "Curvlinops.adjoint_jacobian",
    "Curvlinops.adjoint_selfAdjoint",
    "Curvlinops.adjoint_ggn"
   ],
   "note": "Dispatch, transposes, twice."
  },
  {
   "property": "C23",
   "status": "proved",
   "theorems": [
    "Curvlinops.toScipy_spec",
    "Curvlinops.toScipy_jacobian"
   ],
   "note": "Exact arithmetic, dtypes as tags."
  },
  {
   "property": "C24",
   "status": "proved",
   "theorems": [
    "Curvlinops.gradientAndLoss_spec",
    "Curvlinops.gradientAndLoss_no_loss"
   ],
   "note": "Exact arithmetic; all partitions into non-empty batches."
  },
  {
   "property": "C25",
   "status": "proved",
   "theorems": [
    "Curvlinops.checkDeterministic_accepts",
    "Curvlinops.checkDeterministic_ok",
    "Curvlinops.checkDeterministic_error"
   ],
   "note": "close is an arbitrary reflexive comparison; acceptance is for identical traversals."
  },
  {
   "property": "C26",
   "status": "partial",
   "theorems": [
    "Curvlinops.check_misses_total_loss",
    "Curvlinops.check_rejects_reordering",
    "Curvlinops.check_misses_missing_batch",
    "Curvlinops.check_total_loss_partial"
   ],
   "note": "The code violates the claim (line 753 compares last-batch losses); three witnesses, plus the single-batch case."
  },
  {
   "property": "C27",
   "status": "proved",
   "theorems": [
    "Curvlinops.constructorCheck_device",
    "Curvlinops.constructorCheck_same_objects",
    "Curvlinops.constructorCheck_replaces_params",
    "Curvlinops.constructorCheck_moves_others"
   ],
   "note": "Same objects only for Module models owning the parameters; witnesses for the other cases."
  },
  {
   "property": "C28",
   "status": "proved",
   "theorems": [
    "Curvlinops.computeMapping_raises_iff",
    "Curvlinops.computeMapping_entries",
    "Curvlinops.computeMapping_tied"
   ],
   "note": "Exact condition for the error, exact contents of the mapping for every list of modules, and the shared-parameter case."
  },
  {
   "property": "C29",
   "status": "proved",
   "theorems": [
    "Curvlinops.kfac_tiles",
    "Curvlinops.kfac_represents",
    "Curvlinops.kfac_matrix_exists",
    "Curvlinops.computeMapping_layers",
    "Curvlinops.kfac_tied_uses_last_layer"
   ],
   "note": "The operator multiplies with the block-diagonal matrix of Kronecker blocks for all layers, shapes, factors and both treatments; the constructor's mapping has the assumed form when no parameter is shared."
  },
  {
   "property": "C30",
   "status": "proved",
   "theorems": [
    "Curvlinops.kfac_input_factor",
    "Curvlinops.kfac_grad_factor",
    "Curvlinops.kfac_factors_batching"
   ],
   "note": "Drawn labels are attributed to data, so the draw order over batches is outside the model; networks process data independently."
  },
  {
   "property": "C31",
   "status": "proved",
   "theorems": [
    "Curvlinops.kfacTrace_eq",
    "Curvlinops.kfacDet_eq",
    "Curvlinops.kfacFrobenius_eq",
    "Curvlinops.kfacLogdet_eq",
    "Curvlinops.kfacLogdet_computed",
    "Curvlinops.kfacFrobenius_empty",
    "Curvlinops.kfacLogdet_nan",
    "Curvlinops.kfac_first_call",
    "Curvlinops.kfac_history_values"
   ],
   "note": "Exact real arithmetic. frobenius_norm of an operator without layers raises (kfacFrobenius_empty)."
  },
  {
   "property": "C32",
   "status": "proved",
   "theorems": [
    "Curvlinops.kfac_history",
    "Curvlinops.computeKfac_forgets_properties",
    "Curvlinops.kfac_first_call",
    "Curvlinops.kfac_history_values",
    "Curvlinops.batches_draws"
   ],
   "note": "Every sequence of products, property reads and uses of the model without exceptions: results equal those of a fresh operator, at most one traversal, no hooks remain. A recomputation forgets the cached properties."
  },
  {
   "property": "C33",
   "status": "partial",
   "theorems": [
    "Curvlinops.kfac_interrupted_raises_partial",
    "Curvlinops.kfac_interrupted_used",
    "Curvlinops.kfac_interrupted_witness"
   ],
   "note": "The claim is false of the code: after an exception the hooks stay installed and, once a factor was updated, the partial factors are used without recomputation (kfac_interrupted_used for every crash point, kfac_interrupted_witness with numbers). Proved: the interrupted call itself raises the exception (kfac_interrupted_raises_partial)."
  },
  {
   "property": "C34",
   "status": "proved",
   "theorems": [
    "Curvlinops.kfac_psd",
    "Curvlinops.kfacFactors_gram"
   ],
   "note": "Symmetric and non-negative quadratic form, for every Fisher type, KFAC type, reduction, data and batching."
  },
  {
   "property": "C35",
   "status": "partial",
   "theorems": [
    "Curvlinops.kfac_type2_single_partial",
    "Curvlinops.kfac_empirical_single_partial",
    "Curvlinops.kfac_two_terms"
   ],
   "note": "Proved for a datum with one loss term (all layers without weight sharing, separate and joint treatment, both KFAC types). With several loss terms per datum the claim is false: kfac_two_terms is a counterexample. The chain-rule hypothesis is proved for feed-forward networks in C73."
  },
  {
   "property": "C36",
   "status": "partial",
   "theorems": [
    "Curvlinops.lossHessianSqrt_partial",
    "Curvlinops.lossHessianSqrt_ce_one",
    "Curvlinops.lossHessianSqrt_errors"
   ],
   "note": "Fails for CrossEntropyLoss with one class, which raises RuntimeError (proved)."
  },
  {
   "property": "C37",
   "status": "proved",
   "theorems": [
    "Curvlinops.averagedPatches_eq_mean",
    "Curvlinops.extractPatches_of_averaged",
    "Curvlinops.patches_int_pair"
   ],
   "note": "Whenever extract_patches returns, the averaged patch is the mean of its rows; if only the averaged patches exist, extract_patches raises NotImplementedError for padding='same' with unequal sides."
  },
  {
   "property": "C38",
   "status": "partial",
   "theorems": [
    "Curvlinops.conv_eq_patches",
    "Curvlinops.extractPatches_str",
    "Curvlinops.conv_weight_gradient",
    "Curvlinops.circular_padding_witness",
    "Curvlinops.patches_int_pair"
   ],
   "note": "Proved for padding_mode='zeros', for integer and string paddings, with KFAC's flattening of the weight. False for other padding modes, which KFAC accepts and ignores: circular_padding_witness."
  },
  {
   "property": "C39",
   "status": "partial",
   "theorems": [
    "Curvlinops.load_stateDict_partial",
    "Curvlinops.fromStateDict_roundtrip",
    "Curvlinops.load_mismatch_partial",
    "Curvlinops.load_mismatch_changes_model",
    "Curvlinops.load_wrong_keys_accepted",
    "Curvlinops.load_wrong_keys_witness",
    "Curvlinops.load_bias_only_raises",
    "Curvlinops.load_bias_only_witness"
   ],
   "note": "Proved: results of every later sequence of calls agree after load_state_dict (if the check of the target's own keys passes) and always after from_state_dict; another loss or reduction raises ValueError. False of the code, with counterexamples: the model's parameters are overwritten before the ValueError; keys in the state dict are not checked (the operator's own keys are); an operator with a bias-only layer rejects its own state dict."
  },
  {
   "property": "C40",
   "status": "partial",
   "theorems": [
    "Curvlinops.state_dict_snapshot_partial",
    "Curvlinops.restored_independent_partial",
    "Curvlinops.state_dict_filled",
    "Curvlinops.restored_gets_factors",
    "Curvlinops.restored_witness"
   ],
   "note": "Proved for state dicts that contain factors, for every uninterrupted history on any number of operators. False of the code for a state dict taken before the factors are computed: later calls fill it, and an operator restored from it takes over the other operator's factors."
  },
  {
   "property": "C41",
   "status": "proved",
   "theorems": [
    "Curvlinops.kfacInverse_damped",
    "Curvlinops.kfacInverse_fresh_damped",
    "Curvlinops.kfacInverse_cancels",
    "Curvlinops.represents_cancel"
   ],
   "note": "For routines of linear algebra that are correct in exact arithmetic (linAlg_correct_exists: there are such). kfacInverse_damped: any state with positive definite damped factors, any damping option. kfacInverse_fresh_damped / kfacInverse_cancels: every KFAC operator with positive damping."
  },
  {
   "property": "C42",
   "status": "proved",
   "theorems": [
    "Curvlinops.kfacInverse_exact",
    "Curvlinops.kfacInverse_fresh_exact",
    "Curvlinops.kfacInverse_cache_transparent"
   ],
   "note": "Repetitions: every product in a sequence has the result of the product on the new operator (kfacInverse_cache_transparent, second part)."
  },
  {
   "property": "C43",
   "status": "partial",
   "theorems": [
    "Curvlinops.heuristicDamping_partial",
    "Curvlinops.plainDamping",
    "Curvlinops.heuristicDamping_bias",
    "Curvlinops.heuristicDamping_zero_input",
    "Curvlinops.heuristicDamping_zero_input_cholesky",
    "Curvlinops.heuristicDamping_zero_gradient",
    "Curvlinops.heuristicDamping_negative"
   ],
   "note": "Holds for positive mean eigenvalues and damping >= 0. The claim is false for the code otherwise: a zero input covariance gives an infinite (or nan) gradient damping, a zero gradient covariance gives dampings below min_damping; both are proved."
  },
  {
   "property": "C44",
   "status": "proved",
   "theorems": [
    "Curvlinops.kfacInverse_cache_transparent",
    "Curvlinops.invLoop_transparent"
   ],
   "note": "Factors must not both be empty after computation (holds for every KFAC operator with data and layers, factors_nonempty)."
  },
  {
   "property": "C45",
   "status": "partial",
   "theorems": [
    "Curvlinops.kInvInit_spec",
    "Curvlinops.invLoad_stateDict_partial",
    "Curvlinops.invFromStateDict_roundtrip",
    "Curvlinops.invLoad_error",
    "Curvlinops.invLoad_bias_only_raises"
   ],
   "note": "Construction fully characterized. The round trip holds whenever the KFAC part accepts its state dictionary; it is proved that it does not for bias-only layers (see C39)."
  },
  {
   "property": "C46",
   "status": "proved",
   "theorems": [
    "Curvlinops.invertFactor_attempts",
    "Curvlinops.invertFactor_outcome",
    "Curvlinops.computeInverseFactors_error",
    "Curvlinops.invLoop_failing_not_cached",
    "Curvlinops.kfacInverse_failure"
   ],
   "note": "For arbitrary routines."
  },
  {
   "property": "C47",
   "status": "proved",
   "theorems": [
    "Curvlinops.neumann_vec",
    "Curvlinops.neumann_mat",
    "Curvlinops.neumann_col",
    "Curvlinops.neumann_residual",
    "Curvlinops.neumann_converges"
   ],
   "note": "Truncated series for vectors and matrices, residual identity, convergence for symmetric A with spectrum in the admissible range."
  },
  {
   "property": "C48",
   "status": "proved",
   "theorems": [
    "Curvlinops.neumann_nan_check",
    "Curvlinops.neumann_unchecked",
    "Curvlinops.neumann_zero_terms_unchecked"
   ],
   "note": "NaN in an iterate raises when the check is on; with zero terms the input itself is never checked."
  },
  {
   "property": "C49",
   "status": "partial",
   "theorems": [
    "Curvlinops.cg_forward",
    "Curvlinops.cg_defaults",
    "Curvlinops.lsmr_forward",
    "Curvlinops.inverse_columnwise",
    "Curvlinops.lsmr_default_stops",
    "Curvlinops.lsmr_scipy_default",
    "Curvlinops.lsmr_first_iterate_wrong"
   ],
   "note": "Arguments are forwarded and columns solved separately. The claim about LSMR defaults is false of the code: conlim=1e-8 stops after one iteration (lsmr_default_stops); the solvers themselves are SciPy's and not modelled."
  },
  {
   "property": "C50",
   "status": "partial",
   "theorems": [
    "Curvlinops.submatrix_dense_partial",
    "Curvlinops.submatrix_single_column",
    "Curvlinops.submatrix_no_columns",
    "Curvlinops.submatrix_mixed",
    "Curvlinops.submatrix_bool_partial",
    "Curvlinops.submatrix_bools_raise",
    "Curvlinops.submatrix_false_column"
   ],
   "note": "Holds for vectors and matrices with at least two columns if no list consists of Booleans only; one or zero columns raise, a list of Booleans raises or gives silently wrong products (negations proved)."
  },
  {
   "property": "C51",
   "status": "proved",
   "theorems": [
    "Curvlinops.setSubmatrix_raises_iff",
    "Curvlinops.mkSubmatrix_raises_iff",
    "Curvlinops.runSets_lastValid"
   ],
   "note": ""
  },
  {
   "property": "C52",
   "status": "proved",
   "theorems": [
    "Curvlinops.submatrix_adjoint",
    "Curvlinops.submatrix_nested"
   ],
   "note": ""
  },
  {
   "property": "C53",
   "status": "partial",
   "theorems": [
    "Curvlinops.outer_vec_partial",
    "Curvlinops.projector_spec",
    "Curvlinops.outer_matrix_raises",
    "Curvlinops.mkOuter_raises_iff",
    "Curvlinops.outer_stretched"
   ],
   "note": "Holds for vectors; products with a matrix raise (negation proved)."
  },
  {
   "property": "C54",
   "status": "proved",
   "theorems": [
    "Curvlinops.hutchTrace_rademacher",
    "Curvlinops.hutchTrace_normal",
    "Curvlinops.checkSquare_iff",
    "Curvlinops.sample_world"
   ],
   "note": "Expectation over all bit vectors, and integral over i.i.d. standard normals; NumPy's generator is assumed to have these laws."
  },
  {
   "property": "C55",
   "status": "proved",
   "theorems": [
    "Curvlinops.hutchDiag_rademacher",
    "Curvlinops.hutchDiag_normal",
    "Curvlinops.hutchDiag_exact",
    "Curvlinops.checkSquare_iff"
   ],
   "note": ""
  },
  {
   "property": "C56",
   "status": "proved",
   "theorems": [
    "Curvlinops.hutchNorm_rademacher",
    "Curvlinops.hutchNorm_normal"
   ],
   "note": "Also for non-square matrices."
  },
  {
   "property": "C57",
   "status": "proved",
   "theorems": [
    "Curvlinops.mkHutchPP_spec",
    "Curvlinops.hutchpp_setup",
    "Curvlinops.hutchpp_cached",
    "Curvlinops.hutchpp_once",
    "Curvlinops.hutchpp_run_ready",
    "Curvlinops.hutchpp_rademacher",
    "Curvlinops.hutchpp_normal",
    "Curvlinops.hutchpp_full"
   ],
   "note": "NumPy's QR is assumed to return orthonormal columns."
  },
  {
   "property": "C58",
   "status": "partial",
   "theorems": [
    "Curvlinops.hutchpp_crash_partial",
    "Curvlinops.hutchpp_crash_basis",
    "Curvlinops.hutchpp_crash_silent"
   ],
   "note": "False of the code when the trace loop is interrupted: the partial trace is used silently (hutchpp_crash_silent). Holds for interruptions before the QR decomposition."
  },
  {
   "property": "C59",
   "status": "proved",
   "theorems": [
    "Curvlinops.lanczosVec_orthonormal",
    "Curvlinops.lanczosVec_tridiagonal",
    "Curvlinops.fastLanczos_ok",
    "Curvlinops.fastLanczos_ok_iff",
    "Curvlinops.fastLanczos_ritz",
    "Curvlinops.fastLanczos_evals_between",
    "Curvlinops.fastLanczos_too_many",
    "Curvlinops.fastLanczos_scalar_raises",
    "Curvlinops.fastLanczos_error_iff",
    "Curvlinops.ritz_inside_boundaries"
   ],
   "note": "Exact arithmetic. A breakdown divides by zero and makes the eigensolver raise ValueError; fastLanczos_ok_iff characterizes when this happens."
  },
  {
   "property": "C60",
   "status": "partial",
   "theorems": [
    "Curvlinops.lanczosSpectrum_mean",
    "Curvlinops.lanczosLogSpectrum_mean",
    "Curvlinops.lanczosSpectrum_total",
    "Curvlinops.cachedSpectrum_mean",
    "Curvlinops.cachedApproximateSpectrum_eq",
    "Curvlinops.cachedApproximateLogSpectrum_eq_partial",
    "Curvlinops.logSpectrum_defaults_differ",
    "Curvlinops.cachedSpectrum_negative_repeats",
    "Curvlinops.lanczosSpectrum_nonpos",
    "Curvlinops.cachedSpectrum_zero",
    "Curvlinops.spectrumFromIter_one"
   ],
   "note": "Proved for equal arguments and positive num_repeats. The default kappa of the log spectrum differs between function (1.04) and cached class (3.0): logSpectrum_defaults_differ. Negative num_repeats on a filled cache give negative densities: cachedSpectrum_negative_repeats."
  },
  {
   "property": "C61",
   "status": "proved",
   "theorems": [
    "Curvlinops.cache_stable",
    "Curvlinops.cache_consistent",
    "Curvlinops.getLanczosIters_spec",
    "Curvlinops.drawIters_spec"
   ],
   "note": ""
  },
  {
   "property": "C62",
   "status": "proved",
   "theorems": [
    "Curvlinops.linspace_points",
    "Curvlinops.spectrumFromIter_density",
    "Curvlinops.spectrumFromIter_probability",
    "Curvlinops.logSpectrumFromIter_density",
    "Curvlinops.logSpectrumFromIter_probability",
    "Curvlinops.lanczosSpectrum_density",
    "Curvlinops.lanczosLogSpectrum_density",
    "Curvlinops.fastLanczos_weights",
    "Curvlinops.ritz_inside_boundaries"
   ],
   "note": "For different boundaries (equal ones divide by zero) and at least two Lanczos vectors. The log density is that of |A| + epsilon on the returned grid, not of its logarithm as the docstring says."
  },
  {
   "property": "C63",
   "status": "proved",
   "theorems": [
    "Curvlinops.approximateBoundaries_result",
    "Curvlinops.approximateBoundaries_calls",
    "Curvlinops.approximateBoundaries_none",
    "Curvlinops.approximateBoundaries_both",
    "Curvlinops.approximateBoundariesAbs_result",
    "Curvlinops.approximateBoundariesAbs_calls",
    "Curvlinops.approximateBoundaries_enclose",
    "Curvlinops.approximateBoundariesAbs_enclose",
    "Curvlinops.approximateBoundaries_ok_iff",
    "Curvlinops.approximateBoundaries_none_iff",
    "Curvlinops.approximateBoundariesAbs_ok_iff"
   ],
   "note": ""
  },
  {
   "property": "C64",
   "status": "partial",
   "theorems": [
    "Curvlinops.storeInit_ok_iff",
    "Curvlinops.storeInit_names",
    "Curvlinops.withStore_rejects",
    "Curvlinops.withStore_hooks",
    "Curvlinops.withStore_ids",
    "Curvlinops.withStore_stores",
    "Curvlinops.withStore_missing",
    "Curvlinops.fetchActivation_last",
    "Curvlinops.singleBatchCheck_spec",
    "Curvlinops.activationHessianInit_spec_partial",
    "Curvlinops.activationHessian_mapping_rejected",
    "Curvlinops.shared_module_name_rejected"
   ],
   "note": "Proved except: a single batch with dict-like input, which the signature allows, also raises ValueError (activationHessian_mapping_rejected); a second name of a shared module is rejected (shared_module_name_rejected)."
  },
  {
   "property": "C65",
   "status": "partial",
   "theorems": [
    "Curvlinops.randomVector_spec",
    "Curvlinops.rademacher_entries",
    "Curvlinops.randomVector_world",
    "Curvlinops.randomVector_nonStr"
   ],
   "note": "Proved for all strings; an argument that is not a string raises TypeError instead of the documented ValueError (randomVector_nonStr)."
  },
  {
   "property": "C66",
   "status": "proved",
   "theorems": [
    "Curvlinops.fastLanczos_quadrature",
    "Curvlinops.fastLanczos_weights"
   ],
   "note": ""
  },
  {
   "property": "C67",
   "status": "proved",
   "theorems": [
    "Curvlinops.activationHessianOp_represents",
    "Curvlinops.activationHessianColumns_represents",
    "Curvlinops.fetchActivation_last",
    "Curvlinops.activationHessianOp_same"
   ],
   "note": "Autograd is taken at its mathematical meaning (hess)."
  },
  {
   "property": "C68",
   "status": "proved",
   "theorems": [
    "Curvlinops.kfac_type2_linear",
    "Curvlinops.kfac_forward_only_linear"
   ],
   "note": "Uses the chain rule at layers with shared weights and the linearity of the network after the layers as explicit hypotheses (both are derived for feed-forward networks in C73); entries inside the blocks are compared."
  },
  {
   "property": "C69",
   "status": "proved",
   "theorems": [
    "Curvlinops.patches_groups",
    "Curvlinops.extractPatches_ok_iff"
   ],
   "note": "Integer paddings; paddings given as strings are covered by extractPatches_str."
  },
  {
   "property": "C70",
   "status": "proved",
   "theorems": [
    "Curvlinops.kfac_mc_unbiased",
    "Curvlinops.kfac_mc_single",
    "Curvlinops.kfac_mc_linear",
    "Curvlinops.labelGrad_moments"
   ],
   "note": "Law and independence of the draws are hypotheses; no independence is assumed between samples or data. Expectations of whole matrices on feed-forward networks are in C73."
  },
  {
   "property": "C71",
   "status": "proved",
   "theorems": [
    "Curvlinops.kfacInit_ok_iff",
    "Curvlinops.kfacInit_error",
    "Curvlinops.kfacInit_settings",
    "Curvlinops.setNumLossTerms_spec",
    "Curvlinops.setNumLossTerms_uniform",
    "Curvlinops.inferUnique_ok",
    "Curvlinops.inferUnique_raises",
    "Curvlinops.kfacInit_any_samples",
    "Curvlinops.kfac_no_samples"
   ],
   "note": "The deterministic check at the end is C25-C27. Undocumented: mc_samples <= 0 is accepted for fisher_type='mc', and reading the trace then raises KeyError once and returns 0 afterwards."
  },
  {
   "property": "C72",
   "status": "partial",
   "theorems": [
    "Curvlinops.functorchMatrix_eq",
    "Curvlinops.functorchJacobian_eq",
    "Curvlinops.functorchEFTensor_eq",
    "Curvlinops.functorchGradient_eq",
    "Curvlinops.hessian_eq_functorch",
    "Curvlinops.ggn_eq_functorch",
    "Curvlinops.ef_eq_functorch",
    "Curvlinops.jacobian_eq_functorch",
    "Curvlinops.makeParamsDict_unknown",
    "Curvlinops.functorchMatrix_empty",
    "Curvlinops.functorchEFTensor_scalar",
    "Curvlinops.functorchJacobian_scalar",
    "Curvlinops.functorchMatrix_repeated"
   ],
   "note": "Values of torch.func's derivatives are taken at their mathematical meaning; the layout is modelled. False for parameters without entries (functorchMatrix_empty) and, for the Jacobian and the empirical Fisher, for parameters without dimensions (functorchJacobian_scalar, functorchEFTensor_scalar); proved for all others."
  },
  {
   "property": "C73",
   "status": "proved",
   "theorems": [
    "Curvlinops.seqNet_chain",
    "Curvlinops.seqNet_type2_single",
    "Curvlinops.seqNet_empirical_single",
    "Curvlinops.seqNet_type2_linear",
    "Curvlinops.seqNet_mc_single",
    "Curvlinops.seqNet_mc_linear",
    "Curvlinops.kron_expected"
   ],
   "note": "Automatic differentiation is modelled by mathematical derivatives; the code between layers must be differentiable at the states that occur. Layers that are called several times in one forward pass (tied weights) are not covered."
  },
  {
   "property": "C74",
   "status": "proved",
   "theorems": [
    "Curvlinops.rearrangeClass_entry",
    "Curvlinops.rearrangeLast_entry",
    "Curvlinops.convert2d_loss",
    "Curvlinops.torchLoss_rows",
    "Curvlinops.convert2d_batchLoss",
    "Curvlinops.rearrangeClass_cat",
    "Curvlinops.rearrangeLast_cat",
    "Curvlinops.convert2d_error",
    "Curvlinops.convert2d_one_dim"
   ],
   "note": "Broadcasting of MSELoss, outputs without batch axis, class probabilities as labels and options of the losses are outside the model."
  },
  {
   "property": "C75",
   "status": "partial",
   "theorems": [
    "Curvlinops.hess_ceOpt",
    "Curvlinops.hess_bceOpt",
    "Curvlinops.ggnOpt_represents",
    "Curvlinops.efOpt_represents",
    "Curvlinops.ggnOpt_partial",
    "Curvlinops.efOpt_partial",
    "Curvlinops.efOpt_mean_factor",
    "Curvlinops.mcOpt_ce",
    "Curvlinops.mcOpt_bce",
    "Curvlinops.sqrtOpt_ce",
    "Curvlinops.sqrtOpt_bce",
    "Curvlinops.ggnOpt_mean_wrong",
    "Curvlinops.efOpt_mean_wrong",
    "Curvlinops.mcOpt_ignored",
    "Curvlinops.represents_unique",
    "Curvlinops.ggnOpt_weights_wrong"
   ],
   "note": "The code violates the claim (ggnOpt_mean_wrong, efOpt_mean_wrong, mcOpt_ignored). Proved: what GGN and EF multiply with for all options, correctness for reduction 'sum' and for proportional divisors, and the exact condition for MC-Fisher and type-2 KFAC."
  },
  {
   "property": "C76",
   "status": "partial",
   "theorems": [
    "Curvlinops.runProducts_repeatable",
    "Curvlinops.repeatable_construct",
    "Curvlinops.oneShot_refused",
    "Curvlinops.oneShot_jacobian_refused",
    "Curvlinops.oneShot_checked",
    "Curvlinops.pairUp_spec",
    "Curvlinops.oneShot_check_pairs",
    "Curvlinops.oneShot_unchecked",
    "Curvlinops.oneShot_unchecked_num_data",
    "Curvlinops.curvature_no_batch",
    "Curvlinops.oneShot_wrong",
    "Curvlinops.oneShot_checked_wrong",
    "Curvlinops.oneShot_second_product"
   ],
   "note": "The claim is false of the code: one-shot data are accepted without the determinism check, or with num_data, and all later products are zero (oneShot_wrong, oneShot_checked_wrong, oneShot_second_product). Proved: repeatable data are handled correctly; without num_data the check with a loss, and the Jacobians always, refuse one-shot data; in all other cases exactly which batches the products use, and which pairs of batches the check compares."
  },
  {
   "property": "C77",
   "status": "proved",
   "theorems": [
    "Curvlinops.hess_comp",
    "Curvlinops.datum_gauss_newton",
    "Curvlinops.risk_gauss_newton",
    "Curvlinops.hessianOp_gauss_newton",
    "Curvlinops.represents_same_output",
    "Curvlinops.hessianOp_eq_ggnOp",
    "Curvlinops.hessianOp_eq_ggnOp_affine",
    "Curvlinops.hessianOp_eq_ggnOp_interpolation",
    "Curvlinops.hessianOp_blocks_eq_ggn"
   ],
   "note": "All parts, for derivatives as modelled in C11/C14."
  },
  {
   "property": "C78",
   "status": "proved",
   "theorems": [
    "Curvlinops.concatenateBatches_pairs",
    "Curvlinops.concatenateBatches_partition",
    "Curvlinops.concatenateBatches_key",
    "Curvlinops.concatenateBatches_empty",
    "Curvlinops.concatenateBatches_no_key",
    "Curvlinops.concatenateBatches_missing",
    "Curvlinops.concatenateBatches_mixed"
   ],
   "note": "All parts; devices are not modelled."
  },
  {
   "property": "C79",
   "status": "proved",
   "theorems": [
    "Curvlinops.reportNonclose_iff",
    "Curvlinops.reportNonclose_printed",
    "Curvlinops.reportNonclose_self",
    "Curvlinops.reportNonclose_asymmetric",
    "Curvlinops.reportNonclose_finite",
    "Curvlinops.reportNonclose_kinds"
   ],
   "note": "All parts; floating point numbers are real numbers, infinities and NaN."
  },
  {
   "property": "C80",
   "status": "proved",
   "theorems": [
    "Curvlinops.naturalGradient_type2_single",
    "Curvlinops.naturalGradient_empirical_single",
    "Curvlinops.naturalGradient_type2_linear",
    "Curvlinops.naturalGradient_step",
    "Curvlinops.naturalGradient_step_linear",
    "Curvlinops.solve_of_inverse",
    "Curvlinops.dampedBlocks_single",
    "Curvlinops.seqNet_inverse_exact",
    "Curvlinops.seqNet_off_block"
   ],
   "note": "All parts; linear algebra routines are correct in the sense of Spec/LinAlg."
  },
  {
   "property": "C81",
   "status": "partial",
   "theorems": [
    "Curvlinops.kfac_devices_partial",
    "Curvlinops.kfac_one_device_partial",
    "Curvlinops.product_ok_iff",
    "Curvlinops.trace_device_partial",
    "Curvlinops.restore_check_ok",
    "Curvlinops.load_other_device",
    "Curvlinops.restore_unchecked",
    "Curvlinops.restore_breaks_source",
    "Curvlinops.cached_inverse_after_move",
    "Curvlinops.trace_stays_on_old_device",
    "Curvlinops.shared_model"
   ],
   "note": "Holds without load_state_dict for operators with models of their own (inverses: without cache or without moves), and with everything on one device. The code violates the rest; each violation is a theorem."
  },
  {
   "property": "C82",
   "status": "partial",
   "theorems": [
    "Curvlinops.hutchTrace_rademacher_var",
    "Curvlinops.hutchTrace_normal_var",
    "Curvlinops.hutchTrace_rademacher_le_normal",
    "Curvlinops.hutchDiag_rademacher_var",
    "Curvlinops.hutchDiag_normal_var",
    "Curvlinops.hutchNorm_rademacher_var",
    "Curvlinops.hutchNorm_normal_var",
    "Curvlinops.hutchpp_rademacher_var",
    "Curvlinops.hutchpp_normal_var",
    "Curvlinops.hutchpp_le_hutch_normal_partial",
    "Curvlinops.hutchpp_rademacher_le_partial",
    "Curvlinops.hutchpp_exact",
    "Curvlinops.hutchpp_worse_rademacher"
   ],
   "note": "All variances proved. Hutch++ has at most Hutchinson's variance for normal vectors; for Rademacher vectors the documented claim is false (hutchpp_worse_rademacher)."
  },
  {
   "property": "C83",
   "status": "proved",
   "theorems": [
    "Curvlinops.curvature_jacobian_form",
    "Curvlinops.ggn_jacobian_form",
    "Curvlinops.ef_jacobian_form",
    "Curvlinops.ggn_mse_jacobian",
    "Curvlinops.gradient_jacobian_form"
   ],
   "note": "Data are lists of loss terms with their Jacobians; predictions of shape n :: S with S.prod = T*C."
  },
  {
   "property": "C84",
   "status": "partial",
   "theorems": [
    "Curvlinops.inverse_follows_uncached_partial",
    "Curvlinops.inverse_follows_products_partial",
    "Curvlinops.invLoop_caches",
    "Curvlinops.loaded_inverse_agrees",
    "Curvlinops.inverse_stale",
    "Curvlinops.inverse_stale_witness"
   ],
   "note": "The code violates the claim: with cache=True an inverse does not follow load_state_dict of its KFAC operator (inverse_stale, inverse_stale_witness). Proved without caching for all calls, and with caching for uninterrupted calls without loading; after loading the state of another inverse of the same KFAC operator both agree."
  },
  {
   "property": "C85",
   "status": "partial",
   "theorems": [
    "Curvlinops.toScipyTyped_spec",
    "Curvlinops.scipy_exact_partial",
    "Curvlinops.scipy_integer_truncates",
    "Curvlinops.scipy_bool",
    "Curvlinops.scipy_complex_real",
    "Curvlinops.scipy_types_witness",
    "Curvlinops.scipy_float_rounds"
   ],
   "note": "the code violates the claim for integer, Boolean and complex arguments (witness proved); proved: what all four products return for every type, and exactness when the types hold the values"
  },
  {
   "property": "C86",
   "status": "partial",
   "theorems": [
    "Curvlinops.kfac_updates",
    "Curvlinops.kfac_present_partial",
    "Curvlinops.kfac_updates_stale",
    "Curvlinops.kfac_updates_witness",
    "Curvlinops.hutchpp_changed",
    "Curvlinops.hutchpp_changed_rademacher",
    "Curvlinops.hutchpp_changed_normal",
    "Curvlinops.hutchpp_changed_witness",
    "Curvlinops.cachedSpectrum_changed"
   ],
   "note": "the code violates the claim (witnesses proved); proved: what all sequences of changes and calls return, and that changes before the first use are seen"
  },
  {
   "property": "C87",
   "status": "proved",
   "theorems": [
    "Curvlinops.hessianOp_selection",
    "Curvlinops.ggnOp_selection",
    "Curvlinops.lossOps_selection",
    "Curvlinops.mcOp_selection",
    "Curvlinops.jacobianOp_selection",
    "Curvlinops.transposedJacobianOp_selection",
    "Curvlinops.gradient_selection",
    "Curvlinops.kfac_selection",
    "Curvlinops.kfac_entry",
    "Curvlinops.computeMapping_select",
    "Curvlinops.pMapping_select",
    "Curvlinops.pnet_select",
    "Curvlinops.kfac_selection_num_data"
   ],
   "note": "kfac_selection_num_data is the last sentence of the claim: with num_data different from the number of data points KFAC on the bias alone is not the restriction. The Monte-Carlo Fisher is covered for generators whose draws depend on the predictions only."
  },
  {
   "property": "C88",
   "status": "proved",
   "theorems": [
    "Curvlinops.num_data_sum",
    "Curvlinops.num_data_zero",
    "Curvlinops.num_data_mean",
    "Curvlinops.gradient_num_data",
    "Curvlinops.union_sum",
    "Curvlinops.union_mean",
    "Curvlinops.ggn_num_data",
    "Curvlinops.ef_num_data",
    "Curvlinops.mc_num_data",
    "Curvlinops.hessian_num_data",
    "Curvlinops.ggn_reduction",
    "Curvlinops.ef_reduction",
    "Curvlinops.mc_reduction",
    "Curvlinops.hessian_reduction",
    "Curvlinops.lossHessianSqrt_reduction",
    "Curvlinops.kfac_num_data",
    "Curvlinops.kfac_reduction",
    "Curvlinops.kfac_reduction_forwardOnly",
    "Curvlinops.kfac_reduction_type2",
    "Curvlinops.kfac_repeated"
   ],
   "note": "all operators; MC Fisher with equal seed; type-2 KFAC with the square roots that the code computes for each reduction"
  },
  {
   "property": "C89",
   "status": "partial",
   "theorems": [
    "Curvlinops.construct_ok_iff",
    "Curvlinops.construct_checked_ok_iff",
    "Curvlinops.construct_checked_agrees",
    "Curvlinops.construct_deterministic",
    "Curvlinops.construct_spec",
    "Curvlinops.construct_restores",
    "Curvlinops.construct_unsupported_loss",
    "Curvlinops.construct_no_batch",
    "Curvlinops.construct_value_error",
    "Curvlinops.construct_device_error",
    "Curvlinops.construct_size_error",
    "Curvlinops.product_normalization_error",
    "Curvlinops.construct_normalization_error",
    "Curvlinops.constructed_products",
    "Curvlinops.construct_dtype_error",
    "Curvlinops.construct_non_tensor_partial",
    "Curvlinops.construct_non_tensor_violation",
    "Curvlinops.construct_block_sizes_class"
   ],
   "note": "All parts are proved except one that the code violates: inputs that are neither tensors nor dict-like, without batch_size_fn, do not raise the documented ValueError (construct_non_tensor_violation)."
  },
  {
   "property": "C90",
   "status": "proved",
   "theorems": [
    "Curvlinops.mcMatrix_variance",
    "Curvlinops.mcMatrix_mean",
    "Curvlinops.mcMatrix_chebyshev",
    "Curvlinops.mcMatrix_variance_samples",
    "Curvlinops.mcMatrix_consistent",
    "Curvlinops.mcMatmat_variance",
    "Curvlinops.labelVar_mse",
    "Curvlinops.labelVar_ce",
    "Curvlinops.labelVar_bce",
    "Curvlinops.mcMatrix_variance_copies",
    "Curvlinops.random_generator_exists",
    "Curvlinops.kfac_mc_average",
    "Curvlinops.kfac_mc_variance",
    "Curvlinops.samplesIid_exists"
   ],
   "note": "random_generator_exists and samplesIid_exists show that the hypotheses on the draws can be met."
  },
  {
   "property": "C91",
   "status": "proved",
   "theorems": [
    "Curvlinops.request_eq_call",
    "Curvlinops.request_runs",
    "Curvlinops.object_stable",
    "Curvlinops.runs_unshared",
    "Curvlinops.object_created",
    "Curvlinops.program_request",
    "Curvlinops.solver_calls"
   ],
   "note": "exceptions included; the program is assumed to catch them"
  },
  {
   "property": "C92",
   "status": "proved",
   "theorems": [
    "Curvlinops.input_covariances_depend",
    "Curvlinops.forward_only_depends",
    "Curvlinops.expand_eq_reduce",
    "Curvlinops.separate_irrelevant",
    "Curvlinops.separate_block_diagonal",
    "Curvlinops.separate_trace",
    "Curvlinops.pKfac_expand_eq_reduce",
    "Curvlinops.expand_ne_reduce"
   ],
   "note": "the block-diagonal relation is for the matrices that the operators represent (PNet: layers and positions from the parameter mapping)"
  },
  {
   "property": "C93",
   "status": "proved",
   "theorems": [
    "Curvlinops.hooks_succeed_iff",
    "Curvlinops.hooks_call_exception",
    "Curvlinops.hooks_unused_exception",
    "Curvlinops.hooks_call_leaves",
    "Curvlinops.hooks_unused_leaves",
    "Curvlinops.graph_released",
    "Curvlinops.hooks_input_factor",
    "Curvlinops.hooks_grad_factor",
    "Curvlinops.hooks_forward_only",
    "Curvlinops.hooks_missing",
    "Curvlinops.hooks_uniform_input",
    "Curvlinops.hooks_uniform_grad",
    "Curvlinops.hooks_once",
    "Curvlinops.hooks_positions",
    "Curvlinops.hooks_bias_entry",
    "Curvlinops.evaluated_twice"
   ],
   "note": "hooks_once is the connection to the model of C30; evaluated_twice is the witness for the last sentence but one"
  },
  {
   "property": "C94",
   "status": "proved",
   "theorems": [
    "Curvlinops.hutchTrace_average_rademacher",
    "Curvlinops.hutchTrace_average_normal",
    "Curvlinops.hutchDiag_average_rademacher",
    "Curvlinops.hutchDiag_average_normal",
    "Curvlinops.hutchNorm_average_rademacher",
    "Curvlinops.hutchNorm_average_normal",
    "Curvlinops.hutchpp_average_rademacher",
    "Curvlinops.hutchpp_average_normal",
    "Curvlinops.GoodAverages.enough",
    "Curvlinops.fairDraws_exists",
    "Curvlinops.normalDraws_exists",
    "Curvlinops.hutchpp_draws_exist"
   ],
   "note": "Mean, mean squared error, Chebyshev bound and almost sure convergence for all four estimators and both distributions; Hutch++ including the call that draws the basis. Independent draws are a hypothesis about the generator; generators that satisfy it are constructed."
  },
  {
   "property": "C95",
   "status": "proved",
   "theorems": [
    "Curvlinops.fastLanczos_almost_surely",
    "Curvlinops.fastLanczos_quadrature_poly",
    "Curvlinops.fastLanczos_quadrature_close",
    "Curvlinops.fastLanczos_quadrature_exact",
    "Curvlinops.lanczos_moments",
    "Curvlinops.lanczosSpectrum_consistent",
    "Curvlinops.lanczosLogSpectrum_consistent",
    "Curvlinops.lanczosSpectrum_error",
    "Curvlinops.lanczosLogSpectrum_error",
    "Curvlinops.normalStarts_exists"
   ],
   "note": "Independent normal start vectors are a hypothesis about the generator; one that satisfies it is constructed. Eigensolvers enter through their contracts."
  },
  {
   "property": "C96",
   "status": "proved",
   "theorems": [
    "Curvlinops.export_represents",
    "Curvlinops.export_symmetric",
    "Curvlinops.export_estimators",
    "Curvlinops.ef_trace_estimator",
    "Curvlinops.kfac_estimators",
    "Curvlinops.hessian_export",
    "Curvlinops.hessian_estimators",
    "Curvlinops.hessian_submatrix",
    "Curvlinops.hessian_neumann",
    "Curvlinops.hessian_lanczos",
    "Curvlinops.export_raises"
   ],
   "note": "End-to-end composition. Products of a sub-matrix operator with matrices that have a single column are not claimed, because the code raises for them (C50)."
  },
  {
   "property": "C97",
   "status": "proved",
   "theorems": [
    "Curvlinops.neumann_rate",
    "Curvlinops.neumann_rate_sharp",
    "Curvlinops.neumann_converges_iff",
    "Curvlinops.neumann_doc_scale",
    "Curvlinops.neumann_condition_rate"
   ],
   "note": "Exact arithmetic, symmetric matrices, Euclidean norm (squared in the statements). The largest eigenvalue of the example is assumed to be computed exactly."
  },
  {
   "property": "C98",
   "status": "proved",
   "theorems": [
    "Curvlinops.kfacInverse_exact_bounded",
    "Curvlinops.kfacInverse_damped_bounded",
    "Curvlinops.kfacInverse_value_bounded",
    "Curvlinops.kfacInverse_value_sharp",
    "Curvlinops.kfacInverse_heuristic_bounded"
   ],
   "note": "Exact arithmetic; Cholesky and eigendecompositions that meet their contract; operators with new state (C42, C44 and C84 treat the later ones)."
  },
  {
   "property": "C99",
   "status": "proved",
   "theorems": [
    "Curvlinops.ggn_kernel",
    "Curvlinops.ef_kernel",
    "Curvlinops.mc_kernel",
    "Curvlinops.ggn_rank_le",
    "Curvlinops.ef_rank_le",
    "Curvlinops.mc_rank_le",
    "Curvlinops.gradient_in_ggn_range",
    "Curvlinops.gradient_in_ef_range",
    "Curvlinops.natural_gradient_solvable",
    "Curvlinops.gradient_not_in_mc_range"
   ],
   "note": "All four parts, for all three losses, exact arithmetic. natural_gradient_solvable is about the results of gradient_and_loss and of the products; gradient_not_in_mc_range is a statement about one datum with three classes and a generator that draws class 1, for every state of the operator and all vectors."
  }
 ]
}