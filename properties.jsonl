{"id": "C01", "title": "split_list partitions the list", "statement": "split_list(x, sizes) raises ValueError exactly when len(x) != sum(sizes); otherwise, for non-negative sizes, it returns len(sizes) lists whose lengths are the requested sizes and whose concatenation in order is x.", "quantifier": "every list x and every list of integers sizes", "why_tests_cant": "list lengths and size vectors are unbounded; tests check a few literals", "anchors": ["curvlinops/utils.py: split_list"]}
{"id": "C02", "title": "@ accepts exactly the documented inputs", "statement": "For a PyTorch linear operator of shape [M, N], `A @ X` hands X to the operator exactly when X is a tensor of shape [N] or [N, K], or a list with one tensor per input space whose shapes are all the input shapes, or all the input shapes with one common trailing dimension K. Any other tensor of dimension at least one, any other list, and any other object raises ValueError.", "quantifier": "every list of input shapes, every tensor, tensor list or other object, every K", "why_tests_cant": "shapes, list lengths and K are unbounded", "anchors": ["curvlinops/_torch_base.py: PyTorchLinearOperator.__matmul__, _check_input_and_preprocess, __check_tensor_and_preprocess, __check_tensor_list_and_preprocess"]}
{"id": "C03", "title": "The four input formats of @ give the same numbers", "statement": "If the operator represents the dense M x N matrix A then, for the tensor [N], tensor [N, K], list-vector and list-matrix formats, `A @ X` returns the same format as X, has the output shapes, and its flattened entries are the dense product of A with the flattened X. Without output spaces, the flat formats raise RuntimeError (nothing to concatenate) and the list formats return an empty list.", "quantifier": "every list of input/output shapes, every dense matrix, every K, every X in any of the four formats", "why_tests_cant": "infinitely many shapes and values; the row-major layout argument must hold for all of them", "anchors": ["curvlinops/_torch_base.py: PyTorchLinearOperator.__matmul__, _check_output_and_postprocess"]}
{"id": "C04", "title": "A matrix product is the products with its columns", "statement": "Column k of `A @ X` for X with K columns equals `A @ X[:, k]`, and multiplying the one-column matrix gives the same numbers as multiplying the vector; in particular `A @ I` has the products with unit vectors as columns.", "quantifier": "every operator representing a dense matrix, every K, every column index, every X", "why_tests_cant": "K and the dimension are unbounded", "anchors": ["curvlinops/_torch_base.py: PyTorchLinearOperator.__matmul__", "curvlinops/hessian.py: HessianLinearOperator._matmat_batch", "curvlinops/ggn.py: GGNLinearOperator._matmat_batch"]}
{"id": "C05", "title": "Malformed products are never returned", "statement": "Whatever an operator's _matmat returns, `A @ X` either raises or returns tensors of exactly the output shapes (with the trailing K for matrices); a wrong number of output tensors or a wrong output shape raises ValueError.", "quantifier": "every possible behaviour of the subclass hook, every input", "why_tests_cant": "quantifies over all subclass implementations", "anchors": ["curvlinops/_torch_base.py: _check_output_and_postprocess"]}
{"id": "C06", "title": "@ leaves its argument unchanged", "statement": "After `A @ X` the object X passed by the caller holds the same tensors as before.", "quantifier": "every operator of the library and every input format", "why_tests_cant": "aliasing of the caller's list depends on format and operator; tests compare return values only", "anchors": ["curvlinops/_torch_base.py: __check_tensor_list_and_preprocess", "curvlinops/inverse.py: KFACInverseLinearOperator._matmat", "curvlinops/kfac.py: KFACLinearOperator._matmat"]}
{"id": "C07", "title": "Constructor rejects invalid block sizes and dict data", "statement": "Constructing a curvature operator raises ValueError when the first input is dict-like and no batch_size_fn is given, when block_sizes is given to an operator without block support, when block sizes do not sum to the number of parameters, or when one of them is not positive; otherwise it stores the given block sizes, or one block with all parameters.", "quantifier": "every list of integers as block_sizes, every number of parameters", "why_tests_cant": "unbounded integer lists including negative entries whose sum is right", "anchors": ["curvlinops/_torch_base.py: CurvatureLinearOperator.__init__"]}
{"id": "C08", "title": "The represented matrix does not depend on the mini-batching", "statement": "For reduction 'sum' and 'mean', with the number of data inferred or given correctly, the matrix a curvature operator multiplies with is c times the sum of the per-datum matrices (c = 1 or 1/N), for every way to split the data into non-empty mini-batches.", "quantifier": "every data set, every partition into non-empty batches of any sizes, both reductions, every X", "why_tests_cant": "exponentially many partitions; floating tests use two or three", "anchors": ["curvlinops/_torch_base.py: CurvatureLinearOperator._matmat, _get_normalization_factor, __init__ (_N_data)"]}
{"id": "C09", "title": "The order of mini-batches does not matter", "statement": "For operators without FIXED_DATA_ORDER (Hessian, GGN, empirical Fisher), presenting the same mini-batches in another order gives the same products.", "quantifier": "every permutation of every list of batches", "why_tests_cant": "factorially many orders", "anchors": ["curvlinops/_torch_base.py: CurvatureLinearOperator._matmat, _loop_over_data"]}
{"id": "C10", "title": "Products are linear in the multiplied matrix", "statement": "For every curvature operator, A @ (a X + b Y) = a (A @ X) + b (A @ Y).", "quantifier": "every operator, data set, X, Y, scalars a, b", "why_tests_cant": "real-valued universally quantified law", "anchors": ["curvlinops/_torch_base.py: CurvatureLinearOperator._matmat"]}
{"id": "C11", "title": "HessianLinearOperator multiplies with the Hessian of the empirical risk", "statement": "With one block, the Hessian operator multiplies with the matrix of second partial derivatives of the empirical risk, and this matrix is symmetric whenever the risk is twice continuously differentiable (so declaring it self-adjoint is right).", "quantifier": "every twice continuously differentiable model and loss, every parameter value, data set, batching, X", "why_tests_cant": "quantifies over functions", "anchors": ["curvlinops/hessian.py: HessianLinearOperator._matmat_batch, SELF_ADJOINT"]}
{"id": "C12", "title": "block_sizes gives exactly the block-diagonal of the Hessian", "statement": "With block_sizes the Hessian operator multiplies with the matrix that agrees with the full Hessian at pairs of coordinates of parameters in the same block and is zero elsewhere; block_sizes=[len(params)] is the full Hessian.", "quantifier": "every list of parameter shapes, every valid list of block sizes, every Hessian, every X", "why_tests_cant": "unbounded number of parameters and block layouts", "anchors": ["curvlinops/hessian.py: HessianLinearOperator._matmat_batch", "curvlinops/utils.py: split_list"]}
{"id": "C13", "title": "GGNLinearOperator multiplies with J^T (loss Hessian) J", "statement": "The GGN operator multiplies with c * sum over data of J_n^T H_n J_n with J_n the Jacobian of the model output and H_n the loss Hessian; the matrix is symmetric, and positive semi-definite for MSELoss, CrossEntropyLoss and BCEWithLogitsLoss.", "quantifier": "every differentiable model, all three losses, every batching, every X", "why_tests_cant": "quantifies over models, data and vectors", "anchors": ["curvlinops/ggn.py: GGNLinearOperator._matmat_batch"]}
{"id": "C14", "title": "GGNLinearOperator agrees with the Hessian of the linearized model", "statement": "The GGN operator's matrix equals the reference functorch_ggn: the Hessian of the loss of the model linearized around the current parameters.", "quantifier": "every differentiable model, every twice differentiable loss, every parameter value", "why_tests_cant": "quantifies over functions", "anchors": ["curvlinops/ggn.py: GGNLinearOperator._matmat_batch", "curvlinops/examples/functorch.py: functorch_ggn"]}
{"id": "C15", "title": "EFLinearOperator multiplies with the uncentered gradient covariance", "statement": "The empirical Fisher operator multiplies with the scaled sum of outer products of the parameter gradients of the unreduced per-term losses; scale 1 for 'sum', one over the number of terms for CrossEntropyLoss 'mean', and one over the number of terms times the output dimension for MSELoss/BCEWithLogitsLoss 'mean'. The matrix is symmetric positive semi-definite.", "quantifier": "every differentiable model, the three losses, both reductions, every batch, every X", "why_tests_cant": "quantifies over models, labels and vectors", "anchors": ["curvlinops/gradient_moments.py: EFLinearOperator._matmat_batch"]}
{"id": "C16", "title": "EFLinearOperator agrees with the reference empirical Fisher", "statement": "EFLinearOperator on any batching of the data equals functorch_empirical_fisher on the concatenated data.", "quantifier": "every data set and batching with equal number of loss terms per datum, three losses, two reductions", "why_tests_cant": "two implementations have to agree on all inputs", "anchors": ["curvlinops/gradient_moments.py: EFLinearOperator", "curvlinops/examples/functorch.py: functorch_empirical_fisher"]}
{"id": "C17", "title": "Products with the Monte-Carlo Fisher are reproducible", "statement": "For a given operator (seed, data in fixed order), every product with the same X returns the same result, whatever products, label draws or device moves happened before.", "quantifier": "every history of calls on the operator, every random generator", "why_tests_cant": "unbounded histories", "anchors": ["curvlinops/fisher.py: FisherMCLinearOperator._matmat, sample_grad_output"]}
{"id": "C18", "title": "The Monte-Carlo Fisher is an unbiased estimate of the GGN's loss Hessian", "statement": "The would-be gradients drawn for MSELoss, CrossEntropyLoss and BCEWithLogitsLoss have outer products whose expectation under the model's predictive distribution is the Hessian of the unreduced loss with respect to the model output.", "quantifier": "every model output, number of classes, and number of Monte-Carlo samples", "why_tests_cant": "expectation over a probability distribution, for all outputs", "anchors": ["curvlinops/fisher.py: FisherMCLinearOperator.sample_grad_output, _matmat_batch"]}
{"id": "C19", "title": "Each Monte-Carlo Fisher sample is one fixed symmetric PSD matrix", "statement": "All columns of a product use the same drawn labels: the operator multiplies with one fixed matrix, 1/(reduction * M) sum_n,m J_n^T g_nm g_nm^T J_n, which is symmetric positive semi-definite. Without samples (mc_samples=0) products raise: RuntimeError for CrossEntropyLoss, ZeroDivisionError for MSELoss and BCEWithLogitsLoss.", "quantifier": "every draw of the labels, every batch, number of samples, K and X", "why_tests_cant": "quantifies over draws and matrices", "anchors": ["curvlinops/fisher.py: FisherMCLinearOperator._matmat_batch"]}
{"id": "C20", "title": "JacobianLinearOperator stacks per-datum Jacobians in data order", "statement": "J @ V has the row of datum n, output c at flattened position n*C + c in data order, equal to the directional derivative of that output; this holds for every batching.", "quantifier": "every model, data set, batching, K >= 1, V (with zero columns the product raises RuntimeError)", "why_tests_cant": "unbounded sizes and batchings", "anchors": ["curvlinops/jacobian.py: JacobianLinearOperator._matmat, _get_out_shape"]}
{"id": "C21", "title": "TransposedJacobianLinearOperator is the adjoint of JacobianLinearOperator", "statement": "<J v, u> = <v, J^T u> for all u, v: the transposed product consumes each row slice of u exactly once and in data order, for every batching.", "quantifier": "every model, data set, batching, u, v", "why_tests_cant": "unbounded", "anchors": ["curvlinops/jacobian.py: TransposedJacobianLinearOperator._matmat"]}
{"id": "C22", "title": "adjoint() is right", "statement": "adjoint() of an operator declared self-adjoint returns the operator itself, adjoint() of the Jacobian is the transposed Jacobian on the same model, parameters and data (and vice versa), adjoint twice multiplies with the same matrix, and the adjoint's matrix is the transpose.", "quantifier": "every operator of the library", "why_tests_cant": "law over all operators and inputs", "anchors": ["curvlinops/_torch_base.py: PyTorchLinearOperator.adjoint", "curvlinops/jacobian.py: _adjoint"]}
{"id": "C23", "title": "to_scipy exports the same matrix", "statement": "The SciPy export has the same shape; its matvec/matmat multiply with A, its rmatvec/rmatmat with the transpose, results carry the dtype of the NumPy argument, and the operator's dtype is the requested one or NumPy's default.", "quantifier": "every operator with an adjoint, every NumPy argument", "why_tests_cant": "unbounded", "anchors": ["curvlinops/_torch_base.py: to_scipy, _scipy_compatible"]}
{"id": "C24", "title": "gradient_and_loss returns the gradient and loss of the empirical risk", "statement": "gradient_and_loss() equals the empirical risk and its gradient over the whole data set for every mini-batching, and raises ValueError if there is no loss function.", "quantifier": "every data set, batching, reduction", "why_tests_cant": "all partitions", "anchors": ["curvlinops/_torch_base.py: gradient_and_loss, data_prediction_loss_gradient"]}
{"id": "C25", "title": "The determinism check accepts deterministic operators", "statement": "If both traversals yield the same batches, predictions, losses and gradients and the two products agree, the constructor's determinism check does not raise; conversely if it does not raise, the accumulated gradients of the two traversals agree within tolerance, the two products agree within tolerance and, for operators with FIXED_DATA_ORDER, every compared batch quantity agrees within tolerance.", "quantifier": "every pair of traversals of any length", "why_tests_cant": "unbounded traversals", "anchors": ["curvlinops/_torch_base.py: _check_deterministic, __check_deterministic_batch, __check_deterministic_matvec"]}
{"id": "C26", "title": "The determinism check compares total losses", "statement": "As documented, the check raises if two computations of the total loss differ, and does not raise merely because batches come in another order with the same totals; a second traversal with a different number of batches is detected.", "quantifier": "every pair of traversals", "why_tests_cant": "needs all traversals; tests use one shuffled example", "anchors": ["curvlinops/_torch_base.py: _check_deterministic (line 753)"]}
{"id": "C27", "title": "The device is restored after the determinism check", "statement": "After construction, whether or not the determinism check raised, the operator's device is the device it had before the check, and parameters that belong to the model are the same objects on the same device.", "quantifier": "every starting device, every outcome of the check", "why_tests_cant": "crash points inside the check", "anchors": ["curvlinops/_torch_base.py: CurvatureLinearOperator.__init__, to_device"]}
{"id": "C28", "title": "KFAC maps every parameter to its layer or refuses", "statement": "KFAC construction raises NotImplementedError exactly when the passed parameters contain a duplicate or a parameter not owned by a supported layer; otherwise every recorded position points to a parameter of the named layer, every parameter position is recorded, and no other.", "quantifier": "every module tree, every list of parameters", "why_tests_cant": "unbounded models", "anchors": ["curvlinops/kfac.py: KFACLinearOperator.compute_parameter_mapping"]}
{"id": "C29", "title": "KFACLinearOperator multiplies with the block-diagonal Kronecker matrix", "statement": "With factors A, B per layer, the product on the layer's weight is the product with the Kronecker matrix (W -> B W A), on a separately treated bias with B, and on jointly treated weight and bias with the Kronecker matrix on the joint [W b] matrix; layers do not mix.", "quantifier": "every set of layers, shapes (including convolution weights), factors, both treatments, K, X", "why_tests_cant": "unbounded shapes", "anchors": ["curvlinops/kfac.py: KFACLinearOperator._matmat"]}
{"id": "C30", "title": "KFAC's factors do not depend on the mini-batching", "statement": "For both reductions, both KFAC types and the type-2, Monte-Carlo and empirical Fisher, the Kronecker factors are the stated normalized sums over data: input factor 1/(N S) sum of x x^T and gradient factor scale * sum of g g^T of unreduced gradients, independent of the partition into batches.", "quantifier": "every data set, partition, reduction", "why_tests_cant": "all partitions", "anchors": ["curvlinops/kfac.py: _hook_accumulate_input_covariance, _accumulate_gradient_covariance, _compute_loss_and_backward, _maybe_adjust_loss_scale"]}
{"id": "C31", "title": "KFAC trace, det, logdet and frobenius_norm are those of the represented matrix", "statement": "The trace, det, logdet and frobenius_norm properties equal the trace, determinant, log-determinant and Frobenius norm of the dense block-diagonal Kronecker matrix that products use.", "quantifier": "every set of layers, factors and both weight/bias treatments", "why_tests_cant": "unbounded sizes", "anchors": ["curvlinops/kfac.py: trace, det, logdet, frobenius_norm"]}
{"id": "C32", "title": "KFAC factors are computed once and results do not depend on call history", "statement": "In any sequence of products and property reads on one operator (without exceptions or state loading), the data is traversed at most once, each call returns the same value as on a fresh operator, and no hooks remain installed on the model.", "quantifier": "every sequence of API calls", "why_tests_cant": "unbounded histories", "anchors": ["curvlinops/kfac.py: _compute_kfac, _matmat, trace, det, logdet, frobenius_norm"]}
{"id": "C33", "title": "An interrupted KFAC computation is not silently used", "statement": "If the computation of the Kronecker factors is interrupted by an exception at any point, a later product or property read either recomputes the factors over all data or raises; no hooks remain on the model.", "quantifier": "every crash point", "why_tests_cant": "crash points are unbounded in number of batches", "anchors": ["curvlinops/kfac.py: _compute_kfac (no try/finally), _matmat, trace"]}
{"id": "C34", "title": "KFAC is symmetric positive semi-definite", "statement": "The matrix represented by KFAC is symmetric and positive semi-definite for every Fisher type.", "quantifier": "every data set, model, Fisher type", "why_tests_cant": "quantifies over all gradients and inputs", "anchors": ["curvlinops/kfac.py: SELF_ADJOINT, _accumulate_gradient_covariance, _hook_accumulate_input_covariance"]}
{"id": "C35", "title": "KFAC is exact on a single datum without weight sharing", "statement": "For one datum and a layer without weight sharing, type-2 KFAC's weight block equals the GGN's block and empirical KFAC's block equals the empirical Fisher's.", "quantifier": "every layer, model, datum", "why_tests_cant": "quantifies over models", "anchors": ["curvlinops/kfac.py: KFACLinearOperator"]}
{"id": "C36", "title": "loss_hessian_matrix_sqrt is a square root of the loss Hessian", "statement": "The returned S satisfies S S^T = Hessian of the loss w.r.t. the output for MSELoss, CrossEntropyLoss and BCEWithLogitsLoss in both reductions; non-2d outputs, batch size different from one, non-binary BCE targets and other losses raise the documented errors.", "quantifier": "every output vector, target, number of classes", "why_tests_cant": "real vectors of unbounded dimension", "anchors": ["curvlinops/kfac_utils.py: loss_hessian_matrix_sqrt"]}
{"id": "C37", "title": "extract_averaged_patches is the average of extract_patches", "statement": "extract_averaged_patches(x, ...) equals the mean over output locations of extract_patches(x, ...) with the same kernel size, stride, padding, dilation and groups.", "quantifier": "every image, kernel size, stride, padding, dilation, groups", "why_tests_cant": "unbounded hyper-parameter space", "anchors": ["curvlinops/kfac_utils.py: extract_patches, extract_averaged_patches"]}
{"id": "C38", "title": "Convolution is the linear layer KFAC treats it as", "statement": "For groups=1, the convolution output at location o is the product of the flattened kernel with row o of extract_patches, with the flattening order used for the weight in KFAC products.", "quantifier": "every image, kernel and hyper-parameters", "why_tests_cant": "unbounded", "anchors": ["curvlinops/kfac_utils.py: extract_patches", "curvlinops/kfac.py: _matmat (rearrange of the weight)"]}
{"id": "C39", "title": "KFAC state_dict round-trips", "statement": "Loading state_dict() into an operator with the same loss restores factors, cached properties and settings, so all products and properties agree; a state dict with another loss type or reduction, or covariance keys that do not match the layers, raises ValueError and changes nothing.", "quantifier": "every reachable operator state", "why_tests_cant": "all states, including bias-only layers and un-computed factors", "anchors": ["curvlinops/kfac.py: state_dict, load_state_dict, from_state_dict"]}
{"id": "C40", "title": "A KFAC state_dict is a snapshot", "statement": "Later calls on the operator do not change a previously returned state_dict, and an operator restored from a state_dict is not affected by calls on the original operator.", "quantifier": "every history after taking the state dict", "why_tests_cant": "aliasing histories", "anchors": ["curvlinops/kfac.py: state_dict, load_state_dict"]}
{"id": "C41", "title": "KFACInverseLinearOperator inverts the damped Kronecker factors", "statement": "Without exact damping, multiplying with the KFAC inverse and with the KFAC matrix built from the damped factors (A + a I, B + b I) cancels, for jointly and separately treated weights and biases.", "quantifier": "every set of layers with positive definite damped factors, every X", "why_tests_cant": "unbounded sizes", "anchors": ["curvlinops/inverse.py: KFACInverseLinearOperator._matmat, _compute_inverse_factors, _damped_cholesky"]}
{"id": "C42", "title": "Exact damping inverts KFAC plus damping times identity", "statement": "With use_exact_damping the operator multiplies with the inverse of (KFAC + damping * I), for weights, biases and joint treatment, and repeating the product gives the same result.", "quantifier": "every set of symmetric factors and damping with non-vanishing damped eigenvalues, every X, any number of repetitions", "why_tests_cant": "unbounded", "anchors": ["curvlinops/inverse.py: _left_and_right_multiply, _separate_left_and_right_multiply"]}
{"id": "C43", "title": "Heuristic damping splits the damping as documented", "statement": "With use_heuristic_damping both damping values are finite and at least min_damping, equal the documented formula, and their product is the damping when min_damping is not active; without heuristics the given value or tuple is used.", "quantifier": "every pair of factors, damping and min_damping", "why_tests_cant": "real-valued, includes zero factors", "anchors": ["curvlinops/inverse.py: _compute_damping"]}
{"id": "C44", "title": "Caching in the KFAC inverse is transparent", "statement": "For unchanged KFAC factors, every product gives the same result with cache=True and cache=False, for every sequence of products.", "quantifier": "every sequence of products", "why_tests_cant": "unbounded histories", "anchors": ["curvlinops/inverse.py: _compute_or_get_cached_inverse"]}
{"id": "C45", "title": "KFAC inverse construction and state_dict", "statement": "Construction raises ValueError for a non-KFAC operator, for both damping options at once, and for tuple damping with either option; load_state_dict(state_dict()) restores all settings and cached inverses.", "quantifier": "every combination of arguments, every state", "why_tests_cant": "all states", "anchors": ["curvlinops/inverse.py: __init__, state_dict, load_state_dict, from_state_dict"]}
{"id": "C46", "title": "Cholesky failures are retried in double precision or reported", "statement": "A failing Cholesky decomposition is retried in double precision exactly when retrying is enabled and the factor is not already double; if it fails again, or no retry is allowed, the error is raised and nothing is cached.", "quantifier": "every outcome of the decompositions, every dtype and setting", "why_tests_cant": "combinations of failures", "anchors": ["curvlinops/inverse.py: _compute_inverse_factors"]}
{"id": "C47", "title": "NeumannInverseLinearOperator computes the truncated Neumann series", "statement": "The product is scale * sum_{k=0}^{num_terms} (I - scale A)^k x; A times it equals x - (I - scale A)^(num_terms+1) x; it converges to A^{-1} x as num_terms grows if all eigenvalues of the symmetric A lie strictly between 0 and 2/scale.", "quantifier": "every matrix, vector, scale, number of terms", "why_tests_cant": "unbounded number of terms, limit statement", "anchors": ["curvlinops/inverse.py: NeumannInverseLinearOperator._matvec"]}
{"id": "C48", "title": "The Neumann NaN check is exact", "statement": "With check_nan the product raises ValueError exactly when one of the partial sums after the first, second, ... added term contains NaN (so with num_terms = 0 nothing is checked), and otherwise (or without check_nan) returns the same value as the unchecked computation.", "quantifier": "every number of terms and every arithmetic with NaN", "why_tests_cant": "all iterations", "anchors": ["curvlinops/inverse.py: NeumannInverseLinearOperator._matvec"]}
{"id": "C49", "title": "CG and LSMR inverses forward to SciPy with the stored settings", "statement": "A product solves with the stored operator and the hyper-parameters of the most recent setter call (defaults for omitted ones), and a matrix product is the column-wise vector product; the default LSMR settings do not terminate the solver before it made progress.", "quantifier": "every sequence of setter calls, every solver, every X", "why_tests_cant": "histories; behaviours of the solver", "anchors": ["curvlinops/inverse.py: CGInverseLinearOperator, LSMRInverseLinearOperator, _InverseLinearOperator._matmat"]}
{"id": "C50", "title": "SubmatrixLinearOperator is the dense sub-matrix", "statement": "Multiplying with the sub-matrix operator equals multiplying with A[row_idxs, :][:, col_idxs], for vectors and matrices.", "quantifier": "every matrix and every pair of index lists that is accepted, in any order", "why_tests_cant": "unbounded", "anchors": ["curvlinops/submatrix.py: _matvec, _matmat"]}
{"id": "C51", "title": "Sub-matrix indices are validated and failed updates change nothing", "statement": "Creating or redefining a sub-matrix raises ValueError exactly when an index list contains a non-integer, a duplicate or an out-of-bounds index; after a failed redefinition the operator still represents the previous sub-matrix with the previous shape.", "quantifier": "every sequence of redefinitions; Booleans count as the integers 0 and 1", "why_tests_cant": "histories with failures", "anchors": ["curvlinops/submatrix.py: set_submatrix"]}
{"id": "C52", "title": "Adjoint and nesting of sub-matrices", "statement": "The adjoint of a sub-matrix operator is the transpose of the dense sub-matrix, adjoint twice gives the original, and a sub-matrix of a sub-matrix is the sub-matrix with composed indices.", "quantifier": "every matrix and all lists of distinct in-bounds integers", "why_tests_cant": "unbounded", "anchors": ["curvlinops/submatrix.py: _adjoint"]}
{"id": "C53", "title": "OuterProductLinearOperator and Projector", "statement": "OuterProductLinearOperator(c, A) multiplies with sum_i c_i a_i a_i^T, which is symmetric; Projector(A) with orthonormal columns is idempotent, symmetric, fixes the columns and annihilates their orthogonal complement. The constructor raises ValueError exactly if the numbers of coefficients and vectors differ and none of them is one; a single coefficient is used for all vectors, a single vector with all coefficients.", "quantifier": "every coefficient vector and matrix", "why_tests_cant": "unbounded", "anchors": ["curvlinops/outer.py: OuterProductLinearOperator, Projector"]}
{"id": "C54", "title": "HutchinsonTraceEstimator is unbiased", "statement": "The expectation of sample() is the trace, for Rademacher and normal vectors; non-square operators raise ValueError.", "quantifier": "every square matrix of every dimension", "why_tests_cant": "expectation over all random vectors", "anchors": ["curvlinops/trace/hutchinson.py", "curvlinops/sampling.py"]}
{"id": "C55", "title": "HutchinsonDiagonalEstimator is unbiased", "statement": "The expectation of sample() is the diagonal, for Rademacher and normal vectors; for diagonal matrices every Rademacher sample is exact.", "quantifier": "every square matrix", "why_tests_cant": "expectation over all random vectors", "anchors": ["curvlinops/diagonal/hutchinson.py"]}
{"id": "C56", "title": "HutchinsonSquaredFrobeniusNormEstimator is unbiased", "statement": "The expectation of sample() is the squared Frobenius norm, for Rademacher and normal vectors, also for non-square matrices.", "quantifier": "every matrix", "why_tests_cant": "expectation over all random vectors", "anchors": ["curvlinops/norm/hutchinson.py"]}
{"id": "C57", "title": "HutchPPTraceEstimator is unbiased and its cache is transparent", "statement": "Given the cached orthonormal basis, the expectation of sample() is the trace; the basis is computed only once per estimator; with a basis of full dimension every sample is exactly the trace; the default and maximal basis dimension are as documented.", "quantifier": "every square matrix, basis, sequence of samples", "why_tests_cant": "expectation and histories", "anchors": ["curvlinops/trace/meyer2020hutch.py"]}
{"id": "C58", "title": "An interrupted Hutch++ set-up is not silently used", "statement": "If an exception interrupts the computation of the subspace or its trace, later samples recompute it or raise.", "quantifier": "every crash point", "why_tests_cant": "crash points", "anchors": ["curvlinops/trace/meyer2020hutch.py: maybe_compute_and_cache_subspace"]}
{"id": "C59", "title": "Lanczos vectors are orthonormal and Ritz values lie in the spectrum", "statement": "In exact arithmetic and without breakdown, fast_lanczos on a symmetric A builds orthonormal vectors with V^T A V equal to the tridiagonal matrix, so its eigenvalues lie between the smallest and largest eigenvalue of A.", "quantifier": "every symmetric matrix, number of iterations, start vector without breakdown", "why_tests_cant": "induction over iterations", "anchors": ["curvlinops/papyan2020traces/spectrum.py: fast_lanczos"]}
{"id": "C60", "title": "Averaged spectral densities are plain means", "statement": "lanczos_approximate_spectrum and lanczos_approximate_log_spectrum return the arithmetic mean of the num_repeats single densities, and the cached classes return the same for the same Lanczos iterations.", "quantifier": "every number of repeats and points", "why_tests_cant": "induction over repeats", "anchors": ["curvlinops/papyan2020traces/spectrum.py: lanczos_approximate_spectrum, LanczosApproximateSpectrumCached"]}
{"id": "C61", "title": "Cached Lanczos iterations are stable", "statement": "In every sequence of calls on a cached spectrum object, a call with num_repeats n uses exactly the first n iterations ever drawn, never redraws, and draws as few as needed.", "quantifier": "every sequence of calls", "why_tests_cant": "unbounded histories", "anchors": ["curvlinops/papyan2020traces/spectrum.py: _LanczosSpectrumCached._get_lanczos_iters"]}
{"id": "C62", "title": "The spectral density is a probability density on a grid covering the spectrum", "statement": "The densities are non-negative, the underlying function integrates to one, the grid runs from eval_min - margin*width to eval_max + margin*width in equal steps (log-equal for the log spectrum), and contains the given spectral boundaries.", "quantifier": "every set of Lanczos results, boundaries, kappa > 1, margin >= 0, number of points", "why_tests_cant": "integral over a continuum", "anchors": ["curvlinops/papyan2020traces/spectrum.py: lanczos_approximate_spectrum_from_iter, lanczos_approximate_log_spectrum_from_iter, _gaussian"]}
{"id": "C63", "title": "Given spectral boundaries are respected", "statement": "approximate_boundaries returns the boundaries supplied by the user unchanged and asks the eigensolver only for the missing ones; approximate_boundaries_abs returns absolute values; both return a result exactly if the eigensolver returns every missing value. With an exact eigensolver and correct given boundaries, the results enclose the spectrum (its absolute values).", "quantifier": "every combination of supplied and missing boundaries, every eigensolver", "why_tests_cant": "quantifies over solver behaviours", "anchors": ["curvlinops/papyan2020traces/spectrum.py: approximate_boundaries, approximate_boundaries_abs"]}
{"id": "C64", "title": "Activation hooks are removed and multi-batch data refused", "statement": "store_activation leaves the module's hooks as they were also when the forward pass raises, stores exactly the requested input/output of each call of the module, and rejects unknown modules, io types and non-empty destinations; ActivationHessianLinearOperator raises ValueError exactly for data with more than one batch.", "quantifier": "every model, activation request, crash point", "why_tests_cant": "crash points and call sequences", "anchors": ["curvlinops/experimental/activation_hessian.py"]}
{"id": "C65", "title": "random_vector draws from the requested distribution or refuses", "statement": "random_vector returns a vector of the requested dimension; Rademacher vectors have entries in {-1, 1}; unknown distribution names raise ValueError.", "quantifier": "every dimension, every draw, every distribution name", "why_tests_cant": "all draws", "anchors": ["curvlinops/sampling.py"]}
{"id": "C66", "title": "Lanczos quadrature is exact for low moments", "statement": "For a symmetric operator A and the normalized start vector v, the weights evecs[0, j]^2 and nodes evals[j] of fast_lanczos satisfy sum_j evecs[0, j]^2 * evals[j]^k = v^T A^k v for every k < 2*ncv; the weights are non-negative and sum to one.", "quantifier": "every symmetric operator, start vector without breakdown, number of Lanczos vectors, exponent", "why_tests_cant": "all operators and exponents; exact identity", "anchors": ["curvlinops/papyan2020traces/spectrum.py: fast_lanczos"]}
{"id": "C67", "title": "The activation Hessian is the Hessian in the requested activation", "statement": "ActivationHessianLinearOperator @ M multiplies with the matrix of second partial derivatives of the mini-batch loss in the requested input or output of the module (of its last call, if it is called several times), unscaled for both reductions, and its shape is that of the activation; requesting a module's output or the next module's input, which is the same tensor, gives the same operator.", "quantifier": "every model, forward pass, activation request, mini-batch size, matrix", "why_tests_cant": "all models and forward passes", "anchors": ["curvlinops/experimental/activation_hessian.py: ActivationHessianLinearOperator"]}
{"id": "C68", "title": "KFAC is exact for linear networks with square loss", "statement": "For MSELoss and a network that is linear after each layer, in the weight-sharing setting of the chosen kfac_approx (expand: every position has its own loss term; reduce: all positions enter the only loss term in the same way), the blocks of type-2 KFAC equal those of the GGN. For a single layer (reduce: followed by the average over positions) the GGN's blocks are those of forward-only KFAC times 2/C (mean) or 2*N*T (sum).", "quantifier": "every data set and partition into mini-batches, layer, input, separate or joint bias, reduction", "why_tests_cant": "all data and partitions; exact identity", "anchors": ["curvlinops/kfac.py: KFACLinearOperator", "test/test_kfac.py: test_kfac_type2, test_kfac_type2_weight_sharing, test_forward_only_fisher_type_exact_case, test_forward_only_fisher_type_exact_weight_sharing_case"]}
{"id": "C69", "title": "Patches of grouped convolutions are averages over the groups", "statement": "For groups=G dividing the number of input channels, the product of a flattened kernel of shape (C/G, k1, k2) with row o of extract_patches is the average over the G groups of the outputs at location o of the convolution with this kernel, where group g reads the g-th of G consecutive parts of the channels. For integer paddings, extract_patches succeeds exactly if G divides the number of channels and the dilated kernel fits into the padded image (positive kernel size and stride).", "quantifier": "every image, number of groups, kernel and hyper-parameters", "why_tests_cant": "unbounded", "anchors": ["curvlinops/kfac_utils.py: extract_patches, extract_averaged_patches"]}
{"id": "C70", "title": "Monte-Carlo KFAC is unbiased", "statement": "If the labels drawn by draw_label follow the model's predictive distribution and are independent between the loss terms of a datum, the expectation of each gradient covariance of KFACLinearOperator with fisher_type='mc' is the scaled sum over data, positions and loss terms of J^T H J, where H is the Hessian of the loss. Consequently, the expected operator equals the GGN inside its blocks for a single datum without weight sharing (all three losses, any number of loss terms), and for MSELoss with a network that is linear after each layer (all data).", "quantifier": "every data set, partition into mini-batches, layer, loss, reduction, number of samples >= 1, loss terms per datum, kfac_approx", "why_tests_cant": "an expectation over all draws; tests use many samples and a tolerance", "anchors": ["curvlinops/kfac.py: KFACLinearOperator.draw_label, _compute_loss_and_backward", "test/test_kfac.py: test_kfac_mc, test_kfac_mc_weight_sharing"]}
{"id": "C71", "title": "The constructor of KFAC accepts the documented arguments", "statement": "KFACLinearOperator(...) succeeds exactly if the loss is supported, fisher_type and kfac_approx are one of the documented values (enumeration members or their strings), mc_samples is 1 unless fisher_type='mc', the parameters are distinct and belong to supported layers and share a device, the data are not empty and batch_size_fn is given for dict-like inputs, and the number of loss terms is divisible by the number of data or num_per_example_loss_terms is given. The attributes are then the given or inferred ones: the number of data is the sum of batch sizes, and the number of per-example loss terms t satisfies t * N_data = number of loss terms, for every partition into mini-batches. Otherwise it raises ValueError, NotImplementedError, StopIteration, RuntimeError or ZeroDivisionError, in the order settings, parameters, data, devices, loss terms.", "quantifier": "every combination of arguments, every model and data set", "why_tests_cant": "tests check single invalid arguments", "anchors": ["curvlinops/kfac.py: KFACLinearOperator.__init__, _set_num_per_example_loss_terms", "curvlinops/_torch_base.py: _infer_device"]}
{"id": "C72", "title": "The reference matrices of examples.functorch have the layout of the operators", "statement": "For distinct parameters of the model, in any order, functorch_hessian, functorch_ggn, functorch_empirical_fisher and functorch_jacobian return two-dimensional tensors T with one row/column per entry of the flattened parameters, in the order of params (not of the model), and the products of HessianLinearOperator, GGNLinearOperator, EFLinearOperator and JacobianLinearOperator are products with T, whatever the mini-batches. functorch_gradient_and_loss returns the gradient with the shapes and in the order of params. A tensor that is no parameter of the model raises KeyError.", "quantifier": "every model, list of parameters, shapes, data, partition into mini-batches, reduction", "why_tests_cant": "tests compare on a few models with parameters in the order of the model", "anchors": ["curvlinops/examples/functorch.py: blocks_to_matrix, functorch_hessian, functorch_ggn, functorch_empirical_fisher, functorch_jacobian, functorch_gradient_and_loss, _make_params_dict", "test/test_hessian.py, test/test_ggn.py, test/test_gradient_moments.py, test/test_jacobian.py"]}
{"id": "C73", "title": "KFAC equals the GGN on feed-forward networks", "statement": "For a network of Linear/Conv2d layers with arbitrary differentiable parameter-free code between them (activations, residual connections, unfolding, pooling), each layer evaluated once per forward pass, possibly at several positions, what KFAC's hooks see satisfies the chain rule: the derivative of every prediction in a weight is the sum over positions of the output gradient times the layer input, and in a bias the sum of the output gradients. Consequently, inside KFAC's blocks: for one datum with one loss term and layers evaluated at one position, type-2 KFAC equals the GGN and empirical KFAC the empirical Fisher; for MSELoss and networks that are affine after each layer, type-2 KFAC equals the GGN for all data and mini-batches, in the setting of kfac_approx; for mc, the expectation equals the GGN in both settings (with any number of loss terms in the first).", "quantifier": "every network of this form, parameters, input, label, supported loss, reduction, partition into mini-batches, position of the parameters in the list, separate or joint treatment of biases", "why_tests_cant": "tests compare on two small networks with fixed parameters", "anchors": ["curvlinops/kfac.py: _compute_kfac, _register_tensor_hook_on_output_to_accumulate_gradient_covariance, _hook_accumulate_input_covariance, _accumulate_gradient_covariance", "test/test_kfac.py: test_kfac_type2, test_kfac_mc, test_kfac_one_datum"]}
{"id": "C74", "title": "Outputs with additional dimensions are treated as rows of a matrix", "statement": "For outputs with more than two dimensions, the empirical Fisher, the Monte-Carlo Fisher and KFAC convert output and labels so that row (b, positions) contains the predictions of datum b at these positions for all classes (second axis for CrossEntropyLoss, last axis for MSELoss and BCEWithLogitsLoss), the labels in the same order. The loss of the converted tensors equals the loss of the original ones and is the reduced sum of the losses of the rows; the rows of a mini-batch are the rows of its data, one after the other. The conversion raises RuntimeError exactly if the batch axis or the output axis is missing, in particular for one-dimensional outputs with MSELoss, although the loss accepts these.", "quantifier": "every number of dimensions, sizes, entries, labels, supported loss, reduction, division into data", "why_tests_cant": "tests use one three-dimensional example per loss and compare matrices, where a wrong order of rows may cancel in the sum", "anchors": ["curvlinops/gradient_moments.py: EFLinearOperator._matmat_batch (132-138)", "curvlinops/fisher.py: FisherMCLinearOperator._matmat_batch (222-228)", "curvlinops/kfac.py: _compute_loss_and_backward (479-485)"]}
{"id": "C75", "title": "Options of the losses are respected", "statement": "For CrossEntropyLoss with class weights, label smoothing and ignored labels (ignore_index, -100 by default), and for BCEWithLogitsLoss with weight and pos_weight, the GGN and empirical Fisher operators multiply with the GGN and empirical Fisher of that loss on the whole data, for both reductions and every partition into mini-batches; the expected Monte-Carlo Fisher and the matrix square root of type-2 KFAC belong to the Hessian of that loss.", "quantifier": "every value of the options, prediction, label, Jacobian, reduction, partition into mini-batches", "why_tests_cant": "tests never set options of the losses", "anchors": ["curvlinops/ggn.py: GGNLinearOperator._matmat_batch", "curvlinops/gradient_moments.py: EFLinearOperator._matmat_batch (139-162)", "curvlinops/fisher.py: FisherMCLinearOperator.sample_grad_output", "curvlinops/kfac_utils.py: loss_hessian_matrix_sqrt", "curvlinops/_torch_base.py: CurvatureLinearOperator._get_normalization_factor"]}
{"id": "C76", "title": "Data that can be traversed only once are refused", "statement": "data is documented as an iterable. Operators on data that can be traversed repeatedly know the number of data points and use all batches in every product. An operator is not constructed from data that can be traversed only once (generators, zip objects, iterators of data loaders), or its products use all batches.", "quantifier": "every sequence of batches, batch sizes, num_data, kind of operator, determinism check switched on or off, number of products", "why_tests_cant": "tests pass lists and data loaders only", "anchors": ["curvlinops/_torch_base.py: CurvatureLinearOperator.__init__ (463, 489-508), _matmat, _loop_over_data, _check_deterministic", "curvlinops/jacobian.py: _get_out_shape, _get_in_shape"]}
{"id": "C77", "title": "Hessian and GGN differ by the residual term only", "statement": "The Hessian operator multiplies with the matrix of the GGN operator plus the sum (mean) over data and predictions of the derivative of the loss in the prediction times the prediction's Hessian. Hence both operators return the same products if the model is affine in the parameters, or if the predictions minimise the losses of all data; and if the predictions are affine inside blocks of parameters (piecewise linear networks, one block per layer), the Hessian operator with these blocks multiplies with the block-diagonal part of the GGN.", "quantifier": "every twice continuously differentiable model and loss, parameters, parameter shapes, data, reduction, partition into mini-batches, number of columns, block structure", "why_tests_cant": "tests compare each operator with its own reference at a few parameters and never compare the two operators", "anchors": ["curvlinops/hessian.py: HessianLinearOperator._matmat_batch", "curvlinops/ggn.py: GGNLinearOperator._matmat_batch"]}
{"id": "C78", "title": "The reference implementations use all pairs of inputs and labels", "statement": "For mini-batches of tensors, the function that concatenates data for the functorch reference implementations returns inputs and labels with the common trailing shapes whose pairs of rows are those of the mini-batches, one after the other; the result is the same for every partition of the data into mini-batches. For dict-like inputs it returns the concatenated tensors at input_key and no other entry. It raises ValueError for empty data and for dict-like inputs without input_key, KeyError if the key is missing in the first input, and TypeError for a dict-like input after a tensor.", "quantifier": "every number of mini-batches (also empty ones), batch size, trailing shape, entries, dict-like inputs, key", "why_tests_cant": "tests use the concatenation as reference for the operators, on one or two data sets", "anchors": ["curvlinops/examples/functorch.py: _concatenate_batches"]}
{"id": "C79", "title": "Arrays match exactly if shapes agree and all entries are close", "statement": "report_nonclose returns exactly if the shapes of both arrays agree and every entry of the first is close to the entry of the second at the same position; otherwise it raises ValueError, and for equal shapes it prints precisely the pairs that are not close, at least one. With non-negative tolerances an array without NaN (or with equal_nan) matches itself; the order of the arrays matters because the relative tolerance refers to the second.", "quantifier": "every pair of arrays (also empty ones, with infinities and NaNs), tolerances, equal_nan", "why_tests_cant": "tests call the function on arrays that match and do not look at what is printed", "anchors": ["curvlinops/examples/utils.py: report_nonclose"]}
{"id": "C80", "title": "KFAC's exactly damped inverse is the inverse of the damped block-diagonal GGN on feed-forward networks", "statement": "On a newly constructed KFAC operator for a feed-forward network (as in C73), KFACInverseLinearOperator with use_exact_damping and damping d > 0 multiplies with the two-sided inverse of G + d*I, where G agrees with the GGN (type-2) or the empirical Fisher (empirical) inside KFAC's blocks and is zero between different blocks: for one datum with one loss term and layers evaluated at one position, and for all data and mini-batches with MSELoss and networks that are affine after each layer (type-2). For a network with a single block G is the whole GGN, and then KFACInverse @ (GGN @ v + d*v) = v and the damped natural gradient step x = KFACInverse @ g solves GGN @ x + d*x = g, where GGN is the GGN operator on the same data, possibly in other mini-batches.", "quantifier": "every network of this form, parameters, input, label, supported loss, reduction, partition into mini-batches, separate or joint treatment of biases, damping, caching and retry settings, correct linear algebra routines", "why_tests_cant": "tests compare the inverse with the inverse of KFAC's own matrix, on small networks with fixed parameters", "anchors": ["curvlinops/inverse.py: KFACInverseLinearOperator._matmat, _left_and_right_multiply, _separate_left_and_right_multiply", "curvlinops/kfac.py: _compute_kfac"]}
{"id": "C81", "title": "KFAC and its inverse work on the device they are on", "statement": "After any sequence of products, traces, to_device, determinism checks (with any outcome), products with inverses, load_state_dict and from_state_dict, a KFAC operator is on the device asked for last, all its Kronecker factors are on that device, products with tensors on that device succeed with their result on it, determinism checks do not fail because of devices, and neither do products with its inverse; the trace (and det, logdet, frobenius_norm) is on that device.", "quantifier": "every number of operators, layers with and without weight, Fisher type, devices, sequence of calls, also after exceptions", "why_tests_cant": "tests move an operator at most once and need a second device; sequences of moves, checks and state dictionaries on several operators are unbounded", "anchors": ["curvlinops/kfac.py: to_device, _matmat, _compute_kfac, trace, load_state_dict, from_state_dict", "curvlinops/inverse.py: KFACInverseLinearOperator._compute_or_get_cached_inverse, _matmat"]}
{"id": "C82", "title": "Variances of the stochastic estimators; Hutch++ is at least as precise as Hutchinson", "statement": "Over the random vector, HutchinsonTraceEstimator.sample has variance sum_{i,j} M_ij (M_ij + M_ji) for normal vectors and the same sum without i = j for Rademacher vectors (so never more); entry i of HutchinsonDiagonalEstimator.sample has variance sum_j M_ij^2 + M_ii^2 and sum_{j != i} M_ij^2; HutchinsonSquaredFrobeniusNormEstimator.sample has variance 2 sum_{i,j} <m_i, m_j>^2 and the same without i = j, with m_i the columns. HutchPPTraceEstimator.sample has, for every cached basis, the variance of Hutchinson's estimator for (I - QQ^T) M (I - QQ^T), which is at most the variance of HutchinsonTraceEstimator.sample with the same distribution ('Hutch++ has lower variance'), and is exact in every sample if the range of M lies in the span of Q.", "quantifier": "every square (for the norm: rectangular) matrix, dimension, both distributions, every cached basis", "why_tests_cant": "tests compare averages of finitely many samples with the exact value at loose tolerances; a wrong variance or a worse estimator passes", "anchors": ["curvlinops/trace/hutchinson.py: HutchinsonTraceEstimator.sample", "curvlinops/trace/meyer2020hutch.py: HutchPPTraceEstimator.sample", "curvlinops/diagonal/hutchinson.py: HutchinsonDiagonalEstimator.sample", "curvlinops/norm/hutchinson.py: HutchinsonSquaredFrobeniusNormEstimator.sample"]}
{"id": "C83", "title": "Curvature products and gradients agree with products of the Jacobian operators", "statement": "On the same data, but each operator with its own partition into mini-batches: multiplying a matrix with JacobianLinearOperator, then with the block-diagonal matrix of the weighted loss Hessians (outer products of the loss gradients) of all loss terms, then with TransposedJacobianLinearOperator gives exactly the tensors that GGNLinearOperator (EFLinearOperator) returns for the matrix. For MSELoss the middle step is a scaling: GGN @ V = c J^T @ (J @ V) with c = 2 for reduction 'sum' and 2 divided by the total number of entries of the predictions for 'mean'. The gradient of gradient_and_loss is J^T @ (gradient of the empirical risk in the stacked predictions), and its loss the weighted sum of the losses of all terms. The classes come first in the predictions for CrossEntropyLoss, the outputs last otherwise.", "quantifier": "every loss of the three, reduction, number of loss terms per datum, parameter shapes, three independent partitions into mini-batches, matrices with at least one column", "why_tests_cant": "tests compare each operator with its own reference on a few fixed batchings; the identity relates three operators and all partitions", "anchors": ["curvlinops/jacobian.py:91-114", "curvlinops/jacobian.py:196-240", "curvlinops/ggn.py:47-78", "curvlinops/gradient_moments.py:114-175", "curvlinops/_torch_base.py:618-676"]}
{"id": "C84", "title": "The KFAC inverse follows its KFAC operator", "statement": "KFACInverseLinearOperator keeps a reference to its KFAC operator and may cache inverses of the factors. Whatever has been called before (products, traces, determinants and norms of the KFAC operators, uses of the model, products with inverses, load_state_dict on either), a product with an inverse returns what a newly built inverse with the same settings and the same KFAC operator would return.", "quantifier": "any number of KFAC operators and inverses, every sequence of calls in any order, every model, data set, settings, matrices, linear algebra routines", "why_tests_cant": "a stale cache only shows after particular interleavings of calls on two objects that share state; tests use each inverse right after its construction", "anchors": ["curvlinops/inverse.py:361-377", "curvlinops/inverse.py:492-518", "curvlinops/inverse.py:620-663", "curvlinops/inverse.py:685-703", "curvlinops/kfac.py:965-1027"]}
{"id": "C85", "title": "The SciPy export multiplies correctly for arguments of every data type", "statement": "The operator that to_scipy returns multiplies NumPy arrays: for each of matvec, rmatvec, matmat and rmatmat, and for arguments of every numeric data type (Boolean, integer, floating point, complex), the result is the product with the matrix (its transpose) up to rounding to the floating point types involved; the data type of the result is that of the argument. Arrays of types that PyTorch does not know raise TypeError.", "quantifier": "every operator that represents a matrix, shapes, numbers of columns, data types of the operator and of the argument, entries", "why_tests_cant": "the tests call the export with floating point arrays of the operator's type; arguments of other types are converted back to their own type, which is lossless for the values used in tests", "anchors": ["curvlinops/_torch_base.py:300-382"]}
{"id": "C86", "title": "Objects that cache results refer to the present parameters", "statement": "Parameters change while an operator is in use (e.g. by an optimizer). Objects that cache results - KFACLinearOperator (factors, trace, determinant, norm), HutchPPTraceEstimator (basis and trace in its span), the cached Lanczos spectra - return, at every call, what a new object would return for the present parameters.", "quantifier": "every sequence of parameter changes and calls, every model, data, settings, distribution, number of repetitions", "why_tests_cant": "tests build objects and use them at fixed parameters; stale results need a change between two calls and look plausible", "anchors": ["curvlinops/kfac.py:335-440", "curvlinops/kfac.py:765-927", "curvlinops/trace/meyer2020hutch.py:107-152", "curvlinops/papyan2020traces/spectrum.py:105-132"]}
{"id": "C87", "title": "Operators on some of the parameters are sub-matrices of those on all parameters", "statement": "Take an operator on a list of parameters and the same operator (same model, loss, data, seed, correct or inferred num_data) on a selection of these parameters, in any order: its products are the selected parts of the full operator's products with tensor lists that are zero outside the selection. This holds for the Hessian, GGN, empirical and Monte-Carlo Fisher (same seed; labels depend on the model's predictions only) and for KFAC with every Fisher type, both approximations, joint or separate treatment of weight and bias, even if a layer's weight or bias is left out of a jointly treated layer. The Jacobian and its transpose lose the other parameters' columns and rows; gradient_and_loss returns the same loss and the selected gradients. For KFAC with a num_data that differs from the number of data points, the statement is false.", "quantifier": "every selection and order of parameters, every model, data and batching", "why_tests_cant": "exponentially many selections; tests compare each operator only with its own dense reference", "anchors": ["curvlinops/_torch_base.py:468", "curvlinops/hessian.py:62-80", "curvlinops/ggn.py:64-75", "curvlinops/jacobian.py:108", "curvlinops/kfac.py: KFACLinearOperator.compute_parameter_mapping", "curvlinops/kfac.py: KFACLinearOperator._hook_accumulate_input_covariance"]}
{"id": "C88", "title": "Effect of the reduction, of num_data and of joining data sets", "statement": "For the Hessian, GGN, empirical Fisher and Monte-Carlo Fisher (same seed): with reduction 'sum', num_data makes no difference as long as it is not 0; num_data=0 raises ZeroDivisionError in every product for both reductions. With reduction 'mean', passing num_data=N' for N data points multiplies all products by N/N' (and likewise loss and gradient of gradient_and_loss). Changing the reduction from 'sum' to 'mean' divides the products of GGN and both Fishers by the total number of loss terms, and for MSELoss and BCEWithLogitsLoss also by the dimension of a term. The deterministic operators on two data sets together are the sum ('sum') or the average weighted with the numbers of data ('mean') of the operators on each. KFAC follows the reduction in the same way for the types type-2, MC and empirical and ignores it for forward-only; but num_data enters both Kronecker factors for 'mean' (products are multiplied by (N/N')^2) and the input factor even for 'sum' and forward-only (N/N'), and separately treated biases get one factor N/N' less. Passing all data twice leaves KFAC unchanged for 'mean' and forward-only and doubles it for 'sum'.", "quantifier": "every model, loss, data set, batching and num_data; mc_samples >= 1 for the Monte-Carlo Fisher", "why_tests_cant": "tests pass the correct num_data or none, and compare each configuration with its own dense reference only", "anchors": ["curvlinops/_torch_base.py: CurvatureLinearOperator._get_normalization_factor", "curvlinops/_torch_base.py: CurvatureLinearOperator._matmat", "curvlinops/_torch_base.py: CurvatureLinearOperator.gradient_and_loss", "curvlinops/kfac.py: KFACLinearOperator._hook_accumulate_input_covariance", "curvlinops/kfac.py: KFACLinearOperator._accumulate_gradient_covariance", "curvlinops/kfac_utils.py: loss_hessian_matrix_sqrt"]}
{"id": "C89", "title": "Constructors of the curvature operators: accepted arguments, exceptions, traversals, devices", "statement": "Constructing a Hessian, GGN, empirical Fisher, Monte-Carlo Fisher or (transposed) Jacobian operator succeeds exactly if: the Fishers get one of their supported losses (otherwise NotImplementedError before the data are touched), the data are not empty (otherwise StopIteration), data that are not tensors come with batch_size_fn (otherwise ValueError), block_sizes are given only to the Hessian, are positive and sum to the number of parameters (otherwise ValueError; TypeError for the Fishers and Jacobians, which do not have the argument), the parameters are on one device (otherwise RuntimeError), and, unless num_data is given, every batch has a size. With check_deterministic the parameters must in addition have one data type, the loss (except for Jacobians) must have reduction 'mean' or 'sum', the number of data must not be zero, and the two traversals and products must agree; the exceptions of the first product are then raised by the constructor. A constructed operator has the given block sizes (default: one block), the device of its parameters, num_data or the total batch size as number of data, and the shapes of the parameters (for the Jacobians the number of data and the trailing shape of the prediction). The data are traversed exactly 1 + [num_data not given] + [Jacobian] + 4 [check] times, and whether the constructor succeeds or raises, the parameters are on their device afterwards.", "quantifier": "every class, all combinations of arguments, all data, models (deterministic or not) and devices", "why_tests_cant": "the combinations of arguments are many and tests exercise a few exceptions one at a time on the CPU", "anchors": ["curvlinops/_torch_base.py: CurvatureLinearOperator.__init__", "curvlinops/_torch_base.py: CurvatureLinearOperator._check_deterministic", "curvlinops/_torch_base.py: CurvatureLinearOperator._get_normalization_factor", "curvlinops/fisher.py:112-183", "curvlinops/gradient_moments.py:50-112", "curvlinops/jacobian.py:25-89"]}
{"id": "C90", "title": "The variance of Monte-Carlo curvature decays with the number of samples", "statement": "If the labels drawn by FisherMCLinearOperator in a product follow the model's predictive distributions and are pairwise independent, every entry of the product (more generally every linear combination of the represented matrix's entries) has the mean of the corresponding quantity of the GGN and the variance (weight^2 / mc_samples) * (sum over the loss terms of the variance for a single drawn label), whatever the mini-batches. Hence multiplying mc_samples by c divides the variance by c, and the probability of an error of at least eps tends to 0 as mc_samples grows. For MSELoss the variance of a single label is sum_ij B_ij (B_ij + B_ji) with B = 2 J A J^T for the coefficients A; for CrossEntropyLoss and BCEWithLogitsLoss it is the variance over the finitely many labels. With dependent samples (copies) nothing is gained. For KFACLinearOperator with fisher_type='mc', each gradient covariance is the average of those with one label per loss term, and with independent, identically distributed samples the variance of its entries is 1/mc_samples times that with one sample.", "quantifier": "every data set, partition into mini-batches, loss, reduction, number of samples >= 1, loss terms per datum, vectors; every layer and kfac_approx", "why_tests_cant": "a statement about the distribution over all draws and its dependence on the number of samples; tests compare one seed with a large tolerance", "anchors": ["curvlinops/fisher.py: FisherMCLinearOperator.sample_grad_output, _matmat_batch", "curvlinops/kfac.py: KFACLinearOperator.draw_label, _compute_loss_and_backward", "test/test_fisher.py: test_FisherMCLinearOperator_expectation", "test/test_kfac.py: test_kfac_mc"]}
{"id": "C91", "title": "Cached spectrum objects over the life of a program", "statement": "In every program that creates any number of LanczosApproximateSpectrumCached and LanczosApproximateLogSpectrumCached objects, asks them for densities and calls lanczos_approximate_spectrum and lanczos_approximate_log_spectrum, in any order and whatever raises: an object keeps the operator, ncv and boundaries of its constructor call and never loses or changes a Lanczos run; a request for n >= 1 repetitions ends (with the same result or exception) like the function called with the arguments of the constructor if the function's n runs of fast_lanczos were the first n runs of the object; a request makes exactly the missing runs, with the object's operator and ncv; a run is never used by two objects, twice by one object, or by an object and a function call; the eigensolver is called only by constructors and functions that are not given both boundaries, for their operator and with their tolerance; a constructor that raises creates no object.", "quantifier": "every program (sequence of constructor calls, requests and function calls), operators, outcomes of fast_lanczos and eigsh", "why_tests_cant": "unbounded interleavings of several objects that share the random number generator", "anchors": ["curvlinops/papyan2020traces/spectrum.py: _LanczosSpectrumCached.__init__, LanczosApproximateSpectrumCached.__init__, LanczosApproximateLogSpectrumCached.__init__, approximate_spectrum, approximate_log_spectrum"]}
{"id": "C92", "title": "How KFAC's options are related", "statement": "The input covariances depend on the layers' inputs, kfac_approx, separate_weight_and_bias and the number of data only (not on fisher_type, the loss and its reduction, mc_samples, labels or gradients); with fisher_type='forward-only' this holds for all factors. Without weight sharing, kfac_approx='expand' and 'reduce' give the same operator; with weight sharing they differ. separate_weight_and_bias makes no difference if no layer has both its weight and its bias among the parameters; otherwise the operator with True is the operator with False, with all entries between different parameters set to zero; in particular both have the same trace.", "quantifier": "every network of supported layers, any subset and order of parameters, data, batching, settings", "why_tests_cant": "relations between all entries of two operators for all networks and settings; tests compare each setting with a reference on a few networks", "anchors": ["curvlinops/kfac.py: _compute_kfac, _hook_accumulate_input_covariance, _accumulate_gradient_covariance, _compute_loss_and_backward, _matmat"]}
{"id": "C93", "title": "KFAC of networks that evaluate a layer any number of times", "statement": "For networks whose forward pass evaluates modules in any order and any number of times (possibly different from batch to batch): the factors are computed without exception iff every evaluation of a layer with a weight has exactly one positional input (otherwise ValueError), every evaluation of a layer has an output that requires a gradient, and the output depends on all parameters (otherwise RuntimeError; not for forward-only); the computation graph of a batch is released by the last backward pass and not before. The input (gradient) factor of a layer is the sum over its evaluations (over those that the output depends on) of the factor of the single evaluation, for all data and independent of the batches; with one evaluation per layer these are the usual factors. Products do not succeed if a layer with a weight is never evaluated, or if the output depends on none of a layer's evaluations. A layer that is evaluated at S positions one after the other has the gradient factor and S times the input factor of KFAC-expand for the layer evaluated once at all positions, whatever kfac_approx, and the entry of the bias in the joint input factor counts the evaluations; so KFAC depends on how the same function is written, and is not exact where KFAC-reduce is. An exception in the forward pass leaves the input factors of the evaluations before it (and of the one whose output requires no gradient) and the gradient factors of the earlier batches; one for an unused parameter leaves the complete input factors up to this batch and the gradient factors of its first backward pass.", "quantifier": "every list of evaluations, layers, data, batches, settings", "why_tests_cant": "all tested networks evaluate each layer once; the number of evaluations and batches is unbounded", "anchors": ["curvlinops/kfac.py: _compute_kfac, _compute_loss_and_backward, _hook_accumulate_input_covariance, _register_tensor_hook_on_output_to_accumulate_gradient_covariance, _accumulate_gradient_covariance"]}
{"id": "C94", "title": "Averages of the stochastic estimators converge, with the variance of one sample divided by their number", "statement": "Averaging m successive results of HutchinsonTraceEstimator.sample, HutchinsonDiagonalEstimator.sample (entry by entry), HutchinsonSquaredFrobeniusNormEstimator.sample or HutchPPTraceEstimator.sample, for draws that are independent from call to call, gives an unbiased estimate with mean squared error sigma^2/m, where sigma^2 is the variance of one sample (C82); the probability of an error of at least eps is at most sigma^2/(m eps^2); and as m grows the averages converge almost surely to the trace, the diagonal, or the squared Frobenius norm. For Hutch++ this holds from the construction on, including the first call, which draws the basis: the averages converge almost surely whatever basis is drawn, and if the basis is independent of the later draws, they are unbiased with mean squared error E[variance given the basis]/m, which for normal vectors is at most that of Hutchinson's estimator.", "quantifier": "every real matrix (for the norm: rectangular), dimension, both distributions, every number of calls, every basis dimension from 1 to the dimension, every generator with independent draws", "why_tests_cant": "tests average a fixed number of samples with one seed and loose tolerances; they cannot tell the rate, nor convergence for almost every seed", "anchors": ["curvlinops/trace/hutchinson.py:65-82", "curvlinops/trace/meyer2020hutch.py:107-152", "curvlinops/diagonal/hutchinson.py:69-86", "curvlinops/norm/hutchinson.py:49-66", "curvlinops/sampling.py:7-51"]}
{"id": "C95", "title": "The Lanczos densities estimate the smoothed spectral density", "statement": "For a symmetric operator of dimension d in exact arithmetic and standard normal start vectors: fast_lanczos raises ValueError whatever is drawn if ncv exceeds the number of different eigenvalues, and otherwise almost surely never raises, in any number of runs. The result of a run is a Gauss quadrature: sum_j evecs[0, j]^2 p(evals[j]) is the average of p over the eigenvalues, weighted with the squared coefficients of the normalised start vector, for all polynomials p of degree less than 2 ncv; for any other function it differs by at most twice the error of its best such polynomial approximation between the eigenvalues, and not at all if ncv is the number of different eigenvalues. So the sums of evecs[0, j]^2 evals[j]^k, k < 2 ncv, are unbiased for tr(A^k)/d with variance 2/(d(d+2)) (tr(A^2k) - tr(A^k)^2/d). The densities of lanczos_approximate_spectrum and lanczos_approximate_log_spectrum at each grid point are, up to this error, averages over num_repeats independent samples with mean the true spectral density (of the eigenvalues, or of the logarithms of their shifted absolute values) smoothed with the same Gaussian bump: the probability that the error exceeds 2 eps + delta is at most sigma^2 / (num_repeats delta^2) with the exact variance sigma^2, and almost surely it is below 2 eps + delta for all large num_repeats.", "quantifier": "every symmetric operator, dimension, ncv >= 2 up to the number of different eigenvalues, both eigensolvers that meet their contract, grid size, kappa > 1, margin >= 0, boundaries, epsilon, number of repetitions", "why_tests_cant": "tests compare plots or loose tolerances for one seed and a matrix; whether the estimate is biased, its variance, and almost sure success depend on all start vectors", "anchors": ["curvlinops/papyan2020traces/spectrum.py: lanczos_approximate_spectrum, lanczos_approximate_log_spectrum, fast_lanczos"]}
{"id": "C96", "title": "Algorithms on exported curvature operators are about the curvature matrix", "statement": "If an operator and its adjoint multiply with a matrix and its transpose, the result of to_scipy() multiplies 1d arrays and 2d arrays with at least one column with the matrix, and its adjoint with the transpose. Hence, with the Hessian exported by to_scipy(): HutchinsonTraceEstimator is unbiased for the sum, and HutchinsonDiagonalEstimator for the vector, of the second partial derivatives of the empirical risk (both distributions); SubmatrixLinearOperator multiplies vectors, and matrices with at least two columns, with the second partial derivatives in the chosen parameters in the given order; NeumannInverseLinearOperator converges to the inverse Hessian times the vector if scale times every eigenvalue is between 0 and 2; lanczos_approximate_spectrum estimates the smoothed density of its eigenvalues with the error bounds of C95. On every exported operator that is declared self-adjoint, the three Rademacher estimators are unbiased for trace, diagonal and squared Frobenius norm of its matrix; for the empirical Fisher the trace is the weighted sum of the squared gradient norms of all loss terms, and for KFAC trace and norm agree with its properties trace and frobenius_norm. An exception that a product raises reaches the caller of the exported operator, or of its adjoint, unchanged.", "quantifier": "all models and losses that are twice continuously differentiable at the parameters, parameter shapes, data, partitions into non-empty mini-batches, both reductions, data types, index lists, scales, start vectors", "why_tests_cant": "tests check each algorithm on small dense matrices and each operator against autodiff; that the composition with the export, its reshaping and data type conversion is unbiased or convergent concerns all models, draws and numbers of terms", "anchors": ["curvlinops/_torch_base.py: to_scipy, _scipy_compatible", "curvlinops/trace/hutchinson.py", "curvlinops/diagonal/hutchinson.py", "curvlinops/norm/hutchinson.py", "curvlinops/submatrix.py", "curvlinops/inverse.py: NeumannInverseLinearOperator", "curvlinops/papyan2020traces/spectrum.py"]}
{"id": "C97", "title": "When and how fast the Neumann inverse converges", "statement": "For a symmetric matrix in exact arithmetic, let rho be the largest |1 - scale*lambda| over its eigenvalues. With num_terms = T, NeumannInverseLinearOperator @ x leaves a residual of at most rho^(T+1) times the Euclidean norm of x, and has an error of at most rho^(T+1) times the norm of z for every solution z of A z = x; on an eigenvector the residual is exactly (1 - scale*lambda)^(T+1) times x. The products converge to a solution for every x if and only if 0 < scale*lambda < 2 for every eigenvalue. The scale of the documentation's example (1 if the largest eigenvalue is below 2, else 1.99 divided by it) satisfies this for every positive definite matrix; with scale 1/hi and eigenvalues between lo and hi the rate is 1 - lo/hi.", "quantifier": "every symmetric matrix, scale, num_terms and right-hand side", "why_tests_cant": "tests use one matrix with a scale that is known to work and a large number of terms; rates and the failure outside of the interval concern all spectra", "anchors": ["curvlinops/inverse.py: NeumannInverseLinearOperator", "docs/examples/basic_usage/example_inverses.py"]}
{"id": "C98", "title": "The KFAC inverse is positive definite and bounded through the damping", "statement": "With positive damping the matrix of KFACInverseLinearOperator is symmetric and positive definite, so the product with a non-zero gradient is an ascent direction, and it lengthens a vector by at most 1/c: c is the damping delta for exact damping; the product of the two dampings (and the damping of the gradient covariance if biases have their own block) for damped factors, that is delta^2 for one number, which is sharp, so that for delta < 1 the bound 1/delta does not hold in general; and delta again for heuristic damping if all factors have positive mean eigenvalue and biases are joint with weights, whatever min_damping is.", "quantifier": "all models, data, Fisher types, approximations, reductions, layers, positive dampings", "why_tests_cant": "tests compare with a dense inverse on small networks; a bound for every gradient, network and data set cannot be sampled", "anchors": ["curvlinops/inverse.py: KFACInverseLinearOperator, _compute_damping, _compute_inverse_factors, _matmat"]}
{"id": "C99", "title": "Kernels, ranges and ranks: when the undamped natural gradient exists", "statement": "In exact arithmetic, for MSELoss, CrossEntropyLoss and BCEWithLogitsLoss. (1) The GGN maps a vector to zero exactly if no prediction changes in that direction to first order, where for CrossEntropyLoss a change of all logits of a prediction by the same amount counts as none; the empirical Fisher maps a vector to zero exactly if it is orthogonal to the gradient of every loss term. (2) The rank of the GGN is at most the number of loss terms times C (times C-1 for CrossEntropyLoss), that of the empirical Fisher at most the number of loss terms, and that of the Monte-Carlo Fisher at most the number of loss terms times mc_samples, whatever is drawn. (3) For every batching and reduction, the gradient returned by gradient_and_loss is a product of GGNLinearOperator with some vector and of EFLinearOperator with some vector: the systems of the undamped natural gradient have solutions. (4) What the GGN maps to zero is mapped to zero by FisherMCLinearOperator, but the gradient need not be in its range: there is a datum and a draw such that no product of the operator is the gradient, so its systems need damping.", "quantifier": "every data set with at least one loss term, every batching, reduction, number of loss terms per datum, parameter shapes, networks (Jacobians), and draws", "why_tests_cant": "existence of solutions and exact kernels are statements about all vectors and all networks; numerical ranks depend on thresholds", "anchors": ["curvlinops/ggn.py:47-78", "curvlinops/gradient_moments.py:114-175", "curvlinops/fisher.py:186-330", "curvlinops/_torch_base.py:650-676"]}
{"id": "C100", "title": "Rounding errors of the accumulation over mini-batches", "statement": "In floating point arithmetic with unit round-off u (every operation returns the exact result up to the relative error u) and reduction 'mean' or 'sum'. Suppose every datum contributes x to an entry of a product, a >= |x| is a bound on the contribution (|x| itself, or the contribution with absolute values everywhere), and the product of every single mini-batch is computed with an error of at most eta times the mean (sum) of a over the mini-batch. Then A @ M, accumulated over n mini-batches, has an error of at most (1+eta)(1+u)^(n+1) - 1 ((1+eta)(1+u)^(n-1) - 1 for 'sum') times the mean (sum) of a over all data, in every entry; if k = n+1 (n-1) satisfies k u <= 1/2, this is at most eta + 2 k u (1+eta). The same holds for the loss and the gradient of gradient_and_loss. Two runs over the same data in different mini-batches or another order differ by at most the sum of the two bounds; they need not agree exactly (a witness with float32). Without rounding errors the bound is zero.", "quantifier": "every rounding with a relative error bound (binary formats of every precision satisfy it), every list of non-empty mini-batches whose sizes are representable, every per-batch function with the stated accuracy, shapes, number of columns and entries", "why_tests_cant": "tests compare with tolerances for a few data sets; they do not say how the tolerance has to grow with the number of mini-batches", "anchors": ["curvlinops/_torch_base.py:526-547", "curvlinops/_torch_base.py:598-612", "curvlinops/_torch_base.py:650-676"]}
{"id": "C101", "title": "Rounding errors of the Neumann inverse", "statement": "In floating point arithmetic with unit round-off u. Let |.| be a norm that depends monotonically on the absolute values of the entries (for example the Euclidean or the maximum norm), let the product with A be computed with an error of at most delta |v|, and |v - scale A v| <= q |v| for all v. Put t = (1+u)(q + d + u(1+q+d)) with d = |scale| delta. Then NeumannInverseLinearOperator with num_terms = T returns y with |y - scale sum_{k<=T} (I - scale A)^k x| <= |scale| ((1+u)^(T+1) sum_{k<=T} t^k - sum_{k<=T} q^k) |x|. If t < 1 then for the exact solution z of A z = x, |y - z| <= q^(T+1) |z| + |scale| ((1+u)^(T+1)/(1-t) - (1-q^(T+1))/(1-q)) |x|: truncation and rounding errors separate, and products that are slightly inaccurate do not spoil convergence as long as t < 1. For symmetric A and the Euclidean norm, q is the largest |1 - scale l| over the eigenvalues l.", "quantifier": "every rounding with a relative error bound, matrix, operator with the stated accuracy, scale, number of terms, norm of the stated kind, and x", "why_tests_cant": "tests check a few matrices with loose tolerances; how errors of the products propagate through the iteration is a statement about all of them", "anchors": ["curvlinops/inverse.py:268-293"]}
{"id": "C102", "title": "Preconditioned gradients decrease the empirical risk", "statement": "For an arbitrary model and loss differentiable at the parameters, and every data set, batching and reduction ('mean' or 'sum'): gradient_and_loss returns the empirical risk of the whole data set and its partial derivatives. Multiplying this gradient with a KFACInverseLinearOperator (exact damping, one damping value for both factors, or the heuristic with factors of non-zero mean eigenvalue and joint biases), built on any data and parameters, gives a direction against which every sufficiently small step decreases the risk, unless the gradient is zero, in which case the direction is zero. If moreover the risk is bounded by its tangent plus L/2 times the squared distance, a step of length t decreases it by at least t(1 - L t/(2c)) times the inner product of gradient and direction, where 1/c bounds the inverse (c = damping for exact damping and the heuristic, min(damping, damping^2) otherwise): all 0 < t < 2c/L decrease the risk. The same qualitative statement holds for every solution of a damped or undamped system with the GGN, empirical or Monte-Carlo Fisher and the gradient as right-hand side, and for the Neumann series of any length of a symmetric positive semi-definite operator if 0 < scale and scale times every eigenvalue is below 2. It fails for Newton systems with an indefinite Hessian, and for the Neumann series if scale times an eigenvalue exceeds 2 and num_terms is odd: there are parameters at which every step increases a quadratic risk.", "quantifier": "all parameter shapes, differentiable models and losses, data sets, batchings, parameters, KFAC configurations and factors, dampings > 0, step lengths, solutions of the systems, labels drawn by the Monte-Carlo Fisher, numbers of terms and scales", "why_tests_cant": "tests compare products with matrices on a few small nets; that the direction decreases the risk for every data set and damping, and how long the step may be, is a statement about all of them", "anchors": ["curvlinops/_torch_base.py:619-676", "curvlinops/inverse.py:296-663", "curvlinops/inverse.py:268-293", "curvlinops/ggn.py:47-78", "curvlinops/gradient_moments.py:114-175", "curvlinops/fisher.py:185-332"]}
{"id": "C103", "title": "Objects do not depend on what the caller later does with arguments and results", "statement": "A SubmatrixLinearOperator keeps multiplying with the sub-matrix it was created for, whatever the program does afterwards short of calling its set_submatrix; and the properties trace, det, logdet, frobenius_norm and the products of a KFACLinearOperator keep returning their values, whatever the program does with tensors that they returned. Part that holds: programs that create, re-index and adjoin other sub-matrices, also such that share the index lists, and change other lists; for KFAC, products in every case, and each property as long as no tensor it returned was changed in place. Part that does not: the sub-matrix follows in-place changes of the index lists it was created from without validating them, negative numbers written to them count from the end, numbers outside of the matrix raise IndexError in products, and products raise ValueError if the number of rows changes; a property of KFAC returns whatever the caller wrote to the tensor it returned before. A rejected set_submatrix leaves every operator with the lists it had.", "quantifier": "all matrices, index lists, programs that create, re-index, adjoin sub-matrices and change lists; all KFAC operators and sequences of products, property reads, uses of the model and in-place changes", "why_tests_cant": "tests do not change lists and tensors after handing them over or receiving them; a frame property ranges over all programs", "anchors": ["curvlinops/submatrix.py:14-92", "curvlinops/kfac.py:765-927"]}
{"id": "C104", "title": "Numbers of matrix-vector products", "statement": "One sample of the Hutchinson trace, diagonal and norm estimators needs one product with the operator, also at most one when it raises. As documented, s2 samples of a new Hutch++ estimator with basis dimension s1 need 2 * s1 + s2 products, as many as 2 * s1 + s2 samples of the Hutchinson estimator, because the sub-space is computed once. A Lanczos run with ncv vectors is determined by ncv products, and the approximate spectra of papyan2020traces by num_repeats * ncv products besides those of the eigensolver for the boundaries; a product of the Neumann inverse is determined by num_terms products per column, and a product of a sub-matrix by one product per column.", "quantifier": "every operator (also one that raises), every distribution, basis dimension, number of samples, ncv, num_repeats, num_terms, every input", "why_tests_cant": "costs are not asserted by tests, and the caching only shows over arbitrary sequences of calls and exceptions", "anchors": ["curvlinops/trace/hutchinson.py:65-82", "curvlinops/trace/meyer2020hutch.py:58-152", "curvlinops/diagonal/hutchinson.py:69-86", "curvlinops/norm/hutchinson.py:49-66", "curvlinops/papyan2020traces/spectrum.py:374-422", "curvlinops/inverse.py:268-293", "curvlinops/submatrix.py:55-82"]}
{"id": "C105", "title": "Rounding errors from the mini-batches to the inverse", "statement": "In floating point arithmetic with different precisions in PyTorch (unit round-off u1, type of the parameters) and NumPy (u2). Let H_d be the matrix of datum d, |H_d| <= A_d entry-wise, and let the product of every mini-batch with v be computed with an error of at most eta times the mean (sum) of A_d |v|, entry-wise. Let casting arrays to tensors and back have relative errors of at most c1 and c2 (c2 = 0 for float32 parameters and float64 arrays), and let kappa satisfy |mean (sum) of A_d times |v|| <= kappa |v| in a monotone norm. Then products of A.to_scipy() with v are products with the mean (sum) of the H_d up to an error of at most ((1+c2)(1+e)(1+c1) - 1) kappa |v|, where e = (1+eta)(1+u1)^(n+1) - 1 ((1+eta)(1+u1)^(n-1) - 1 for 'sum') for n mini-batches. Consequently, for symmetric H_d, NeumannInverseLinearOperator(A.to_scipy(), num_terms=T, scale=s) returns for x an approximation of the solution z of A z = x with an error of at most q^(T+1) |z| + |s| ((1+u2)^(T+1)/(1-t) - (1-q^(T+1))/(1-q)) |x|, where q >= |1 - s l| for all eigenvalues l, t = (1+u2)(q + d + u2(1+q+d)) < 1, and d = |s| times the error of the products.", "quantifier": "every pair of roundings, data set, partition into non-empty mini-batches whose sizes are representable, per-batch function with the stated accuracy, parameter shapes, norm that is monotone in the absolute values, scale, number of terms, vector", "why_tests_cant": "tests use loose tolerances on a few models; the statement says how the accuracy of per-batch products, the number of mini-batches, the precision of the parameters and the casts limit the accuracy of the inverse", "anchors": ["curvlinops/_torch_base.py:300-326", "curvlinops/_torch_base.py:350-382", "curvlinops/_torch_base.py:526-547", "curvlinops/inverse.py:268-293"]}
{"id": "C106", "title": "Change of parameters", "statement": "Let the parameters of a model be computed from other parameters psi by a differentiable map phi (weight tying, scaling, normalization, low-rank factors, ...) with Jacobian D at psi. Then for the model as a function of psi: gradient_and_loss returns the same loss and the gradient D^T g; the Jacobian operator multiplies like J @ (D v) and the transposed one like D^T (J^T @ w); the GGN, the empirical Fisher and, for the same seed, the Monte-Carlo Fisher multiply like D^T (A @ (D v)). Consequently, if D^T is injective, x' solves GGN' @ x' = gradient' if and only if D x' solves GGN @ x = gradient: natural gradient steps do not depend on the parameters to first order. For the Hessian the same holds if phi has no second derivatives in the entries with non-zero risk gradient, but not in general.", "quantifier": "every model and twice differentiable loss (GGN, Hessian, gradient, Jacobians), the three supported losses with any number of loss terms per datum (GGN, empirical Fisher, Monte-Carlo Fisher), every differentiable map between parameters of any shapes, every partition into mini-batches, both reductions, every matrix that is multiplied", "why_tests_cant": "tests compare each operator with a dense matrix for one model; the relation between operators of two models with arbitrary parameter maps is never evaluated", "anchors": ["curvlinops/ggn.py:47-78", "curvlinops/hessian.py:45-84", "curvlinops/fisher.py:185-332", "curvlinops/gradient_moments.py:114-175", "curvlinops/jacobian.py:91-115", "curvlinops/jacobian.py:208-240", "curvlinops/_torch_base.py:526-578"]}
{"id": "C107", "title": "Products as derivatives along a vector, and the quadratic model of the loss", "statement": "Moving the parameters along v (theta + t v), the gradient returned by gradient_and_loss has derivative H @ v at t = 0, entry by entry, where H is the Hessian operator at theta; the predictions have derivative J @ v for the Jacobian operator; and J^T @ w is the gradient of the sum of the predictions weighted with w. The loss and gradient at theta together with H @ v predict the loss returned at theta + v as L + g.v + (v.(H @ v))/2, up to an error of at most eps |v|^2 for all v below some distance, for every eps > 0. With the GGN instead of the Hessian the same holds for the risk of the linearized model. If an operator is symmetric positive semi-definite (the GGN with losses convex in the predictions), then x minimizes g.x + (x.(A @ x))/2 over all vectors if and only if A @ x = -g (Newton and Gauss-Newton steps).", "quantifier": "every model and loss that are twice continuously differentiable at theta (for Jacobians and the model inside the GGN: differentiable), every vector in tensor list format, every partition into mini-batches, both reductions", "why_tests_cant": "a limit over all step sizes and a minimum over all vectors cannot be tested; finite differences carry an unknown truncation error", "anchors": ["curvlinops/hessian.py:45-84", "curvlinops/ggn.py:47-78", "curvlinops/jacobian.py:91-115", "curvlinops/jacobian.py:208-240", "curvlinops/_torch_base.py:526-578"]}
{"id": "C108", "title": "Operators on randomly selected data", "statement": "Select m of N data at random so that no datum is preferred (m draws with repetition, m different data, or any m positions of shuffled data) and split them into mini-batches in any way. With reduction mean, every entry of every product with the Hessian, the GGN and the empirical Fisher on the selected data, of the gradient and the loss returned by gradient_and_loss, and of KFAC's factors has the corresponding entry on all data as mean; with reduction sum after multiplication with N/m (KFAC's input factors and FORWARD_ONLY's gradient factors need no multiplication). With reduction mean, the mean squared error of every entry of every product is the mean squared deviation of the operators on single data divided by m, without repetition multiplied with (N - m)/(N - 1). The mean of the operators on the mini-batches of a data loader is the operator on all its data if all mini-batches have the same size. Two things that do not hold: the plain mean over mini-batches of unequal size (reduction mean) is not the operator on all data, and KFAC itself (a Kronecker product of unbiased factors) is not unbiased.", "quantifier": "all models, losses and data for which the operators are defined, all N, m, partitions into non-empty mini-batches, vectors and matrices", "why_tests_cant": "means over all selections of data are exponentially large sums, and sampling them only gives confidence intervals", "anchors": ["curvlinops/_torch_base.py:526-578", "curvlinops/hessian.py:45-84", "curvlinops/ggn.py:47-78", "curvlinops/gradient_moments.py:114", "curvlinops/kfac.py: _compute_kfac"]}
{"id": "C109", "title": "Natural gradients and Fisher-weighted averaging with damped inverses", "statement": "For an exported operator with symmetric positive semi-definite matrix M and damping delta > 0, the sum GGN + damping of the documentation's example programs multiplies vectors and matrices with M + delta I (ValueError if the shapes differ). CGInverseLinearOperator of the sum, with a CG of tolerance tau, returns for a vector g a vector whose distance to the only solution of (M + delta I) x = g is at most tau/delta times the norm of g; if g is a gradient and tau < delta/(l + delta) for an upper bound l of M's eigenvalues, small steps against it decrease the function. With the scale that the example computes from the largest eigenvalue, NeumannInverseLinearOperator converges to the same solution. Fisher-weighted averaging of any positive number of models returns, up to an error of tau/delta times the norm of sum_t F_t theta_t, the only minimizer of sum_t (theta - theta_t)^T F_t (theta - theta_t) + delta |theta|^2, and its value exceeds the minimum at most by tau^2/delta times the squared norm. Without tasks IndexError is raised, for Fishers of different dimensions ValueError, and exceptions of products are passed on. Every exported GGN, on any data and mini-batches, satisfies the requirements.", "quantifier": "every operator with a symmetric positive semi-definite matrix, in particular every GGN; all vectors, dampings, tolerances, numbers of tasks, settings of CG", "why_tests_cant": "The examples only check one network by comparing plots and losses; that the returned parameters are close to the minimizer for every network, damping and tolerance needs a proof.", "anchors": ["docs/examples/basic_usage/example_inverses.py", "docs/examples/basic_usage/example_model_merging.py", "curvlinops/inverse.py: CGInverseLinearOperator", "curvlinops/inverse.py: NeumannInverseLinearOperator", "curvlinops/_torch_base.py: to_scipy"]}
{"id": "C110", "title": "Power iteration of the documentation's example", "statement": "power_method of the documentation's example on eigenvalues, called with an operator that multiplies vectors with a symmetric matrix M: after orthonormal eigenvectors have been found, one search from a random vector is determined by the Rayleigh quotients of x, Mx, M^2 x, ..., where x is the part of the random vector orthogonal to the vectors found. It stops at the first iteration whose quotient differs relatively by less than tol from the one before, and returns the quotient of the iteration before; otherwise it makes max_iterations products. All quotients lie between the extreme eigenvalues, and for positive semi-definite M they never decrease. If one eigenvalue is largest in magnitude among the remaining ones and the random vector is not orthogonal to its eigenspace, then with tol <= 0 the returned value converges to it and the returned unit vector becomes its eigenvector when max_iterations grows, and with tol > 0 the search stops by itself. At most k * max_iterations products are made, k values are returned, only exceptions of products are raised, and asking for more eigenpairs keeps the earlier ones. Documented as well: eigenvalues in descending order and eigenvectors in the columns of an array of shape [D, k].", "quantifier": "every exported operator with a symmetric matrix, all random vectors, tolerances, numbers of iterations and of eigenpairs", "why_tests_cant": "The example compares the top eigenvalue of one small network with eigsh; convergence, stopping and monotonicity are statements about all operators and all numbers of iterations.", "anchors": ["docs/examples/basic_usage/example_eigenvalues.py: power_method", "curvlinops/_torch_base.py: to_scipy"]}
{"id": "C111", "title": "Symmetries of the losses", "statement": "Changing predictions and labels in a way that the loss does not notice changes nothing that is computed: adding the same number to all logits of CrossEntropyLoss (the number may depend on datum and parameters), reordering the outputs (with their labels) for all three losses, multiplying predictions and labels of MSELoss with an orthogonal matrix, and exchanging binary classes while negating their logits for BCEWithLogitsLoss. The products with the Hessian, the GGN and the empirical Fisher, and the result of gradient_and_loss, are equal. So are the products with the Monte-Carlo Fisher for corresponding draws, and corresponding draws have exactly the distribution that is sampled after the change; for shifted logits and a generator that depends on the probabilities only, the same seed gives the same products. All Kronecker factors of KFAC are equal, for type-2, Monte-Carlo, empirical and forward-only, expand and reduce.", "quantifier": "all losses, every change of this kind (another one for each loss term), data, mini-batches, Jacobians, layers and vectors", "why_tests_cant": "Tests compare operators with reference matrices on fixed networks and labels; none compares two networks that differ by such a change, and the changes form continuous groups.", "anchors": ["curvlinops/ggn.py: GGNLinearOperator._matmat_batch", "curvlinops/hessian.py: HessianLinearOperator._matmat_batch", "curvlinops/fisher.py: FisherMCLinearOperator.sample_grad_output", "curvlinops/gradient_moments.py: EFLinearOperator._matmat_batch", "curvlinops/kfac_utils.py: loss_hessian_matrix_sqrt", "curvlinops/kfac.py: KFACLinearOperator._compute_loss_and_backward"]}
{"id": "C112", "title": "KFAC under linear changes of layer inputs and outputs", "statement": "Take a sequential network and change it layer by layer without changing what it computes: the inputs of a layer are multiplied with a matrix (and shifted, if weight and bias are treated jointly), its outputs are multiplied with a matrix before they enter the rest of the network, and weight and bias are replaced such that the predictions are the same; standardizing inputs is an example. With T the matrix of the map from new to old parameters, KFAC on the new network is T^T KFAC T, for type-2, Monte-Carlo (same draws) and empirical, expand and reduce, joint and separate treatment; for forward-only if the outputs are multiplied with orthogonal matrices (for a network with one weight whose output is multiplied with a number other than 1 and -1, this fails). Gradients of the loss transform with T^T as well. If the matrices are invertible and the Kronecker factors positive definite, the undamped KFACInverseLinearOperator transforms with the inverse, and both networks predict the same after a step of any length along the preconditioned gradient. With damping this fails: for a network with one weight whose input is doubled, the damped inverses do not correspond, for any positive damping.", "quantifier": "all sequential networks, layers, changes of this kind, parameters, data and mini-batches, loss functions (in the gradients), vectors, step sizes and dampings (for the limit)", "why_tests_cant": "Tests compare KFAC on fixed networks with a GGN or with other settings; none compares two networks that compute the same function, and the changes form continuous groups.", "anchors": ["curvlinops/kfac.py: KFACLinearOperator._compute_kfac", "curvlinops/kfac.py: KFACLinearOperator._hook_accumulate_input_covariance", "curvlinops/kfac.py: KFACLinearOperator._accumulate_gradient_covariance", "curvlinops/kfac.py: KFACLinearOperator._matmat", "curvlinops/inverse.py: KFACInverseLinearOperator._matmat", "curvlinops/inverse.py: KFACInverseLinearOperator._compute_damping"]}
{"id": "C113", "title": "The error of KFAC inside a block is a covariance", "statement": "Take a sequential network where each layer is evaluated in the setting of its approximation (expand: every position has its own loss term; reduce: all positions influence the only loss term in the same way; layers evaluated once per datum with one loss term are in both). For every pair of entries of a block (weight, bias, or both jointly), the entry of the GGN minus the entry of type-2 KFAC is the covariance, over all evaluations of the layer in the data, of the loss's curvature in the layer's output and the product of the layer's inputs; the same for the empirical Fisher and empirical KFAC. Hence KFAC's entry is the average over all pairs of evaluations of the curvature of one with the input of the other, the squared Frobenius norm of the error is at most the product of the two variances, the traces differ by the covariance of the curvature's trace and the input's squared norm, and there is no error if all curvatures or all inputs' outer products agree. Separately treated biases therefore are always exact. For z = theta x, prediction z^2/2 and two data, KFAC is theta^2 (x^2 + x'^2)^2 while the GGN is 2 theta^2 (x^4 + x'^4).", "quantifier": "all sequential networks, layers, parameters, data sets and splits into mini-batches, loss functions and reductions, both approximations, joint and separate treatment of weight and bias, all entries", "why_tests_cant": "Tests only check the cases in which KFAC is exact (deep linear networks with the square loss, or a single datum); how large the error is for other networks and data is untested, and it depends on real-valued data.", "anchors": ["curvlinops/kfac.py: KFACLinearOperator._compute_kfac", "curvlinops/kfac.py: KFACLinearOperator._hook_accumulate_input_covariance", "curvlinops/kfac.py: KFACLinearOperator._accumulate_gradient_covariance", "curvlinops/kfac.py: KFACLinearOperator._matmat", "curvlinops/ggn.py: GGNLinearOperator._matmat_batch"]}
{"id": "C114", "title": "Distance of KFAC and its inverse from the block-diagonal GGN", "statement": "Take a sequential network where each layer is evaluated in the setting of its approximation (as in C113). The squared Frobenius distance of type-2 KFAC from the GGN with all entries between different blocks set to zero is at most the sum over the blocks of the variance of the loss's curvature in the layer's output times the variance of the products of the layer's inputs; the same for empirical KFAC and the empirical Fisher. With exact damping delta > 0, the product of KFACInverseLinearOperator with any vector g differs from the solution of the block-diagonal GGN plus delta times identity with right-hand side g, which exists, by at most the square root of that sum divided by delta^2, times the norm of g. The bound for the distance is attained.", "quantifier": "all sequential networks in the setting, losses, data, batches, parameters, joint and separate treatment of biases, all dampings and vectors", "why_tests_cant": "Tests compare KFAC with the GGN only where both are equal; how far they can be apart otherwise is a statement about all networks and data.", "anchors": ["curvlinops/kfac.py: KFACLinearOperator._compute_kfac", "curvlinops/kfac.py: KFACLinearOperator._hook_accumulate_input_covariance", "curvlinops/kfac.py: KFACLinearOperator._accumulate_gradient_covariance", "curvlinops/kfac.py: KFACLinearOperator._matmat", "curvlinops/inverse.py: KFACInverseLinearOperator._matmat", "curvlinops/inverse.py: KFACInverseLinearOperator._compute_inverse_factors"]}
{"id": "C115", "title": "How inverses of KFAC with different dampings compare", "statement": "Write E <= E' if v.Ev <= v.E'v for all vectors v (then also all diagonal entries). For the same KFAC operator, the inverse gets smaller in this sense if damping grows: with exact damping, with larger dampings of both factors, and with the heuristic if damping or min_damping grows. The inverse with damped factors is at most the inverse with exact damping delta, if delta is at most the product of the two dampings for layers with weights and at most the damping of the gradient covariance for blocks of biases: both factors damped with delta against exact damping delta^2 (biases joint with weights, or delta <= 1), and the heuristic with delta against exact damping with the same delta (biases joint with weights, positive mean eigenvalues), whatever min_damping is. With biases treated separately the last one is false: the heuristic can damp the bias's block less than exact damping does.", "quantifier": "all KFAC operators with new state, all dampings and all vectors", "why_tests_cant": "The order is a statement about all vectors and all positive dampings; tests compare each inverse with a reference at a few dampings and never one way of damping with another.", "anchors": ["curvlinops/inverse.py: KFACInverseLinearOperator._compute_damping", "curvlinops/inverse.py: KFACInverseLinearOperator._damped_cholesky", "curvlinops/inverse.py: KFACInverseLinearOperator._separate_left_and_right_multiply", "curvlinops/inverse.py: KFACInverseLinearOperator._compute_inverse_factors", "curvlinops/inverse.py: KFACInverseLinearOperator._matmat"]}
{"id": "C116", "title": "KFAC depends on the first dimension of the tensors a layer sees", "statement": "Claim: two networks that map the same vectors by the same linear layers have the same KFAC factors, however the layers' tensors arrange these vectors in the dimensions before the last, and the factors do not depend on the mini-batches. It holds if the batch is the first dimension everywhere, and for KFAC-expand if the first dimension has the size of the batch in every batch. Otherwise it fails, because the hooks take the first dimension of the tensor for the batch: if it is rho times the batch size, the input covariance of KFAC-expand is rho times as large, and the gradient covariance rho^2 times (reduction mean) or unchanged (sum); products are multiplied by rho^3 (mean) or rho (sum and FORWARD_ONLY), those for separately treated biases by rho^2 or 1. So merging R positions of a sequence into the batch before a layer multiplies its products by R^3, and with sequence-first tensors the factors depend on the mini-batches. With all positions merged, KFAC-reduce is KFAC-expand. With sequence-first tensors, KFAC-reduce adds the gradients of different data before it takes outer products, and can be zero when the gradients are not.", "quantifier": "all layers, layouts (batch first, R positions merged into the batch, sequence first), data, mini-batches and options of KFAC", "why_tests_cant": "All test networks have the batch as first dimension of every layer's tensors; the scale is a statement about all layouts, batch sizes and options.", "anchors": ["curvlinops/kfac.py: KFACLinearOperator._accumulate_gradient_covariance", "curvlinops/kfac.py: KFACLinearOperator._hook_accumulate_input_covariance", "curvlinops/kfac.py: KFACLinearOperator._compute_kfac", "curvlinops/kfac.py: KFACLinearOperator._matmat"]}
{"id": "C117", "title": "What adding data does to the curvature", "statement": "If data are added to the data set, the quadratic forms v.Gv of the GGN, the empirical Fisher and (same seed and device, data added at the end) the Monte-Carlo Fisher cannot decrease with reduction sum; with reduction mean, they are at least N/N' times what they were (N and N' the numbers of data). KFAC is different, since the input covariance is always normalized by the number of data: its quadratic forms are at least N/N' times what they were with reduction sum and for FORWARD_ONLY, and (N/N')^2 times with reduction mean; these factors are sharp, for a datum with zero layer inputs and zero derivatives in a layer without jointly treated bias. So adding a datum can halve KFAC with reduction sum, while it never decreases the matrices that KFAC approximates.", "quantifier": "all supported losses, reductions, data sets, added data, parameter shapes, batchings; KFAC: all networks, Fisher types and approximations", "why_tests_cant": "Tests compare operators on one data set with reference matrices; monotonicity is a statement about all pairs of data sets and all vectors.", "anchors": ["curvlinops/_torch_base.py: CurvatureLinearOperator._matmat", "curvlinops/ggn.py: GGNLinearOperator._matmat_batch", "curvlinops/gradient_moments.py: EFLinearOperator._matmat_batch", "curvlinops/fisher.py: FisherMCLinearOperator._matmat_batch", "curvlinops/kfac.py: KFACLinearOperator._compute_kfac", "curvlinops/kfac.py: KFACLinearOperator._hook_accumulate_input_covariance"]}
{"id": "C118", "title": "The eigenvalues of KFAC and its inverses", "statement": "The matrix that KFAC's products use has an orthonormal basis of eigenvectors. Its eigenvalues, with multiplicities, are the products beta_i alpha_j of the eigenvalues of the gradient and input covariance of each layer with a weight, and the beta_i of each bias that is treated separately; they are nonnegative and unique. Hence all quadratic forms lie between the smallest and the largest of these numbers, both are attained, and the properties trace, det and frobenius_norm are their sum, product and the root of the sum of their squares. The inverse with exact damping delta has the eigenvalues 1/(beta_i alpha_j + delta) and 1/(beta_i + delta); the inverse with damped factors has 1/((beta_i + b)(alpha_j + a)) and 1/(beta_i + b), with the dampings a, b of the layer, whether given or from the heuristic.", "quantifier": "all layers, parameter orders and shapes, Fisher types, approximations, reductions, data, joint or separate biases, positive dampings", "why_tests_cant": "Tests compare products and scalars of a few networks with dense matrices; the spectrum is a statement about all vectors, layers and factors.", "anchors": ["curvlinops/kfac.py: KFACLinearOperator._matmat", "curvlinops/kfac.py: KFACLinearOperator.trace", "curvlinops/kfac.py: KFACLinearOperator.det", "curvlinops/kfac.py: KFACLinearOperator.frobenius_norm", "curvlinops/inverse.py: KFACInverseLinearOperator._matmat", "curvlinops/inverse.py: KFACInverseLinearOperator._compute_inverse_factors"]}
{"id": "C119", "title": "Removing eigenpairs with OuterProductLinearOperator", "statement": "For a symmetric operator A with matrix M and any orthonormal eigenpairs (lambda_j, v_j), A - OuterProductLinearOperator(lambdas, vs) multiplies 1d arrays with M - sum_j lambda_j v_j v_j^T. Its eigenvalues, with multiplicities, are those of M in which exactly the removed ones are replaced by zeros. Consequences: without the largest eigenvalues all quadratic forms are at most the next one or zero; boundaries of the original spectrum are boundaries of the deflated one if and only if they enclose zero; Hutchinson's estimate of the trace on the deflated operator plus the removed eigenvalues is unbiased for the original trace, and its variance with normal vectors is smaller by twice the sum of their squares; the Lanczos density of the deflated operator estimates the smoothed density of these eigenvalues, and raises if there are more Lanczos vectors than different ones. For orthonormal vectors that are not eigenvectors, the product with each of them is its residual. Eigenvectors of another dimension are refused; products with 2d arrays raise.", "quantifier": "all symmetric operators (in particular exported Hessians), numbers of removed eigenpairs, vectors, estimator draws, Lanczos settings", "why_tests_cant": "The documentation's example removes the top eigenvalues of one random matrix and shows a plot; the claim is about all matrices, eigenpairs and vectors.", "anchors": ["curvlinops/outer.py: OuterProductLinearOperator._matvec", "curvlinops/papyan2020traces/spectrum.py: lanczos_approximate_spectrum", "curvlinops/trace/hutchinson.py: HutchinsonTraceEstimator.sample"]}
{"id": "C120", "title": "How the eigenvalues of different operators compare", "statement": "With eigenvalues in decreasing order and counted with multiplicities: the eigenvalues of SubmatrixLinearOperator(A, idxs, idxs) with distinct indices in any order, for a symmetric A, interlace with those of A. The same holds for the Hessian, the GGN, the empirical and (with equal seeds) the Monte-Carlo Fisher constructed on some of the parameters instead of all. Adding data, every eigenvalue of the GGN and of the Fishers at its place cannot decrease for reduction sum, and its product with the number of data cannot decrease for reduction mean; for KFAC it decreases at most by the ratio of the numbers of data, or its square. The sum of the squared differences between the eigenvalues of KFAC (type-2 or empirical) and those of the block-diagonal GGN or empirical Fisher is at most the error bound of C114, and this bound is attained.", "quantifier": "all symmetric operators, index lists, parameter selections, data sets and additional data, sequential networks with settings of C114", "why_tests_cant": "Interlacing and perturbation bounds are statements about all matrices; tests do not look at eigenvalues of sub-matrices or of KFAC at all.", "anchors": ["curvlinops/submatrix.py: SubmatrixLinearOperator._matvec", "curvlinops/hessian.py: HessianLinearOperator._matmat_batch", "curvlinops/ggn.py: GGNLinearOperator._matmat_batch", "curvlinops/gradient_moments.py: EFLinearOperator._matmat_batch", "curvlinops/fisher.py: FisherMCLinearOperator._matmat_batch", "curvlinops/kfac.py: KFACLinearOperator._matmat"]}
{"id": "C121", "title": "How far the Monte-Carlo Fisher is from the GGN", "statement": "If the labels are independent draws from the model's predictive distributions, the mean of the squared Frobenius norm of the difference between the matrices of FisherMCLinearOperator and GGNLinearOperator is weight^2 / mc_samples times a sum over all loss terms, where a term contributes the mean of |g|^4 over its would-be gradients g minus the squared Frobenius norm of J^T H J: 4 (tr(K)^2 + tr(K^2)) with K = J J^T for MSELoss, a sum over the classes for CrossEntropyLoss. The norm is at least eps with probability at most this mean divided by eps^2. The average of the matrices of R operators with mc_samples each, whose seeds give independent labels, is the matrix with all these labels, and has the mean squared residual of R * mc_samples samples. The sorted eigenvalues of the Monte-Carlo Fisher are close to those of the GGN: the mean sum of squared differences is at most the mean squared residual, with the same probability bound for each eigenvalue.", "quantifier": "all models, data sets, mini-batches, the three losses, both reductions, numbers of samples and of seeds, generators with independent labels", "why_tests_cant": "A test sees single outcomes of the generator and compares with loose tolerances; the mean over all outcomes, its exact decay and closed form cannot be observed.", "anchors": ["curvlinops/fisher.py: FisherMCLinearOperator._matmat_batch", "curvlinops/fisher.py: FisherMCLinearOperator.sample_grad_output", "curvlinops/ggn.py: GGNLinearOperator._matmat_batch", "docs/examples/basic_usage/example_fisher_monte_carlo.py: residual_norms, F_accumulated"]}
{"id": "C122", "title": "Blocks of the Hessian", "statement": "For parameters with at least one entry, the product of the exported Hessian operator with the identity matrix is the dense Hessian, and extract_block(mat, params, i, j) with 0 <= i, j < len(params) takes from it (and from the matrix of functorch_hessian) the second derivatives of the empirical risk with respect to params[i] and params[j]. The same block results from multiplying SubmatrixLinearOperator on the index ranges of the two parameters with the identity, and for i = j from the Hessian operator that is built on [params[i]] only. Block (j, i) is the transpose of block (i, j). With block_sizes, block (i, j) is the block of second derivatives if the two parameters are in the same group and zero otherwise. Negative positions count from the end, except that position -1 gives an array without rows (for i) or columns (for j). For a second parameter without entries the product of the sub-matrix operator raises ValueError.", "quantifier": "all models with twice differentiable losses, data sets, mini-batches, parameter shapes, groups of parameters, pairs of positions", "why_tests_cant": "The example compares the off-diagonal block with itself, and checks single networks, pairs of parameters and floating-point numbers; all shapes, groups and pairs cannot be enumerated.", "anchors": ["docs/examples/basic_usage/example_submatrices.py: extract_block", "curvlinops/submatrix.py: SubmatrixLinearOperator", "curvlinops/hessian.py: HessianLinearOperator", "curvlinops/_torch_base.py: PyTorchLinearOperator.to_scipy", "curvlinops/examples/functorch.py: functorch_hessian"]}
{"id": "C123", "title": "Arguments of the wrong size", "statement": "The methods matvec, rmatvec, matmat and rmatmat of an exported operator raise ValueError for arrays whose shape is none of the accepted ones ((n,) and (n, 1) for vectors, (n, k) for matrices), for all operators and all arrays of numbers. SciPy operators @ a vector or matrix with the wrong number of entries or rows raises ValueError, whatever the operator computes. SubmatrixLinearOperator has as many rows and columns as its index lists have positions, and raises ValueError for arguments of other sizes in products. No such argument is broadcast or truncated.", "quantifier": "all operators, exported operators, sub-matrix operators, index lists, vectors and matrices of the wrong size", "why_tests_cant": "The tests call operators with arguments of the right size only; all wrong sizes for all operators cannot be enumerated.", "anchors": ["curvlinops/_torch_base.py: PyTorchLinearOperator.to_scipy", "curvlinops/submatrix.py: SubmatrixLinearOperator"]}
{"id": "C124", "title": "State dict of KFAC on other parameters", "statement": "KFACLinearOperator.load_state_dict with the state of an operator on other parameters of the same network raises ValueError, or later products and properties raise an exception: the operator never returns the trace, determinant, norm or shape of a matrix on other parameters. In particular, an operator on the weight only does not accept the factors of an operator that treats weight and bias jointly, and conversely.", "quantifier": "all layers with weight and bias, joint treatment, all factors, vectors and matrices, operators with and without cached properties", "why_tests_cant": "The tests load states into operators on the same parameters; wrong values without an exception show up only when the parameters differ and the right value is known.", "anchors": ["curvlinops/kfac.py: KFACLinearOperator.load_state_dict", "curvlinops/kfac.py: KFACLinearOperator._matmat", "curvlinops/kfac.py: KFACLinearOperator.trace"]}
{"id": "C125", "title": "What block_sizes does to the eigenvalues of the Hessian", "statement": "Let one value of block_sizes divide the parameters of HessianLinearOperator into groups, and let a second one divide these groups further. The eigenvalues of the second operator have the same sum as those of the first; for every k the sum of the k largest ones is at most as large; every interval that contains the eigenvalues of the first operator contains those of the second; and for every convex function the sum over the eigenvalues is at most as large. So against the full Hessian: no eigenvalue outside the range of the Hessian's eigenvalues, the sum of squares decreases by the squares of the entries set to zero, positive semi-definiteness is kept and the determinant is at least as large, and for positive definite Hessians the trace of the inverse is at most as large.", "quantifier": "all models with twice differentiable losses, data sets, mini-batches, parameter shapes, and pairs of groupings of the parameters where one refines the other", "why_tests_cant": "Inequalities between eigenvalues of two operators for all networks, data sets and groupings; tests compare products of single operators with a reference.", "anchors": ["curvlinops/hessian.py: HessianLinearOperator", "curvlinops/_torch_base.py: PyTorchLinearOperator.__init__"]}
{"id": "C126", "title": "Eigenvalues of KFAC and of the GGN where KFAC is exact inside its blocks", "statement": "For a sequential network that is affine after each layer with MSELoss, in the setting of the chosen approximation (expand or reduce), and for all sequential networks and supported losses on a single datum with one loss term if every layer is evaluated at one position, the eigenvalues of type-2 KFACLinearOperator are averages of the eigenvalues of GGNLinearOperator on the same data: the same number, the same sum, for every k a sum of the k largest ones that is at most as large, all in the same range, and for every convex function a sum that is at most as large; on a single datum the same holds for empirical KFAC and EFLinearOperator. Hence, with damping delta on both, KFAC's determinant and effective dimension (sum of lambda/(lambda+delta)) are at least as large and the trace of its inverse is at most as large.", "quantifier": "all sequential networks of the setting, parameters, inputs, mini-batches, joint and separate treatment of weight and bias, reductions, and damping values", "why_tests_cant": "Tests compare KFAC with a block-diagonal GGN product; inequalities between the eigenvalues of KFAC and of the full GGN for all networks and data are not checked.", "anchors": ["curvlinops/kfac.py: KFACLinearOperator", "curvlinops/ggn.py: GGNLinearOperator", "curvlinops/gradient_moments.py: EFLinearOperator"]}
{"id": "C127", "title": "Eigenvalues on randomly selected data and on mini-batches", "statement": "Select m of N data at random so that no datum is preferred, or take the mini-batches of a data loader (of equal sizes for reduction mean). The mean of the traces of the Hessian (all block sizes), GGN or empirical Fisher on the selected data is the trace on all data (with reduction sum after multiplication with N/m, or the number of mini-batches), but the other eigenvalues are exaggerated: the mean of the largest eigenvalue, and of the sum of the k largest ones, is at least that on all data, the mean of the smallest is at most that on all data, and the mean of the sum of a convex function is at least that on all data. For the GGN and the empirical Fisher with damping, the mean trace of the inverse is too large, and the mean of log det and of the effective dimension are too small. The difference is not small in general: there are two data whose GGN is the identity, while the GGN on each of them has the eigenvalues 2 and 0.", "quantifier": "all models with twice differentiable losses (Hessian) or supported losses (GGN, EF), data sets, numbers m, selections without preference, divisions into mini-batches, damping values", "why_tests_cant": "Statements about means over all selections and about eigenvalues of operators for all data; tests use one data set and compare products.", "anchors": ["curvlinops/_torch_base.py: CurvatureLinearOperator._matmat", "curvlinops/ggn.py: GGNLinearOperator", "curvlinops/hessian.py: HessianLinearOperator", "curvlinops/gradient_moments.py: EFLinearOperator"]}
{"id": "C128", "title": "Eigenvalues of the Monte-Carlo Fisher in the mean", "statement": "If the labels are independent draws from the model's predictive distributions, then for every number of samples the mean trace of FisherMCLinearOperator is the trace of GGNLinearOperator, but its spectrum is biased: for every k, the mean of the sum of its k largest eigenvalues is at least the sum of the k largest eigenvalues of the GGN. With damping delta, the mean trace of its inverse is at least that of the GGN, and the means of its effective dimension (sum of lambda/(lambda+delta)) and of log det(1 + F/delta) are at most those of the GGN.", "quantifier": "all models and data with MSELoss, CrossEntropyLoss or BCEWithLogitsLoss with binary targets, mini-batches, reductions, mc_samples, damping values, and random generators with independent draws", "why_tests_cant": "Tests compare averages of matrices for many samples; the bias of eigenvalues and of functions of eigenvalues in the mean over all draws cannot be observed from samples.", "anchors": ["curvlinops/fisher.py: FisherMCLinearOperator", "curvlinops/ggn.py: GGNLinearOperator"]}
{"id": "C129", "title": "Jacobians refuse a wrong num_data and outputs of different shapes", "statement": "If num_data is not the number of data points, or if the model's outputs on two mini-batches differ in the dimensions after the first one, products of JacobianLinearOperator and of TransposedJacobianLinearOperator raise. Part that holds: the Jacobian raises ValueError for every wrong num_data and RuntimeError for outputs of different shapes; the transposed Jacobian raises RuntimeError for outputs of different shapes and if num_data is less than the number of data points. Part that does not: if num_data is larger than the number of data points, the transposed Jacobian multiplies without an exception and ignores the entries of its argument that come after those of the data. The reference implementations raise RuntimeError for mini-batches of labels whose shapes differ after the first dimension.", "quantifier": "all models, parameters, mini-batches, num_data, vectors and matrices with at least one column in both formats", "why_tests_cant": "tests pass the correct num_data and models whose outputs have one shape; the exceptions range over all sizes", "anchors": ["curvlinops/jacobian.py:77-114", "curvlinops/jacobian.py:208-239", "curvlinops/_torch_base.py:256-294", "curvlinops/examples/functorch.py:320-351"]}
{"id": "C130", "title": "The visual tour of the documentation shows the layers of the model", "statement": "For the example program that shows curvature matrices: the constructor of the Hessian accepts the block sizes that the program computes exactly if all parameters require gradients, and raises ValueError otherwise. If all parameters require gradients, the matrix computed as H.to_scipy() @ eye is the matrix of second derivatives of the empirical risk, that of the blocked Hessian has the same entries between the boundaries of each child of the model and zeros elsewhere, and that of KFAC has zeros outside of the boundaries, for both treatments of the bias. The program draws lines exactly after the coordinates whose successor belongs to another child, and one label in the middle of each child that has entries, in increasing order.", "quantifier": "all models that are sequences of children with any number of parameters of any shapes, data sets, mini-batches, both reductions, KFAC factors, data types", "why_tests_cant": "the example runs one network without frozen parameters; whether block sizes, boundaries and labels fit together is a statement about all architectures, including children without parameters", "anchors": ["docs/examples/basic_usage/example_visual_tour.py:66-71", "docs/examples/basic_usage/example_visual_tour.py:93-104", "docs/examples/basic_usage/example_visual_tour.py:163-175", "curvlinops/hessian.py:45-84", "curvlinops/_torch_base.py:463-478", "curvlinops/kfac.py:335-397"]}
{"id": "C131", "title": "Rounding errors of KFAC's factors", "statement": "Let u be the unit round-off of the tensors and u' that of a Python float, and let the layer inputs (or output gradients) that the hooks see have relative error at most eta with respect to given bounds. Whatever the order of the additions in einsum and reduce, every entry of the computed input factor differs from that of the exact factor by at most ((1+eta)^2 (1+u)^k - 1) times the entry of the factor of the bounds, with k = B S + n (expand) or 2 S + B + n (reduce) for n mini-batches of at most B data and S positions; every entry of the gradient factor by at most ((1+eta)^2 (1+u') (1+u)^k - 1) times that of the bounds, with k = B S + 1 + n P (expand) or 2 (S-1) + B + 1 + n P (reduce) for P backward passes. For exact inputs and k u <= 1/2 the first is at most 2 k u. The computed factors are exactly symmetric, and those of FORWARD_ONLY are exact identities. Entries of the Kronecker product have relative error (1+e_G)(1+e_A) - 1. A computed factor plus damping is positive definite if the damping exceeds the relative error times the trace of the factor of the bounds; without damping a computed factor need not be positive semi-definite (float32, one datum).", "quantifier": "all layers, data, mini-batches, both approximations, all Fisher types, reductions, numbers of Monte-Carlo samples, roundings, and orders of summation", "why_tests_cant": "tests compare with tolerances on a few small networks; how the error grows with data, positions and backward passes, and from which damping on Cholesky factors exist, needs a proof for all sizes", "anchors": ["curvlinops/kfac.py:399-440", "curvlinops/kfac.py:487-541", "curvlinops/kfac.py:627-665", "curvlinops/kfac.py:667-722"]}
{"id": "C132", "title": "Rounding errors of products with KFAC", "statement": "Compute KFAC's factors and products in floating point with unit round-off u, with sums inside einsum in any order. The computed loop over the mapping raises the same exceptions as in exact arithmetic, for factors and arguments of any sizes. If the computed factors have relative errors e_A and e_G with respect to factors of bounds (C131), then for factors with at most p and q rows every entry of the computed product K X differs from that of M X, with M KFAC's matrix in exact arithmetic, by at most ((1+e_A)(1+e_G)(1+u)^(p+q) - 1) times the entry of M' |X|, where M' is the KFAC matrix of the bounds. In particular y.(Kx) and x.(Ky) differ by at most this error times |y|.M'|x| + |x|.M'|y|, and x.(Kx) is at least minus the error times |x|.M'|x|.", "quantifier": "all networks, data, mini-batches, KFAC options, arguments with any number of columns, roundings, and orders of summation", "why_tests_cant": "tests compare products with tolerances on small networks; how the error grows with the sizes of the layers, and that the joint and separate treatment of biases have the same error, needs a proof for all sizes", "anchors": ["curvlinops/kfac.py:335-397", "curvlinops/kfac.py:399-440"]}
{"id": "C133", "title": "Errors of KFAC's factors and the inverse of KFAC", "statement": "Let a KFAC operator hold factors whose entries differ from the exact ones by at most e_A and e_G times those of bounding positive semi-definite factors, for example factors that were computed in floating point (C131), and take KFACInverseLinearOperator with dampings a and b (one number or a pair, without heuristic). If a and b exceed e_A and e_G times the traces of the bounds, then the damped computed factors are positive definite, and the operator multiplies with the inverse of their Kronecker matrix. Let c <= a b (and c <= b if biases have blocks of their own), and let eps < c be at least (1+e_A)(1+e_G) - 1 times the Frobenius norm of the damped KFAC matrix of the bounds. Then for every vector the product with this inverse differs from the product with the inverse of the exact KFAC operator by at most eps / (c - eps) times the Euclidean norm of the latter.", "quantifier": "all networks, data, mini-batches, KFAC options, dampings, vectors, roundings and orders of summation; all correct linear algebra routines", "why_tests_cant": "whether errors of the factors are amplified by the inversion depends on the damping and cannot be read off from finitely many networks", "anchors": ["curvlinops/inverse.py:407-419", "curvlinops/inverse.py:421-490", "curvlinops/inverse.py:620-663", "curvlinops/kfac.py:399-440"]}
{"id": "C134", "title": "Rounding errors of KFAC's trace and frobenius_norm", "statement": "Compute KFAC's factors and the properties trace and frobenius_norm in floating point with unit round-off u, with sums inside torch in any order. The loops raise the same exceptions as in exact arithmetic. Let e_A and e_G be the relative errors of the factors with respect to factors of bounds (C131), p and q bounds on their numbers of rows, P the number of parameters, M KFAC's matrix in exact arithmetic and M' that of the bounds. The computed trace differs from tr M by at most ((1+e_A)(1+e_G)(1+u)^(p+q+P) - 1) tr M'. If there is a layer, u <= 1, and (1+u)^(p^2) and (1+u)^(q^2) are at most 2, the computed sum of squares is not negative, so that frobenius_norm is not nan, and the computed f satisfies |f - |M|_F| |M|_F <= (((1+e_A)(1+e_G))^2 (1+u)^(p^2+q^2+P+1) - 1) |M'|_F^2.", "quantifier": "all networks, data, mini-batches, KFAC options, roundings, and orders of summation", "why_tests_cant": "tests compare with the dense matrix with tolerances on small networks; growth of the error with the sizes of the layers and the absence of nan need a proof for all sizes", "anchors": ["curvlinops/kfac.py:766-799", "curvlinops/kfac.py:892-927"]}
{"id": "C135", "title": "Rounding errors of the Hutchinson estimators", "statement": "Compute samples of the trace, diagonal and squared Frobenius norm estimators in floating point with unit round-off u, with sums inside numpy.dot in any order, for an operator whose products with v have entries within g - 1 times those of M'|v| from those of M v, where |M| <= M' (for KFAC this is C132). Rademacher vectors are exact. For every drawn vector v, of either distribution, the sample of the trace differs from v.Mv by at most (g(1+u)^n - 1) |v|.M'|v|, that of the diagonal from v*(Mv) by (g(1+u) - 1) times |v|*(M'|v|), and that of the squared norm from |Mv|^2 by (g^2(1+u)^m - 1) |M'|v||^2. The expectations of computed Rademacher samples differ from the trace, the diagonal and the squared Frobenius norm of M by at most these factors times the sum of all entries of M', the sum of its row, and the sum of the squared row sums: rounding adds a bias of at most this size.", "quantifier": "all matrices (for the norm also non-square), all drawn vectors, roundings and orders of summation", "why_tests_cant": "a bias of the size of the rounding errors cannot be seen in averages of finitely many samples, whose statistical error is larger", "anchors": ["curvlinops/sampling.py:7-51", "curvlinops/trace/hutchinson.py:65-82", "curvlinops/diagonal/hutchinson.py:69-86", "curvlinops/norm/hutchinson.py:49-66"]}
{"id": "C136", "title": "Hutch++ with an inexact basis and with rounding errors", "statement": "HutchPPTraceEstimator whose cached vectors q_1..q_k are not exactly orthonormal and whose cached number t is not exactly sum_i q_i.Mq_i (QR and products have errors, or the operator changed since the set-up): the expectation of a sample, with Rademacher or normal vectors, is tr M + (t - sum_i q_i.Mq_i) + sum_ij (q_i.Mq_j)(q_j.q_i - [i=j]). If all q_j.q_i are within eps of orthonormality the last term is at most eps sum_ij |q_i.Mq_j|; for linearly independent vectors it vanishes for all matrices only if they are orthonormal. In floating point with unit round-off u and an operator whose products have relative accuracy g (as in C135), the set-up caches whatever QR returns and a number within (g(1+u)^(n+k) - 1) sum_i |q_i|.M'|q_i| of sum_i q_i.Mq_i; samples leave the cache unchanged, and the expectation of computed Rademacher samples differs from the trace plus the bias of the inexact basis by at most (g(1+u)^(3n+2k+3) - 1)(sum_i |q_i|.M'|q_i| + B.M'B), where B is |v|+|Q||Q^T||v| for v of ones. Exceptions of the set-up are raised by the sample, other distributions are refused.", "quantifier": "all matrices, cached vectors and numbers, drawn vectors, roundings and orders of summation", "why_tests_cant": "the bias is far below the statistical error of averages of samples, and QR is accurate on small test matrices", "anchors": ["curvlinops/trace/meyer2020hutch.py:107-152"]}
{"id": "C137", "title": "The determinism check and rounding errors", "statement": "In floating point with unit round-off u, for an operator without fixed data order: if the second traversal has the same data in another order and in other mini-batches (equally many), every mini-batch gradient has an error of at most eta times the sum of bounds a on the contributions of its data, and in every entry (2+rtol)((1+eta)(1+u)^(n-1) - 1) sum a <= atol + rtol |sum of contributions|, then the check of the constructor accepts (if the losses of the last mini-batches and the products are close). Identical traversals are accepted in any arithmetic. If the exact total gradients of the two traversals differ by more than the tolerances plus the rounding errors, it raises a RuntimeError. Between the two it may refuse deterministic operators: a float32 witness with three mini-batches whose gradients cancel, refused with the tolerances of the code when two of them are exchanged.", "quantifier": "all data, mini-batches, orders, roundings and tolerances", "why_tests_cant": "whether rounding errors exceed the tolerances depends on cancellation in the data", "anchors": ["curvlinops/_torch_base.py:693-762"]}
{"id": "C138", "title": "Deflation with inexact eigenpairs", "statement": "Removing numbers c_j and vectors v_j from a symmetric operator M (M - OuterProductLinearOperator(c, V), as in the spectral density example), where (c_j, v_j) need not be eigenpairs. (a) For any numbers and any unit vectors, Hutchinson's estimate on the deflated operator D plus sum c_j has expectation tr M, with Rademacher and with normal vectors. (b) For orthonormal vectors and normal samples the variance is that for M, 2|M|_F^2, minus 2 sum c_j (2 v_j.Mv_j - c_j); with Rayleigh quotients c_j = v_j.Mv_j the reduction is 2 sum c_j^2, and no other numbers reduce it more. (c) With R the sum of the squared residuals |M v_j - c_j v_j|^2: if the quadratic form of M on the orthogonal complement of the v_j lies in [lo, hi], all eigenvalues of D lie in [min(0,lo) - 2 sqrt R, max(0,hi) + 2 sqrt R]. (d) M has an eigenvalue within the residual of each c_j, and D has for every removed pair an eigenvalue whose absolute value is at most its residual.", "quantifier": "all symmetric matrices, numbers, orthonormal (in (a): unit) vectors", "why_tests_cant": "the eigenpairs of a Lanczos method are inexact by an amount that depends on the matrix, and the effect on expectations and eigenvalues is a statement about all matrices", "anchors": ["curvlinops/outer.py: OuterProductLinearOperator", "docs/examples/basic_usage/example_verification_spectral_density.py:217-221", "curvlinops/trace/hutchinson.py: HutchinsonTraceEstimator.sample"]}
{"id": "C139", "title": "Rounding errors of sub-matrices, outer products, projectors and deflated operators", "statement": "In floating point with unit round-off u and any order of summation, if products with an operator have accuracy g (every entry within (g-1)(M'|x|)_i of (Mx)_i): products with SubmatrixLinearOperator have the same accuracy for the sub-matrices of M and M'. OuterProductLinearOperator(c, A) with d rows and k columns has accuracy (1+u)^(d+k+1) relative to |A| diag|c| |A|^T, whichever of four contraction orders einsum chooses, also when c has one entry or A one column that NumPy stretches; Projector(A) likewise for A A^T, for any columns; products with matrices raise a ValueError as without rounding. Multiples, sums and damped operators lose one or two roundings. The deflated operator has accuracy g(1+u)^(d+k+3) relative to M' + |A| diag|c| |A|^T; eigenvectors with another number of rows are refused. The expectation of computed Rademacher estimates of Hutchinson's method on the deflated operator plus sum c_j differs from tr M by at most (g(1+u)^(2d+k+3) - 1) times the sum of the entries of M' + |A| diag|c| |A|^T plus sum_j |c_j| |1 - |v_j|^2|.", "quantifier": "all roundings, orders of summation and contraction, operators with the stated accuracy, index lists without duplicates, coefficients and columns", "why_tests_cant": "rounding errors depend on the values, on NumPy's contraction order and on the order of summation", "anchors": ["curvlinops/submatrix.py: SubmatrixLinearOperator._matvec", "curvlinops/outer.py: OuterProductLinearOperator._matvec", "docs/examples/basic_usage/example_verification_spectral_density.py:217-221"]}
{"id": "C140", "title": "Rounding errors of exported operators entry by entry, and of what is computed with them", "statement": "PyTorch's operator multiplies in the precision of the parameters with accuracy g (every entry within (g-1)(M'|x|)_i of (Mx)_i, |M| <= M'), and casts to PyTorch's and back to NumPy's type have relative errors of at most c1 and c2. Then products with to_scipy() have accuracy G = (1+c2) g (1+c1), entry by entry. For curvature operators g is 1 plus the error of the accumulation over mini-batches (C100), with M the mean or sum of the matrices of the data; for KFACLinearOperator it is that of C132. Consequently, with unit round-off u of NumPy's type: expectations of computed Rademacher estimates of the trace of the exported operator differ from tr M by at most (G(1+u)^n - 1) times the sum of the entries of M'; for a principal sub-matrix with k rows, n becomes k and the sums are over the sub-matrix; with k removed pairs of numbers and vectors, the bound of C139 holds with G; and NeumannInverseLinearOperator of the exported operator plus damping has the error of C101 for a product error of (G(1+u)^2 - 1) kappa, where kappa bounds M' + |damping| I in the norm.", "quantifier": "all operators with accurate products, precisions, roundings, orders of summation, data sets, batchings, index lists without duplicates", "why_tests_cant": "tests compare with tolerances far above the rounding errors and cannot bound them for all values and orders of summation", "anchors": ["curvlinops/_torch_base.py:300-382", "curvlinops/kfac.py:354-397", "curvlinops/trace/hutchinson.py:65-82", "curvlinops/submatrix.py: SubmatrixLinearOperator._matvec", "curvlinops/inverse.py: NeumannInverseLinearOperator._matvec"]}
{"id": "C141", "title": "Averages of samples computed in floating point", "statement": "mean([estimator.sample() for _ in range(m)]), as in the documentation of the trace and squared Frobenius norm estimators, and mean(samples, axis=0) for the diagonal estimator, in floating point with unit round-off u, for independent Rademacher vectors and an operator whose products have accuracy g relative to M'. With v the variance of an exact sample (C82) and e_m = (G(1+u)^m - 1) S, where G = g(1+u)^n and S the sum of the entries of M' for the trace, G = g(1+u) and S a row sum for an entry of the diagonal, and G = g^2(1+u)^r and S the sum of the squared row sums for the norm of a matrix with r rows: the probability that the computed mean is wrong by at least eps + e_m is at most v/(m eps^2), for all m that are representable. Almost surely, the exact averages of the computed samples eventually have errors of at most (G - 1) S + delta for every delta > 0. For operators exported with to_scipy, G contains the errors of the products and of the casts (C140). The first exception of a sample is raised.", "quantifier": "all matrices (for the norm also non-square), generators with independent fair bits, roundings, orders of summation, numbers of samples", "why_tests_cant": "tests average a fixed number of samples with one seed; the probability of large errors and the share of rounding cannot be observed", "anchors": ["curvlinops/trace/hutchinson.py:46", "curvlinops/diagonal/hutchinson.py:46-47", "curvlinops/norm/hutchinson.py:35", "curvlinops/sampling.py:7-51"]}
