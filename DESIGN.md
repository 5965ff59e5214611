# Formal model of curvlinops in Lean 4

## 1. Layout

* `lean/Verif/Model/*.lean`  – the model, function by function; each definition cites file and lines in `/repo`.
* `lean/Verif/Spec/*.lean`   – small independent specifications (dense matrices, partial derivatives, means, ...).
* `lean/Verif/Lemmas/*.lean` – helper lemmas.
* `lean/Verif/Props/*.lean`  – the property theorems, with concrete non-trivial examples (`example`) in the same module or in one that imports it.
* `MANIFEST.json`            – property -> theorem names and status.
* `seeded/LOG.jsonl`         – record of seeded bugs used to test the theorems.
  `survived` is `false` if a proof failed, `true` if everything still built (then `theorems_tightened` or `note` says what
  followed), and `null` if the edited definition itself was refused by the type checker, so that no theorem was tested. A
  failed proof may be that of an auxiliary lemma or an example: it shows that the edit was noticed, not which claim it breaks;
  for edits generated by a script the claim is then given as not determined.

## 2. Modelling decisions

* **Python values.** Functions return `Except PyErr a`; a raised exception is a value. Stateful code is
  `State -> Except PyErr a x State`, so the state that an exception leaves behind is visible (crash points).
* **Tensors.** A tensor is a shape (list of naturals) and its row-major list of entries. `reshape`, `unsqueeze`,
  `squeeze`, `split`, `cat`, `[..., n]` act on these two lists. Strides, views, dtypes and devices are not modelled
  except where a property is about them (C06 aliasing, C23 dtype, C27 device).
* **Numbers.** Exact arithmetic in a field or in the reals. Floating point rounding, overflow, inf and NaN are not
  modelled, except abstractly in C48 (NaN check, arbitrary arithmetic), C43 (division by zero is made explicit), and
  C100, C101 (accumulation over mini-batches and Neumann series in the standard model of floating point arithmetic:
  relative error per operation, no overflow or underflow).
* **Autograd and BackPACK.** `grad`, `hessian_vector_product`, `ggn_vector_product_from_plist`, `jvp`, `vjp` are
  taken at their mathematical meaning: Mathlib's `fderiv` in the analysis layer, multiplication by the matrix of
  (second) partial derivatives in the tensor-plumbing layer. Except in C93, every differentiated quantity is assumed to
  depend on every parameter (or activation) it is differentiated by; otherwise `grad` raises `RuntimeError` (unused
  parameters, tensors that do not require gradients).
* **External code as parameters.** SciPy's `cg`, `lsmr`, `eigsh`, NumPy's `qr`, torch's `linalg.eigh`, `cholesky`,
  `cholesky_inverse`, random generators, the user's data loader, model and hooks are parameters of the model;
  theorems quantify over them, with their contracts as explicit hypotheses where they are needed.
* **Losses** are the formulas of PyTorch's documentation for `MSELoss`, `CrossEntropyLoss` (class indices) and
  `BCEWithLogitsLoss` with reductions `mean` and `sum`; class weights, label smoothing, `ignore_index` and `pos_weight`
  have their default values except in C75.
* **Random numbers.** A generator is a state and a next function; laws (uniform signs, standard normals, labels drawn
  from the predictive distribution) are hypotheses on the distribution of the drawn values. Pseudo-randomness is trusted.
* **KFAC** is modelled in four layers: products with given factors (`KfacProduct`), factors from layer inputs and output
  derivatives (`KfacFactors`), the caching state machine with faults (`KfacState`), and a heap of dictionaries for
  `state_dict` aliasing (`KfacStateDict`, `KfacInverse`). Networks process the data of a batch independently.
* **Convolutions.** `unfold`, `conv2d` and einconv's `index_pattern` are taken from their documentation.
* **Lanczos** and the densities are over the reals; `eigh` of the tridiagonal matrix is a contract.
* **Hooks.** A forward pass is a tree of module calls; hooks run after the body of the call, in order of registration.
* **Disagreements** between code and stated property are proved as negations with a concrete witness, next to a
  `_partial` theorem with the strongest true part.

## 3. Trusted base

* Lean 4.33.0 kernel, Mathlib definitions used in statements (`Matrix`, `fderiv`, `Finset.sum`, `MeasureTheory` for
  the integrals), axioms `propext`, `Classical.choice`, `Quot.sound` only.
* The reading of the Python source into the model (citations beside each definition), and the assumed meaning of the
  external functions listed above.
* Not modelled: progress bars, warnings, messages of exceptions, memory/GPU behaviour, `examples/` other than the
  functorch references, `__init__` re-exports, `allclose_report` printing.

## 4. Plan per property

| id | model | how it will be proved |
|----|-------|-----------------------|
| C01 | `split_list` with Python slices and integer sizes | induction on sizes; negative sizes: witness that the length claim fails |
| C02 | `__matmul__` pre-processing over tensor/list/other inputs | case analysis against an independent predicate `Accepted` |
| C03 | whole `__matmul__` around an arbitrary `_matmat` | layout lemmas for split/cat/reshape; dense product spec on flat row-major lists |
| C04 | same | entry-wise from C03 |
| C05 | `_check_output_and_postprocess` | case analysis, arbitrary `_matmat` |
| C06 | `_matmat` returns also the final content of its argument list | pure operators: preserved; KFAC inverse: negation with witness |
| C07 | constructor checks | decision logic |
| C08 | `_N_data`, `_get_normalization_factor`, `_matmat` loop | induction over batches; spec is the scaled sum over the concatenated data |
| C09 | same loop | `List.Perm` invariance |
| C10 | same loop | linear algebra over lists |
| C11 | analysis layer: risk as function, second partial derivatives by `fderiv` | Schwarz from Mathlib, linearity of derivatives |
| C12 | `_matmat_batch` of the Hessian with `split_list` over params, grads, M | induction over blocks; spec: masked matrix |
| C13 | `ggn_vector_product` composition | matrix algebra; loss Hessians of the 3 losses PSD |
| C14 | linearized model | chain rule with `fderiv` |
| C15 | EF pseudo-loss exactly as coded | Hessian of quadratic pseudo-loss, matrix algebra |
| C16 | `functorch_empirical_fisher` | equality of two closed forms incl. scaling over batches |
| C17 | operator state with generator; `_matmat` reseeds | invariance over arbitrary histories |
| C18 | `sample_grad_output` per loss | finite expectations (CE, BCE); second moment of the Gaussian (MSE) |
| C19 | `_matmat_batch` with drawn gradients | as C15 |
| C20 | Jacobian `_matmat` loop + `cat` | layout lemmas, induction |
| C21 | transposed loop with start/end slices | induction over batches |
| C22 | `adjoint` dispatch | decision logic + transposes |
| C23 | `_scipy_compatible` wrapper, dtypes as tags | C03 + decision logic |
| C24 | `gradient_and_loss` loop | as C08; negation-free |
| C25 | `_check_deterministic` over two traversals | induction over zipped traversals |
| C26 | same | negations: last batch instead of totals, zip truncation |
| C27 | `to_device` + `try/finally` | state machine |
| C28 | `compute_parameter_mapping` over a module list | induction; both directions |
| C29 | `_matmat` of KFAC on matrices | Kronecker `mulVec` identities from Mathlib |
| C30 | hooks as folds over batches | induction over batches |
| C31 | property loops over the mapping | Kronecker trace/det + block-diagonal lemmas |
| C32 | state machine with caches | invariant over call sequences |
| C33 | same with exceptions | negation: interrupted computation leaves partial factors |
| C34 | factors as sums of outer products | PSD of Kronecker products |
| C35 | single datum | algebra |
| C36 | `loss_hessian_matrix_sqrt` with all branches | explicit derivatives of the three losses |
| C37 | `unfold` and `index_pattern` by their definitions | exchange of sums |
| C38 | same | index arithmetic |
| C39 | heap of dictionaries | state machine, negations for the documented mismatches |
| C40 | same | negation: aliasing |
| C41 | inverse factors by contract of Cholesky inverse | matrix algebra |
| C42 | eigendecomposition by contract | matrix algebra |
| C43 | `_compute_damping` | real algebra; negation for zero trace |
| C44 | cache state machine | invariant |
| C45 | constructor/state dict | decision logic |
| C46 | retry logic with oracle Cholesky | decision logic |
| C47 | loop | induction, geometric series, spectral theorem |
| C48 | loop with abstract NaN predicate | induction |
| C49 | setters + solver parameter | state machine; LSMR default: stopping rule from SciPy's documentation |
| C50 | `_matvec`, `_matmat` | entry-wise |
| C51 | `set_submatrix` with state | state machine |
| C52 | `_adjoint`, nesting | entry-wise |
| C53 | `outer.py` | matrix algebra |
| C54-C56 | estimators as functions of the drawn vector | exact average over all sign vectors; integrals for the standard normal |
| C57 | Hutch++ | as C54 + algebra of projections |
| C58 | cache with exceptions | negation |
| C59 | `fast_lanczos` loop | induction over iterations |
| C60 | averaging loops | induction |
| C61 | cached iterations | invariant over calls |
| C62 | grid, kernel, weights | Gaussian integral from Mathlib |
| C63 | boundary selection | decision logic |
| C64 | context manager + hook list | state machine |
| C65 | dispatch | decision logic |
| C66 | `fast_lanczos` | polynomial exactness of the Lanczos quadrature |
| C67 | `_matmat_batch` of the activation Hessian on top of C64 | column loop lemmas of the curvature operators |
| C68 | `KFACLinearOperator` with the chain rule for shared weights as hypothesis | specification of the factors, Kronecker block entries |
| C69 | `extract_patches` with `groups` | linearity of the convolution in the image (C38) |
| C70 | `draw_label` and the gradients for drawn labels as random variables | first and second moments per loss, independence between loss terms |
| C71 | `__init__` as a sequence of checks on the arguments' classes and shapes | accepted iff documented, classes of exceptions, inferred numbers |
| C72 | dictionaries of blocks, `reshape`, `flatten`, `cat` on row-major lists | row-major layout of all reference matrices, equal to the matrices of C11, C14, C16, C20 |
| C73 | networks as sequences of stages (code, layer, code) on a state vector; hooks as layer inputs and derivatives in layer outputs | induction over the stages, chain rule with `fderiv`; discharges the chain-rule hypotheses of C35, C68 and C70 |
| C74 | `einops.rearrange` patterns on row-major lists; losses on outputs of any shape | entries by multi-index, sums over nested ranges, concatenation along the batch axis |
| C75 | losses with options as weighted sums over rows with their own divisor; operators as in C13, C15, C18, C36 | derivatives of the terms, exact formula per mini-batch, uniqueness of the matrix, two padded examples |
| C76 | `data` as an object that hands out all batches in every traversal, or each batch once; constructor steps that touch it, then any sequence of products | computation of what is left after each step; three witnesses |
| C77 | the operators of C11 and C14 | second-order chain rule; equal matrices and shapes give equal products |
| C78 | inputs as tensors or dicts of tensors; `cat` from the tensor model; devices left out | rows of a concatenation; uniqueness of a tensor with given rows |
| C79 | arrays of reals with infinities and NaN, `isclose` from numpy's documentation; printed pairs and outcome | case distinction |
| C80 | composition of C73's networks with the state machine of KFAC and its inverse | C73 inside the blocks, zero between them; C42 for the inverse |
| C81 | devices of factors in shared dictionaries, of models, generators, cached traces and cached inverses; values left out | invariant over all calls; general theorems for each violation |
| C82 | as C54, C57 | fourth moments of fair signs and of standard normals (derivatives of the moment generating function); projections contract the Frobenius norm |
| C83 | as C13, C15, C20, C21, C24; gradients by back-propagation of the loss gradient | product of the three matrices entry by entry: sums over stacked predictions regrouped by datum, term and output |
| C84 | as C45 (KFAC operators with state, inverses refer to them and to caches on a heap) | without caching: nothing is ever cached; with caching: invariant that KFAC's factors never change once computed and caches hold their inverses; violation by loading: cached inverses hide the factors |
| C85 | the SciPy wrappers with casts between NumPy's and PyTorch's types; rounding arbitrary | `matmul_correct` gives the entries before the conversion; per type: what the conversion keeps |
| C86 | as C32, C57, C61, with changes of the model, the multiplied matrix, the source of iterations between calls | once there are factors, calls do not read the model; samples of Hutch++ differ by a constant; cached iterations come first |
| C87 | for every selection of parameters: products of the operator on the selection = selected parts of products of the full operator with zeros elsewhere (`IsRestriction`); the unselected parameters are constants of the model (`NetDatum.select`) | chain rule for inserting constants; entries of the matrices; every entry of KFAC is `B[o,o'] A[i,i']` with the extended input factor, whatever is selected; a wrong `num_data` breaks it (`kfac_selection_num_data`) |
| C88 | products of one operator are `c` times those of another (`IsScaled`), row-wise weighted (`IsRowScaled`), or weighted sums of two operators' products (`IsCombination`); per-operator theorems for `num_data` and for the reduction | comparison of the represented matrices; for KFAC comparison of the Kronecker factors (block-wise scaling of `IsKron` matrices); type-2 uses how `loss_hessian_matrix_sqrt` depends on the reduction (`lossHessianSqrt_reduction`) |
| C89 | the whole constructor as one function from arguments, behaviour of the user's functions and devices to outcome, number of `iter(data)` and devices; success is characterised by requirements on the arguments (`Accepts`, `Normalizable`) that do not mention the model's helpers, the exception is given for each violated requirement | case analysis along the order of the checks; C25 and C27 are reused for the check and the devices |
| C90 | as C18 and C70; the labels of a traversal as a family of random variables indexed by mini-batch, sample and row | square integrability (fourth moments of normals), the variance of sums of pairwise independent variables, Chebyshev's inequality; independent draws (and generators that draw them) are constructed on product spaces, so the hypotheses can be met |
| C91 | programs as lists of constructor calls, requests and function calls on a world with all objects, the number of runs of `fast_lanczos` and the calls to `eigsh` (`Model/SpectrumObjects`); the operator and `ncv` are arguments of the outcomes | induction over programs; an invariant that assigns to every run of every object the number of the call that made it; requests and functions agree also when they raise |
| C92 | as C30, C87 (factors as sums over data; operators on any subset of the parameters) | the list of updates does not read the other settings; entries of the operator in coordinates of layers; witness with weight sharing for the difference of the approximations |
| C93 | forward passes as lists of evaluations (`Model/KfacHooks`), pre-hooks, tensor hooks, `autograd.grad` with released graphs and unused parameters; drops the assumption of C30 that every layer is evaluated once | exceptions as values and the first failing batch; updates by layer, additivity of the factors over data and evaluations; witness of a layer that is evaluated twice |
| C94 | as C54–C57, called `m` times with the state threaded through (`repeatCalls`, `stateBefore`); the draws are assumed independent from call to call (shown to be satisfiable) | products of independent variables, moments from C82, Markov's inequality, strong law of large numbers entry by entry of `v vᵀ` (so for all bases at once) |
| C95 | as C59, C66 (`fastLanczos`, `repeatLoop`, bumps); the start vectors are independent standard normal vectors (a generator is constructed); eigensolvers by their contracts; exact arithmetic | Krylov space and Vandermonde argument for the exception; Gauss quadrature of degree `2 ncv - 1`; moments of a uniformly distributed direction from those of normal vectors; averages as in C94 |
| C96 | `Model/Export.lean` connects the tensor-level export (C23) with the NumPy-level algorithms (C47, C50, C54–C56, C95): SciPy's `_CustomLinearOperator` calls the given functions and its adjoint exchanges them (external code); products do not change NumPy's generator | the export represents the matrix on vectors and on matrices with at least one column; composition with the theorems on the Hessian, the empirical Fisher and KFAC |
| C97 | as C47; exact arithmetic, symmetric matrices | residual and error are a power of `1 - scale M` applied to the right-hand side and the solution; eigendecomposition; divergence through an eigenvector |
| C98 | as C41–C43; exact arithmetic, decompositions that meet their contract | the damped factors minus their damping are sums of outer products, so the quadratic form of the Kronecker product is at least the product of the dampings; the inverse of a matrix with that property |
| C99 | as C13, C15, C19, C24 (three losses, rows of the data as Jacobian, prediction and target); exact arithmetic | positive definiteness of the loss Hessians up to constant shifts of the logits; for a symmetric matrix the range is the orthogonal complement of the kernel (eigendecomposition); ranks of products through a smaller dimension; witness for the Monte-Carlo Fisher with three classes |
| C100 | the loops of `_matmat` and `gradient_and_loss` over any type with `+`, `*`, `/`; representable numbers of a rounding with relative error `u` (no overflow or underflow) | the loops are folds per entry; errors of sums and products in the form `(g - 1) * s` with `s` a bound of the exact values, `g` multiplied by `1 + u` per rounding; binary formats of every precision satisfy the hypotheses |
| C101 | `neumannLoop` over the representable numbers of a rounding; accuracy of the products a hypothesis | invariants of the loop: error of the current term at most `(t^k - q^k)`, of the sum at most `(1+u)^k S_k(t) - S_k(q)`, times the norm of `x` |
| C102 | `gradientAndLoss` with an arbitrary differentiable model and loss (`netLossGradBatch`); preconditioners as C41–C43, C97–C99 | derivative of the risk along the step is minus the inner product of gradient and direction; quadratic forms of the inverses are positive (C98, spectral theorem for Neumann sums, kernels of semi-definite matrices); eigenvectors of quadratic risks as counterexamples |
| C103 | index lists by reference (`IdxHeap`, `SubObj`), programs over several sub-matrices (`SubSys.run`); KFAC calls mixed with in-place changes of returned tensors (`shareRun`) | invariant over programs (frame); for KFAC the invariant of C32 without the cached values that were changed |
| C104 | the world of the estimators with a counter that every product increases (`Counts`); functions of an operator that are determined by a number of products (`DeterminedBy`: operators that agree on these give the same result) | induction over the loops and over sequences of samples |
| C105 | `_scipy_compatible` with the two casts (`scipyCompatibleCast`, equal to the model of C23 for exact casts); numbers of PyTorch and NumPy are those of two roundings | `@` in terms of `_matmat` for any arithmetic of the entries (`matmul_of_matmat`), C100 with bounds on the contributions, then C101 |
| C106 | models as functions of other parameters (`NetDatum.reparam`, `Term.reparam`): a specification on top of the models of C03–C09, C11 and C102 | chain rule for the gradient, the linearized model and the second derivative, then `Dᵀ A D` for the matrices; witness for the Hessian |
| C107 | the models of C03–C06, C11 and C102 at moved parameters (`moveBy`); the linearized risk written out (`linearizedRisk`) | differentiability of partial derivatives at `C²` points, second-order expansion by the mean value inequality, completing the square for minimizers |
| C108 | the models of C08, C11, C13, C15, C24 and C30 on selected data; selections are a finite type of equally likely outcomes whose positions are exchangeable (permuting the data permutes the outcomes): with and without repetition, shuffled data | entries of products as sums of contributions of the data, orbit counting over permutations for means and pairs, witnesses for KFAC and for mini-batches of unequal size |
| C109 | the arithmetic of SciPy's operators and the example programs for natural gradients and model merging (`Model/Programs.lean`); CG's documented contract as hypothesis | energy estimates for damped systems; completing the square; C96 for the exported GGN; C21 for the Neumann series |
| C110 | the example's `power_method` (`Model/PowerMethod.lean`): random vectors are an arbitrary sequence, NaN is `none`, real arithmetic | invariants of the inner loop; coordinates in an eigenbasis for the limits; Cauchy-Schwarz for monotonicity; witnesses for order, shape and NaN |
| C111 | `Model/LossCurvature.lean`, `Model/Net.lean`, `Model/KfacFactors.lean` and `Model/LossSqrt.lean`; draws of the generator are data with the law of C18 | the change acts on gradients and loss Hessians by an orthogonal matrix (`OutChange.grad`, `OutChange.hessian`, `OutChange.sqrt`) and on the law of the draws by a measure-preserving map |
| C112 | `Model/KfacFactors.lean`, `Model/KfacInverse.lean` and the sequential networks of `Props/SeqNet.lean`; the hooks record inputs and derivatives of the given network | `A' = Ω A Ωᵀ` and `B' = Φᵀ B Φ` for every layer, so the blocks of the matrix are pulled back (`kron_pull`); parameters, gradients and steps via the same blocks (`NetChange.same`, `NetChange.gradient`) |
| C113 | `Model/KfacFactors.lean` and the sequential networks of `Props/SeqNet.lean` | both matrices as sums over the evaluations of a layer (`kfac_blocks_samples`): the risk is a sum of products, KFAC the product of sum and average (`sampleCov_eq`); the norm bound is Cauchy-Schwarz |
| C114 | as C113, and `Model/KfacInverse.lean` | sum of the bounds of C113 over the blocks (`blockDiagonal_frobenius`); resolvent identity and `1/δ` for both inverses (`damped_norm_le`, `damped_distance`) |
| C115 | `Model/KfacInverse.lean` on `KWorld` | `(B + b) ⊗ (A + a) ≽ B ⊗ A + ab` block by block (`KBlock.quad_damped`); inversion reverses the order (`matInv_antitone`) |
| C116 | `Model/KfacLayout.lean`: the hooks on tensors whose first dimension is not the batch | rows are the same for all layouts (`groups_sum`); scaled updates give scaled dictionaries (`foldl_times`); witnesses for merged and sequence-first tensors |
| C117 | models of C88: data sets and `num_data` | sums of positive semi-definite matrices (`riskMatrix_added`, `drawAll_append`); Kronecker products grow with their factors (`KBlock.quad_added`); witness with a zero datum |
| C118 | models of C29, C31, C41, C42, C43: products, scalars and inverses of KFAC | Kronecker products of eigenvectors (`kron_spectrum`), uniqueness through the characteristic polynomial (`HasSpectrum.unique`), shifted eigenvalues for damped factors |
| C119 | `deflate` with SciPy's `A - B` (`Model/Deflation.lean`), models of C53, C54, C59, C95, C96, C109 | eigenvectors are completed on the orthogonal complement (`eigen_complete`), `deflated_spectrum`, then the theorems about traces, variances and Lanczos densities |
| C120 | models of C50, C87, C114, C117, C118 | a kernel vector by counting dimensions gives `eigenvalue_le` (Courant-Fischer); Birkhoff's theorem and rearrangement give the theorem of Hoffman and Wielandt |
| C121 | models of C17-C19, C13; `RandomLabels.part` splits a pool of labels among seeds | the variances of C90 for single entries summed over the matrix; averages over seeds are one matrix with all labels; Hoffman-Wielandt of C120 for the eigenvalues; generators with the assumed draws are constructed |
| C122 | `Model/Blocks.lean`: the example program's `extract_block` with Python slices, index ranges, `numpy.eye`, `.numpy()`; models of C11, C72, C96 and of the sub-matrix operator | slices of concatenated axes; the matrix products of C96 applied to the identity; C87's restriction for one selected parameter; block indices of groups of parameters |
| C123 | models of C72, C96 (exported operators) and of the sub-matrix operator; shape checks of SciPy | case analysis of the shape checks that come before all computations |
| C124 | models of C39, C84 (state dicts), C32 (products) with `torch.einsum` including broadcasting of dimensions of size one | sizes of the factors of a layer with and without bias against the sizes of the argument; a network with one layer as witness |
| C125 | models of C11, C12; eigenvalues as in C118, C120 | the eigenvalues of the block-diagonal part are averages of those of the matrix with doubly stochastic weights; Jensen's inequality, Chebyshev-type inequality of C120 for sums of largest values |
| C126 | models of C113 (sequential networks), C118; eigenvalues as in C120 | KFAC is the block-diagonal part of the GGN where it is exact inside its blocks; averages with doubly stochastic weights as in C125 |
| C127 | models of C108, C118, C125 | with the eigenvectors of the operator on all data: quadratic forms of the operators on selected data are averages of their eigenvalues with doubly stochastic weights; Jensen's inequality over the outcomes |
| C128 | models of C19, C121 (random labels), C118 | as C127, with integrals over the labels instead of finite means; lower integrals, so that no measurability of eigenvalues is assumed |
| C129 | models of C20, C21 with `num_data` and the output shapes of the mini-batches as free arguments | invariant of the loop over the mini-batches: rows consumed so far; the first mini-batch that does not fit raises |
| C130 | `Model/Tour.lean` (the program's lists), models of C12, C23, C29 | the program's boundaries are the offsets of the blocks; induction over the children |
| C131 | `Model/KfacRounding.lean` (the hooks with rounded operations, sums in any order) | relative accuracies multiply along sums, products and accumulation; a perturbed Gram matrix plus damping; a float32 witness |
| C132 | `Model/KfacProductRounding.lean` (the loop over the mapping with rounded operations) | three-way relation of the computed, the exact and the bounding computation through the loop, exceptions included |
| C133 | `Model/KfacInverse.lean`, `Model/KfacRounding.lean` | entrywise distance of Kronecker matrices of nearby factors; perturbation of the inverse with the lower bound of C98 |
| C134 | `Model/KfacScalarsRounding.lean` (the loops of `trace` and `frobenius_norm` with rounded operations) | relation of the computed, the exact and the bounding accumulation, one factor `1 + u` per addition; sums of squares stay nonnegative |
| C135 | `Model/EstimatorRounding.lean` (`sampling.py` and the three `sample` methods with rounded operations) | accuracy of inner products; averages over all sign vectors |
| C136 | `Model/Estimators.lean`, `Model/HutchPPRounding.lean` (Hutch++ with rounded operations; QR is external and may return anything of the right size) | the projector `1 - QQᵀ` is symmetric without orthonormality, trace of its square; accuracy of the projection, of the product and of the inner product |
| C137 | `Model/Determinism.lean` with the addition of floating point numbers; a tensor is represented by its entries, and the comparison inside `allclose` is exact | the check as a comparison of folds in any arithmetic; the accumulation errors of C100 |
| C138 | `Model/Deflation.lean` (`OuterProductLinearOperator`, `deflate`), `Model/Estimators.lean`; numbers and vectors are arbitrary instead of eigenpairs | Frobenius norm of `M - V diag(c) Vᵀ`; quadratic form split along the span of `V` and its complement; expansion in an orthonormal eigenbasis |
| C139 | `Model/UtilityRounding.lean` (outer products, projectors and deflation with rounded operations; four contraction orders of `einsum`, none with three-axis intermediates), `Model/Submatrix.lean` used with floating point numbers | errors of inner products (C135) nested once for every contraction; accuracy of sums and multiples |
| C140 | `Model/MixedPrecision.lean` (`exportCast`), `Model/ExportRounding.lean` (KFAC as an operator with rounded products), `Model/Rounding.lean` | one entry through both casts and the product; C100, C132 as accuracy of operators; C101, C135, C139 applied to the export |
| C141 | `Model/AverageRounding.lean` (`numpy.mean` of samples, with a sum in any order; `m = 0` is not modelled), `Model/EstimatorRounding.lean` | every computed sample is near the exact one for the same draw; averages of the exact samples (C94) |

## 5. Disagreements between the code and the stated properties

Each line: what the code does, and the theorem that proves it. The strongest true part is the `_partial` theorem (or
the positive theorem with the exact hypothesis) listed in `MANIFEST.json`.

* C01: `split_list` with negative sizes summing to the length returns chunks of other lengths (`splitList_negative_sizes`).
* C06: `KFACInverseLinearOperator @ [matrix, ...]` overwrites the caller's list (`kfacInverse_overwrites_argument`).
* C20: the product of a Jacobian with a matrix without columns raises (`jacobian_zero_columns`).
* C26: the determinism check compares the losses of the last batch, not the totals, and stops at the shorter traversal
  (`check_misses_total_loss`, `check_misses_missing_batch`, `check_rejects_reordering`).
* C26, C137: in `float32` the determinism check can refuse a deterministic operator whose mini-batches come in another order, although
  `FIXED_DATA_ORDER` is `False` (gradients that cancel; `check_refuses_shuffled`).
* C27: parameters that the model does not own are replaced by new objects (`constructorCheck_replaces_params`,
  `constructorCheck_moves_others`).
* C28/C29: a parameter shared by two layers is mapped twice and only the last layer's block is used
  (`computeMapping_tied`, `kfac_tied_uses_last_layer`).
* C31: `frobenius_norm` without layers raises (`kfacFrobenius_empty`); `logdet` is nan for a negative determinant
  (`kfacLogdet_nan`).
* C33: an exception during the computation of the factors leaves the hooks installed and partial factors, which the
  next call uses silently (`kfac_interrupted_used`, `kfac_interrupted_witness`).
* C35: with several loss terms per datum KFAC is not the exact block on a single datum (`kfac_two_terms`).
* C36: `CrossEntropyLoss` with one class raises `RuntimeError` (`lossHessianSqrt_ce_one`).
* C37: `extract_patches` raises `NotImplementedError` for `padding='same'` with unequal sides, the averaged version
  returns (`extractPatches_of_averaged`).
* C38: KFAC ignores `padding_mode` (`circular_padding_witness`).
* C39: `load_state_dict` overwrites the model before it raises (`load_mismatch_changes_model`), checks its own keys
  instead of those of the dict (`load_wrong_keys_accepted`), and rejects its own state dict for bias-only layers
  (`load_bias_only_raises`).
* C40: a state dict taken before the factors exist is filled by later calls, and an operator restored from it takes over
  the other operator's factors (`state_dict_filled`, `restored_gets_factors`, `restored_witness`).
* C43: the damping heuristic divides by zero for a zero input covariance and falls below `min_damping` for a zero gradient
  covariance (`heuristicDamping_zero_input`, `heuristicDamping_zero_gradient`, `heuristicDamping_negative`).
* C45: the inverse rejects its own state dict for bias-only layers (`invLoad_bias_only_raises`).
* C48: `num_terms=0` skips the NaN check (`neumann_zero_terms_unchecked`).
* C49: LSMR's default `conlim=1e-8` stops after the first iteration (`lsmr_default_stops`, `lsmr_first_iterate_wrong`).
* C50: a sub-matrix times a matrix with one or no column raises (`submatrix_single_column`, `submatrix_no_columns`).
  Booleans pass the test for integers (`submatrix.py:43`), but NumPy reads a list of Booleans as a mask. Lists that also
  contain an integer work (`submatrix_bool_partial`). With the column list `[False]` of an operator with one column all
  products with vectors are silently zero (`submatrix_false_column`); with the other accepted lists of Booleans the
  operator is created, but all products raise (`submatrix_bools_raise`).
* C53: an outer product or projector times a matrix raises (`outer_matrix_raises`).
* C58: an exception in Hutch++'s trace loop leaves a partial trace that later samples use (`hutchpp_crash_silent`).
* C59: a Lanczos breakdown raises `ValueError` (`fastLanczos_scalar_raises`, `fastLanczos_too_many`).
* C60: the default `kappa` of the log spectrum differs between function and cached class (`logSpectrum_defaults_differ`);
  negative `num_repeats` on a filled cache give negative densities (`cachedSpectrum_negative_repeats`); other degenerate
  arguments raise undocumented errors (`lanczosSpectrum_nonpos`, `cachedSpectrum_zero`, `spectrumFromIter_one`).
* C64: a single dict-like batch is rejected (`activationHessian_mapping_rejected`), as is a second name of a shared module
  (`shared_module_name_rejected`).
* C65: a distribution that is not a string raises `TypeError` (`randomVector_nonStr`).
* C71: `mc_samples <= 0` is accepted for the Monte-Carlo Fisher; reading the trace then raises `KeyError`, and reading it
  again returns 0 (`kfacInit_any_samples`, `kfac_no_samples`).
* C72: `functorch_hessian`/`functorch_ggn` raise for parameters without entries (`functorchMatrix_empty`),
  `functorch_jacobian`/`functorch_empirical_fisher` for parameters without dimensions (`functorchJacobian_scalar`,
  `functorchEFTensor_scalar`), and a repeated parameter appears once (`functorchMatrix_repeated`).
* C74: the empirical Fisher, the Monte-Carlo Fisher and KFAC refuse one-dimensional outputs that `MSELoss` accepts
  (`convert2d_one_dim`).
* C75: options of the losses are accepted but not respected. With `reduction='mean'`, mini-batches with different shares of
  ignored labels (or weights) are weighted by their size (`ggnOpt_mean_wrong`, `ggnOpt_weights_wrong`); the empirical Fisher is off by the ratio
  of rows to labels that count (`efOpt_mean_factor`, `efOpt_mean_wrong`); the Monte-Carlo Fisher and type-2 KFAC treat
  ignored labels and weighted classes like all others (`mcOpt_ce`, `mcOpt_ignored`, `mcOpt_bce`, `sqrtOpt_ce`,
  `sqrtOpt_bce`). Label smoothing without weights is harmless.
* C76: data that can be traversed only once are not refused in general. The constructor itself uses them up
  (`next(iter(data))`, then the traversal for the number of data points, then the check). With the check and without
  `num_data` the constructor raises, by accident (`UnboundLocalError`, `oneShot_refused`; `StopIteration` for the
  Jacobians, `oneShot_jacobian_refused`). Without the check all products are silently zero (`oneShot_unchecked`,
  `oneShot_wrong`); with `num_data` and without check the first product misses the first batch and the others are zero
  (`oneShot_unchecked_num_data`, `oneShot_second_product`); with `num_data` and check the operator may be accepted and is
  then zero (`oneShot_checked`, `oneShot_checked_wrong`).
* C81: state dictionaries are handed on by reference and without moving their factors. Loading the state of an operator on
  another device makes products raise `RuntimeError` (`load_other_device`, `restore_unchecked`); `from_state_dict` with the
  check moves the factors of the saved operator, which then fails (`restore_breaks_source`). Inverses that cache fail after
  their operator is moved (`cached_inverse_after_move`), cached traces stay on the old device
  (`trace_stays_on_old_device`), and moving an operator moves the model of others (`shared_model`).
* C82: the documentation says that Hutch++ has lower variance than Hutchinson's estimator. With normal vectors this holds
  for every cached basis (`hutchpp_le_hutch_normal_partial`). With Rademacher vectors, the default of both classes, it
  fails: for `diag(3, 4)` every sample of Hutchinson's estimator is the trace 7, and no first sample of Hutch++ with one
  basis vector is (`hutchpp_worse_rademacher`).
* C84 (stale inverse): `KFACInverseLinearOperator` with `cache=True` (the default) looks up inverses by layer name only
  (`inverse.py:507-510`). When `load_state_dict` puts other factors into its KFAC operator, the inverse continues to
  multiply with the inverse of the former factors (`inverse_stale`, in general; `inverse_stale_witness`: the product is
  1 where a new inverse returns 1/2). It follows with `cache=False` (`inverse_follows_uncached_partial`), and with any
  settings as long as calls are not interrupted and nothing is loaded (`inverse_follows_products_partial`).
* C85 (types): `_scipy_compatible` converts the result to the type of the argument (`.astype(X.dtype)`, `_torch_base.py:380`).
  For integer arguments the entries of the product are truncated toward zero (`scipy_integer_truncates`), for Boolean
  arguments the result tells which entries are not zero (`scipy_bool`), and of complex arguments the imaginary parts are
  dropped (`_torch_base.py:374`, `scipy_complex_real`). Witness: an operator that halves, `scipy_types_witness`. Exact if
  the types hold the values (`scipy_exact_partial`).
* C86 (parameters that change): KFAC never computes its factors again, so all results refer to the parameters at the first
  use (`kfac_updates`, `kfac_updates_stale`, witness `kfac_updates_witness`); only changes before that are seen
  (`kfac_present_partial`). Hutch++ mixes its cached trace with products of the new matrix: the mean of the samples is off
  by the change in the span of the basis (`hutchpp_changed_rademacher`, `hutchpp_changed_normal`,
  `hutchpp_changed_witness`). Cached spectra return, or average with, iterations of the former operator
  (`cachedSpectrum_changed`). For KFAC the docstring warns that a new object is needed when parameters change
  (`kfac.py:151-156`); for the others this is not documented.
* C89: the documented `ValueError` for inputs that are not tensors and come without `batch_size_fn` (`_torch_base.py:461`) is raised only if the input of the first batch is a `MutableMapping` (`construct_non_tensor_partial`). Any other object leads to `AttributeError` when the data are counted, or is accepted if `num_data` is given and the check is off (`construct_non_tensor_violation`, `construct_size_error`). Also seen: the docstring says that `block_sizes` "will be ignored if the linear operator does not support blocks", the code raises `ValueError` (`construct_value_error`); `num_data=0` raises `ZeroDivisionError` also for `reduction='sum'` (`product_normalization_error`).
* C93: a layer that is evaluated several times in a forward pass is not refused, although hooks then add up the factors of the
  evaluations: the input factor is not normalized by their number (as KFAC-expand does for positions), so KFAC is larger by
  this factor than for the same function written with one evaluation (`hooks_positions`), and with KFAC-reduce it is not exact
  for a single datum (`evaluated_twice`: the GGN is 0, KFAC is 4).
* C103: `SubmatrixLinearOperator` stores the index lists it is given (`submatrix.py:52-53`). If the caller changes a list in
  place, products silently belong to other rows or columns, also to duplicates that the constructor rejects, or raise
  `ValueError` (`submatrix_follows_lists`, `submatrix_rows_changed`, `submatrix_lists_witness`).
* C103: `trace`, `det`, `logdet` and `frobenius_norm` of `KFACLinearOperator` return the tensors they cache. After
  `kfac.trace.mul_(0.5)` the operator reports half the trace (`kfac_trace_shared` and siblings, `kfac_shared_witness`).
* C110: `power_method` of the example documents eigenvalues in descending order and vectors of shape `[D, k]`. It reverses
  the order in which the eigenpairs are found and stacks the vectors as rows: values in ascending order, shape `[k, D]`
  (`power_docstring_violation`). When the remaining part of the random vector is mapped to zero, the result is NaN
  (`power_nan`, `power_zero_nan`). Convergence of later eigenpairs is proved for exact earlier eigenvectors only.
* C116: the hooks take the first dimension of a layer's tensor for the batch (`kfac.py:640`, `702`). If a network merges `R`
  positions into the batch before a layer, KFAC-expand for this layer is `R³` times as large for reduction `mean` and `R` times
  for `sum` (`layout_merged_witness`, `kfac_layout_merged`). With sequence-first tensors the factors depend on the mini-batches
  (`layout_seqFirst_batching`), and KFAC-reduce adds the gradients of different data (`layout_seqFirst_reduce`).
* C122 (documentation example, not the package): `extract_block` with position `-1` returns an array without rows instead of the shape that
  its docstring promises, because `params[: i + 1]` becomes `params[:0]` (`extractBlock_last`). The example's check of the off-diagonal block
  compares `H_param0_param1_functorch` with itself times the identity (`example_submatrices.py:171-176`), so `H_param0_param1` is never
  tested there; `hessian_blocks` proves that it is right.
* C124: `load_state_dict` compares the keys of the factors that the operator *already has* with its own mapping, not the keys of the loaded
  factors, and compares no sizes (`kfac.py:1003-1021`). After loading the state of an operator on weight and bias into an operator on the
  weight only (or conversely), `trace` returns the value for the other parameters without an exception, whether it was cached or is computed
  from the loaded factors, and `shape` is the shape of the other operator (`load_other_witness`: trace 4 instead of 2). Only the products
  raise, with a `RuntimeError` of `einsum` (`load_other_product_partial`).
* C129: with a `num_data` that is larger than the number of data points, `TransposedJacobianLinearOperator` multiplies without an
  exception (`jacobian.py:225-237` takes slices until the data end, and never compares the number of consumed rows with the number of
  rows). It ignores the last entries of its argument, while the products of `JacobianLinearOperator` with the same `num_data` raise
  `ValueError`. Theorems: `transposed_num_data_large`, `transposed_num_data_partial`, `num_data_witness`.
* C34 holds in exact arithmetic only: the input factor that float32 computes for one datum with entries `(1, 1 + 2^-23)` has
  a negative eigenvalue (`float32_factor_indefinite`). Damping above an explicit bound repairs it (C131).

Seen while reading, outside the model: `CGInverseLinearOperator` passes the keyword `tol`, which newer SciPy versions
removed; the docstring of `loss_hessian_matrix_sqrt` transposes the formula; the docstring of the log spectrum says
`log(|A| + eps I)` although the density is that of `|A| + eps`; the deterministic-matvec check of KFAC is vacuous because
the factors are cached.
