{"id": "C01", "title": "Array complex/real round trip", "statement": "arraytocomplex(arraytoreal(a)) returns exactly a for every complex 1-D array and every complex 2-D array with at least one row, and arraytoreal(arraytocomplex(b)) returns exactly b for every real array of that kind whose last axis has even length.", "quantifier": "every array length, row count and entry", "why_tests_cant": "sizes and entries are unbounded; the existing test only checks shapes of one random array", "anchors": ["robuststats/models/mappings.py:arraytoreal", "robuststats/models/mappings.py:arraytocomplex"]}
{"id": "C02", "title": "Covariance complex/real round trip", "statement": "covariancetocomplex(covariancetoreal(a)) returns exactly a for every square complex matrix, Hermitian or not, and the stacked versions covariancestoreal/covariancestocomplex do the same matrix by matrix for every number of matrices.", "quantifier": "every matrix size, every stack length, every entry", "why_tests_cant": "unbounded sizes and entries", "anchors": ["robuststats/models/mappings.py:covariancetoreal", "robuststats/models/mappings.py:covariancetocomplex", "robuststats/models/mappings.py:covariancestoreal", "robuststats/models/mappings.py:covariancestocomplex"]}
{"id": "C03", "title": "Mappings pass already-converted input through and reject unsupported formats", "statement": "The to-real mappings return a real input unchanged and the to-complex mappings return a complex input unchanged, so each mapping is idempotent; arraytoreal on a complex array of ndim other than 1 or 2 and covariancetoreal on a complex array that is not a square matrix raise AttributeError.", "quantifier": "every array of every number of dimensions", "why_tests_cant": "all shapes and number of dimensions, not a sample", "anchors": ["robuststats/models/mappings.py:arraytoreal", "robuststats/models/mappings.py:arraytocomplex", "robuststats/models/mappings.py:covariancetoreal", "robuststats/models/mappings.py:covariancetocomplex", "robuststats/models/mappings.py:iscovariance"]}
{"id": "C04", "title": "covariancetoreal preserves covariance structure", "statement": "covariancetoreal maps a complex matrix to a symmetric matrix exactly when the complex matrix is Hermitian, to a positive definite (semi-definite) one exactly when the complex one is, is additive and real-homogeneous, satisfies toreal(AB) = 2 toreal(A) toreal(B), and its determinant is (1/2)^(2p) |det|^2.", "quantifier": "every square complex matrix of every size", "why_tests_cant": "universally quantified algebraic law over a continuum", "anchors": ["robuststats/models/mappings.py:covariancetoreal"]}
{"id": "C05", "title": "arraytocomplex rejects real arrays with an odd last axis", "statement": "arraytocomplex raises an error on every real 1-D or 2-D array whose last axis has odd length, since such an array is not the real form of any complex array.", "quantifier": "every odd length", "why_tests_cant": "the accepted bad sizes are isolated points among infinitely many lengths", "anchors": ["robuststats/models/mappings.py:arraytocomplex"]}
{"id": "C06", "title": "covariancetocomplex inverts exactly the block-structured matrices", "statement": "For a real square matrix R of even size, covariancetoreal(covariancetocomplex(R)) = R holds if and only if R has the form [[P,-Q],[Q,P]].", "quantifier": "every real matrix of every even size", "why_tests_cant": "iff over a continuum", "anchors": ["robuststats/models/mappings.py:covariancetocomplex", "robuststats/models/mappings.py:covariancetoreal"]}
{"id": "C07", "title": "Matrix functions are well defined", "statement": "sqrtm, invsqrtm, logm, expm and powm of a Hermitian matrix do not depend on which orthonormal eigenbasis the eigen-solver happens to return.", "quantifier": "every Hermitian matrix, every two valid eigendecompositions, every scalar function", "why_tests_cant": "eigenbases are non-unique on a continuum and tests see only one LAPACK answer", "anchors": ["robuststats/utils/linalg.py:_matrix_operator", "robuststats/utils/linalg.py:sqrtm", "robuststats/utils/linalg.py:invsqrtm", "robuststats/utils/linalg.py:logm", "robuststats/utils/linalg.py:expm", "robuststats/utils/linalg.py:powm"]}
{"id": "C08", "title": "Matrix square root, inverse square root, exponential, logarithm and powers obey their algebra", "statement": "For a positive definite C: sqrtm(C)@sqrtm(C)=C, invsqrtm(C)@C@invsqrtm(C)=I, invsqrtm(C) inverts sqrtm(C), expm(logm(C))=C, powm(C,a)@powm(C,b)=powm(C,a+b), powm(C,1/2)=sqrtm(C); for Hermitian C logm(expm(C))=C; outputs are Hermitian and, except for logm, positive definite.", "quantifier": "every positive definite (or Hermitian) real or complex matrix of every size, every valid eigendecomposition", "why_tests_cant": "universal algebraic laws", "anchors": ["robuststats/utils/linalg.py:sqrtm", "robuststats/utils/linalg.py:invsqrtm", "robuststats/utils/linalg.py:logm", "robuststats/utils/linalg.py:expm", "robuststats/utils/linalg.py:powm"]}
{"id": "C09", "title": "vec/unvec round trip", "statement": "unvec(vec(M)) = M for every square matrix, vec(unvec(v)) = v for every vector whose length is a perfect square, and unvec raises AssertionError on every other length.", "quantifier": "every size", "why_tests_cant": "all lengths including every non-square one", "anchors": ["robuststats/utils/linalg.py:vec", "robuststats/utils/linalg.py:unvec"]}
{"id": "C10", "title": "vech/unvech round trip on Hermitian matrices", "statement": "unvech(vech(M)) = M for every Hermitian (in particular every real symmetric) matrix M, and vech(unvech(v)) = v for every vector of triangular length with real diagonal entries.", "quantifier": "every size and entry, real and complex", "why_tests_cant": "sizes unbounded; no test exists", "anchors": ["robuststats/utils/linalg.py:vech", "robuststats/utils/linalg.py:unvech", "robuststats/utils/linalg.py:_triu_indices"]}
{"id": "C11", "title": "unvech accepts exactly the triangular lengths", "statement": "unvech computes the right matrix order n from a vector of length n(n+1)/2 for every n and raises ValueError for every vector whose length is not triangular.", "quantifier": "every length", "why_tests_cant": "all lengths", "anchors": ["robuststats/utils/linalg.py:unvech"]}
{"id": "C12", "title": "ToeplitzMatrix is Hermitian positive semi-definite", "statement": "ToeplitzMatrix(rho,p) is Hermitian for every rho, and is positive semi-definite for every |rho|<=1 and every p; it is positive definite for |rho|<1. The docstring's unconditional claim of semi-positivity fails for |rho|>1, p>=2.", "quantifier": "every complex rho, every p", "why_tests_cant": "continuum of rho and unbounded p", "anchors": ["robuststats/utils/linalg.py:ToeplitzMatrix"]}
{"id": "C13", "title": "hermitian/multiherm are the orthogonal projection onto Hermitian matrices", "statement": "hermitian(X) is Hermitian, hermitian is idempotent, fixes every Hermitian matrix, is linear over the reals, and no Hermitian matrix is closer to X in Frobenius norm.", "quantifier": "every square complex matrix", "why_tests_cant": "optimality against every Hermitian competitor", "anchors": ["robuststats/utils/linalg.py:hermitian", "robuststats/utils/linalg.py:multiherm"]}
{"id": "C14", "title": "Argument checkers decide exactly their documented predicate", "statement": "check_positive raises ValueError exactly when the value is not > 0 (or >= 0 with strictly=False), check_value exactly when the value is not in the list, check_type exactly when the type is not in the list; otherwise they have no effect.", "quantifier": "every value and every list", "why_tests_cant": "all inputs", "anchors": ["robuststats/utils/checking.py:check_positive", "robuststats/utils/checking.py:check_type", "robuststats/utils/checking.py:check_value"]}
{"id": "C15", "title": "temp_seed restores the global random state", "statement": "Leaving a `with temp_seed(s)` block, normally or through an exception, restores the global random state that was current at entry, whatever the body did (including nested temp_seed blocks and reseeding), and what the body computes depends only on s and not on the state at entry.", "quantifier": "every body, every entry state, every nesting depth, every exit path", "why_tests_cant": "all bodies and exception points", "anchors": ["robuststats/utils/montecarlo.py:temp_seed"]}
{"id": "C16", "title": "_FeatureArray behaves like a list of batches", "statement": "After any sequence of appends of batches of one item shape and dtype, len() is the total number of items and export() returns exactly the concatenation of all appended items in order, whatever the batch sizes and however often the internal buffer had to grow.", "quantifier": "every number of appends, every batch size, including sizes crossing the preallocation boundary", "why_tests_cant": "unbounded histories crossing the 1000-row growth boundary at every alignment", "anchors": ["robuststats/estimation/base.py:_FeatureArray.append", "robuststats/estimation/base.py:_FeatureArray.export", "robuststats/estimation/base.py:_FeatureArray.__len__"]}
{"id": "C17", "title": "vectorize returns one row per stored item", "statement": "vectorize() returns exactly len() rows, one per stored item, after any sequence of appends.", "quantifier": "every append history", "why_tests_cant": "depends on history length relative to hidden capacity", "anchors": ["robuststats/estimation/base.py:_FeatureArray.vectorize"]}
{"id": "C18", "title": "A rejected append leaves the feature array unchanged", "statement": "If append raises, a later len(), export() or append() behaves as if the failed call had not happened.", "quantifier": "every state and every rejected batch", "why_tests_cant": "every failure point inside a multi-component append", "anchors": ["robuststats/estimation/base.py:_FeatureArray.append"]}
{"id": "C19", "title": "Multi-component feature arrays stay aligned", "statement": "After any sequence of successful appends all components of a multi-component _FeatureArray hold the same number of items and that number is len().", "quantifier": "every history of multi-component appends", "why_tests_cant": "all histories, including mismatched batches", "anchors": ["robuststats/estimation/base.py:_FeatureArray.append"]}
{"id": "C20", "title": "Indexing a feature array selects items", "statement": "fa[i] for an integer i is a one-item array holding item i, and fa[slice] holds exactly the selected items in order with the same item shape.", "quantifier": "every index, every slice, every content", "why_tests_cant": "all index types and positions", "anchors": ["robuststats/estimation/base.py:_FeatureArray.__getitem__"]}
{"id": "C21", "title": "FeaturesEstimation returns one feature per trial in order", "statement": "FeaturesEstimation(est).transform(X) returns a _FeatureArray of length n_trials whose i-th item is the feature est computes on trial i, for every number of trials >= 1; zero trials raise IndexError.", "quantifier": "every number of trials, every estimator", "why_tests_cant": "crossing the growth boundary at 1001 trials is never tested", "anchors": ["robuststats/estimation/base.py:FeaturesEstimation.transform", "robuststats/estimation/base.py:_feature_estimation"]}
{"id": "C22", "title": "CovariancesEstimation does not depend on n_jobs", "statement": "transform returns the same stack of covariances for every n_jobs and every order in which the parallel workers finish, entry i being the covariance est computes on trial i, for every estimator whose fit result depends only on its data and parameters.", "quantifier": "every number of trials, every worker schedule, every estimator", "why_tests_cant": "schedules and estimators are unbounded", "anchors": ["robuststats/estimation/base.py:CovariancesEstimation.transform", "robuststats/estimation/base.py:_fit_transform_covariance_copy"]}
{"id": "C23", "title": "CovariancesEstimation stores covariances exactly", "statement": "The i-th matrix returned by transform equals the covariance estimated on trial i, whatever the dtype of X.", "quantifier": "every dtype and data", "why_tests_cant": "integer inputs are never tested", "anchors": ["robuststats/estimation/base.py:CovariancesEstimation.transform"]}
{"id": "C24", "title": "Parallel transform leaves the estimator untouched; sequential transform leaves it fitted on the last trial", "statement": "With n_jobs != 1 the estimator passed by the user is in the same state before and after transform; with n_jobs == 1 it is left in the state of a fit on the last trial.", "quantifier": "every estimator state, every number of trials", "why_tests_cant": "state after any history", "anchors": ["robuststats/estimation/base.py:CovariancesEstimation.transform", "robuststats/estimation/base.py:_fit_transform_covariance_copy"]}
{"id": "C25", "title": "Complex empirical covariance is Hermitian positive semi-definite", "statement": "complex_empirical_covariance returns a Hermitian positive semi-definite matrix for every dataset, with either value of assume_centered; without assume_centered it is invariant to adding a constant vector to every sample and equals the centred computation on the mean-subtracted data.", "quantifier": "every dataset of every size", "why_tests_cant": "continuum of datasets", "anchors": ["robuststats/estimation/base.py:complex_empirical_covariance"]}
{"id": "C26", "title": "Complex empirical covariance is affine equivariant and sample-order independent", "statement": "Replacing every sample x by Tx replaces the covariance C by T C T^H; permuting samples leaves it unchanged.", "quantifier": "every dataset, every linear map, every permutation", "why_tests_cant": "continuum", "anchors": ["robuststats/estimation/base.py:complex_empirical_covariance"]}
{"id": "C27", "title": "Complex estimators treat real data as complex data with zero imaginary part", "statement": "Fitting ComplexEmpiricalCovariance on a real array gives the same covariance as fitting it on that array cast to complex.", "quantifier": "every real dataset", "why_tests_cant": "the wrong behaviour is shape dependent and silent", "anchors": ["robuststats/estimation/base.py:ComplexEmpiricalCovariance._validate_data", "robuststats/models/mappings.py:arraytoreal", "robuststats/models/mappings.py:arraytocomplex"]}
{"id": "C28", "title": "A covariance given to a complex estimator is stored exactly", "statement": "Storing a complex square matrix in a ComplexEmpiricalCovariance makes covariance_ exactly that matrix; storing a non-square one raises.", "quantifier": "every complex matrix of every shape", "why_tests_cant": "every matrix", "anchors": ["robuststats/estimation/base.py:ComplexEmpiricalCovariance._set_covariance"]}
{"id": "C29", "title": "error_norm is zero exactly for the stored covariance", "statement": "ComplexEmpiricalCovariance.error_norm(C) (Frobenius) is zero if and only if C equals covariance_.", "quantifier": "every pair of Hermitian matrices", "why_tests_cant": "false positives form a measure-zero set that random tests never hit", "anchors": ["robuststats/estimation/base.py:ComplexEmpiricalCovariance.error_norm"]}
{"id": "C30", "title": "Normalisation functions normalise", "statement": "For every positive definite S: dividing by get_normalisation_function('trace')(S) gives trace p, by 'determinant' gives determinant 1, by 'element' gives top-left entry 1, and 'None' or any unknown name leaves S unchanged.", "quantifier": "every positive definite real or complex matrix of every size >= 1, every string", "why_tests_cant": "continuum of matrices, all strings", "anchors": ["robuststats/estimation/covariance.py:get_normalisation_function"]}
{"id": "C31", "title": "Normalised shape is scale free and normalisation is idempotent", "statement": "For every normalisation other than None and every c>0, normalising c*S gives the same matrix as normalising S, normalising twice equals normalising once, and the result stays positive definite.", "quantifier": "every positive definite S and c>0", "why_tests_cant": "continuum", "anchors": ["robuststats/estimation/covariance.py:get_normalisation_function"]}
{"id": "C32", "title": "Fixed-point estimators stop as documented", "statement": "tyler_shape_matrix_fixedpoint, student_t_mle_fixed_point, huber_m_estimator_fixed_point and their complex versions terminate after at most iter_max iterations for every input; the reported iteration count is exact; if it is below iter_max the reported error is not greater than tol (it is <= tol or NaN); with iter_max <= 0 the initial point comes back with error infinity.", "quantifier": "every dataset, initial point, tolerance and iter_max", "why_tests_cant": "all loop lengths and all numeric trajectories", "anchors": ["robuststats/estimation/covariance.py:tyler_shape_matrix_fixedpoint", "robuststats/estimation/covariance.py:student_t_mle_fixed_point", "robuststats/estimation/covariance.py:huber_m_estimator_fixed_point", "robuststats/estimation/covariance.py:complex_tyler_shape_matrix_fixedpoint", "robuststats/estimation/covariance.py:complex_student_t_mle_fixed_point", "robuststats/estimation/covariance.py:complex_huber_m_estimator_fixed_point"]}
{"id": "C33", "title": "The non-convergence warning is accurate", "statement": "A fixed-point estimator logs 'did not converge' if and only if the final error exceeds the tolerance.", "quantifier": "every run", "why_tests_cant": "depends on which iteration converges", "anchors": ["robuststats/estimation/covariance.py:tyler_shape_matrix_fixedpoint", "robuststats/estimation/covariance.py:student_t_mle_fixed_point", "robuststats/estimation/covariance.py:huber_m_estimator_fixed_point"]}
{"id": "C34", "title": "Every iterate is positive definite", "statement": "Started from a positive definite point on data whose samples are non-zero and span the feature space, every iterate and the result of the six fixed-point estimators is Hermitian positive definite, so the loop never meets a singular matrix.", "quantifier": "every dataset, initial point, number of iterations, tolerance, normalisation", "why_tests_cant": "unbounded iterations over a continuum", "anchors": ["robuststats/estimation/covariance.py:tyler_shape_matrix_fixedpoint", "robuststats/estimation/covariance.py:student_t_mle_fixed_point", "robuststats/estimation/covariance.py:huber_m_estimator_fixed_point", "robuststats/estimation/covariance.py:complex_tyler_shape_matrix_fixedpoint", "robuststats/estimation/covariance.py:complex_student_t_mle_fixed_point", "robuststats/estimation/covariance.py:complex_huber_m_estimator_fixed_point"]}
{"id": "C35", "title": "Tyler's estimate ignores the scale of each sample", "statement": "With a given initial point, multiplying every sample by its own non-zero number leaves the output (matrix, error, iteration count) of the Tyler fixed-point estimators exactly unchanged.", "quantifier": "every dataset, all non-zero per-sample scalars, every initial point and stopping rule", "why_tests_cant": "continuum of scalings; distribution-free property", "anchors": ["robuststats/estimation/covariance.py:tyler_shape_matrix_fixedpoint", "robuststats/estimation/covariance.py:complex_tyler_shape_matrix_fixedpoint"]}
{"id": "C36", "title": "Fixed-point estimators are equivariant under rotations", "statement": "With trace, determinant or no normalisation, replacing X by X U^T with U orthogonal/unitary (and the initial point, if given, by U init U^H) turns the output matrix S into U S U^H and leaves error and iteration count unchanged ('element' normalisation, by its definition, depends on the basis); the single-iteration map is equivariant under every invertible linear map.", "quantifier": "every dataset, unitary (invertible) map, stopping rule", "why_tests_cant": "continuum", "anchors": ["robuststats/estimation/covariance.py:tyler_shape_matrix_fixedpoint", "robuststats/estimation/covariance.py:student_t_mle_fixed_point", "robuststats/estimation/covariance.py:huber_m_estimator_fixed_point"]}
{"id": "C37", "title": "Fixed-point estimators do not depend on sample order", "statement": "Permuting the rows of X changes neither the estimate, nor the error, nor the iteration count, including with the default initial point.", "quantifier": "every permutation", "why_tests_cant": "n! permutations, every dataset", "anchors": ["robuststats/estimation/covariance.py:tyler_shape_matrix_fixedpoint", "robuststats/estimation/covariance.py:student_t_mle_fixed_point", "robuststats/estimation/covariance.py:huber_m_estimator_fixed_point"]}
{"id": "C38", "title": "Tyler's iteration never increases Tyler's cost", "statement": "Along the iterates of tyler_shape_matrix_fixedpoint (real and complex) the value of Tyler_cost_real/Tyler_cost_complex on the same data never increases, and the determinant never increases; trace(S_k^{-1} S_{k+1}) = p at every step.", "quantifier": "every dataset, every starting point, every number of iterations", "why_tests_cant": "monotonicity along every trajectory", "anchors": ["robuststats/estimation/covariance.py:tyler_shape_matrix_fixedpoint", "robuststats/estimation/covariance.py:complex_tyler_shape_matrix_fixedpoint", "robuststats/models/cost.py:Tyler_cost_real", "robuststats/models/cost.py:Tyler_cost_complex"]}
{"id": "C39", "title": "Student-t iteration never increases its likelihood cost", "statement": "Along the iterates of student_t_mle_fixed_point and its complex version the cost (nu+p) sum log(nu+x^H S^{-1} x) + n log det S, with nu = df/2 in the real and nu = df in the complex function, never increases.", "quantifier": "every dataset, df>0, starting point, number of iterations", "why_tests_cant": "monotonicity along every trajectory", "anchors": ["robuststats/estimation/covariance.py:student_t_mle_fixed_point", "robuststats/estimation/covariance.py:complex_student_t_mle_fixed_point"]}
{"id": "C40", "title": "The Student-t estimator with parameter df maximises the likelihood of the t model with the same df", "statement": "A positive definite matrix that one more iteration of student_t_mle_fixed_point(X, df) leaves unchanged maximises the log-likelihood used by score (scipy multivariate_t with the same df) over all positive definite matrices; same for the complex version and complex_multivariate_t.", "quantifier": "every dataset and df", "why_tests_cant": "parameterisation mistakes are hidden by the loose tolerance of the statistical test", "anchors": ["robuststats/estimation/covariance.py:student_t_mle_fixed_point", "robuststats/estimation/covariance.py:complex_student_t_mle_fixed_point", "robuststats/estimation/covariance.py:CenteredStudentMLE.score", "robuststats/estimation/covariance.py:ComplexCenteredStudentMLE.score"]}
{"id": "C41", "title": "Huber's weight function", "statement": "_huber_m_estimator_function raises AssertionError exactly when lbda<=0 or beta<0, and otherwise (beta>0) is 1/beta up to lbda and lbda/(beta x) beyond, non-increasing in x and bounded by 1/beta.", "quantifier": "every x>0 (and x=0), lbda, beta", "why_tests_cant": "continuum", "anchors": ["robuststats/estimation/covariance.py:_huber_m_estimator_function"]}
{"id": "C42", "title": "Huber's estimator down-weights outlying samples", "statement": "In the covariance update of huber_m_estimator_fixed_point the weight given to x x^T is the Huber weight u(x^T S^{-1} x): non-increasing in the distance of the sample and proportional to 1/distance beyond the threshold.", "quantifier": "every dataset and current estimate", "why_tests_cant": "robustness is about arbitrarily remote samples", "anchors": ["robuststats/estimation/covariance.py:huber_m_estimator_fixed_point", "robuststats/estimation/covariance.py:complex_huber_m_estimator_fixed_point", "robuststats/estimation/covariance.py:HuberMEstimator"]}
{"id": "C43", "title": "An all-zero sample makes the Tyler estimators fail loudly", "statement": "If some sample is the zero vector, TylerShapeMatrix.fit and ComplexTylerShapeMatrix.fit raise ValueError for every initial point and leave covariance_ unchanged, although the underlying loop itself stops after one iteration without a non-convergence warning.", "quantifier": "every dataset containing a zero row, every position of that row", "why_tests_cant": "NaN propagation for every dataset", "anchors": ["robuststats/estimation/covariance.py:tyler_shape_matrix_fixedpoint", "robuststats/estimation/covariance.py:TylerShapeMatrix.fit", "robuststats/estimation/base.py:ComplexEmpiricalCovariance._set_covariance"]}
{"id": "C44", "title": "Fitting is history independent", "statement": "fit(X) on an already fitted estimator (Tyler fixed point, Student, Huber, real or complex) yields the same covariance_, err_ and iteration_ as fit(X) on a fresh estimator with the same parameters.", "quantifier": "every previous sequence of fits", "why_tests_cant": "all histories", "anchors": ["robuststats/estimation/covariance.py:TylerShapeMatrix.fit", "robuststats/estimation/covariance.py:CenteredStudentMLE.fit", "robuststats/estimation/covariance.py:HuberMEstimator.fit"]}
{"id": "C45", "title": "A natural-gradient Tyler estimator can be fitted again", "statement": "fit can be called on a TylerShapeMatrix(method='natural gradient') that has already been fitted.", "quantifier": "every dataset and history of fits", "why_tests_cant": "history dependent failure", "anchors": ["robuststats/estimation/covariance.py:TylerShapeMatrix.fit", "robuststats/estimation/covariance.py:ComplexTylerShapeMatrix.fit", "robuststats/estimation/covariance.py:tyler_shape_matrix_naturalgradient"]}
{"id": "C46", "title": "Parameters changed after construction are honoured", "statement": "Changing tol, iter_max, normalisation or method of a TylerShapeMatrix after construction changes the next fit accordingly.", "quantifier": "every sequence of parameter changes and fits", "why_tests_cant": "all histories of set_params/fit/copy", "anchors": ["robuststats/estimation/covariance.py:TylerShapeMatrix.set_method", "robuststats/estimation/covariance.py:ComplexTylerShapeMatrix.set_method"]}
{"id": "C47", "title": "Complex estimators extend the real ones", "statement": "On data with zero imaginary part and a real initial point the complex Tyler and Huber fixed-point step returns the real step's result, and the complex Student step with df equals the real step with 2*df.", "quantifier": "every real dataset and positive definite point", "why_tests_cant": "continuum", "anchors": ["robuststats/estimation/covariance.py:complex_tyler_shape_matrix_fixedpoint", "robuststats/estimation/covariance.py:complex_student_t_mle_fixed_point", "robuststats/estimation/covariance.py:complex_huber_m_estimator_fixed_point"]}
{"id": "C48", "title": "complex natural-gradient Tyler returns a Hermitian positive definite matrix", "statement": "complex_tyler_shape_matrix_naturalgradient returns a Hermitian positive definite matrix whenever the real solver returns a symmetric positive definite one.", "quantifier": "every symmetric positive definite solver output", "why_tests_cant": "every solver output", "anchors": ["robuststats/estimation/covariance.py:complex_tyler_shape_matrix_naturalgradient"]}
{"id": "C49", "title": "Tyler cost is invariant to the scale of the shape matrix and shifts by a constant under per-sample scaling", "statement": "Tyler_cost_real/complex(X, c Q) = cost(X,Q) for every c>0; scaling sample i by d_i adds p sum log |d_i|^2; cost(X T^T, T Q T^H) = cost(X,Q) + 2 n log|det T|; the complex cost of real data equals the real cost; mismatched shapes raise AttributeError.", "quantifier": "every dataset, PD Q, c, scalings, invertible T", "why_tests_cant": "continuum", "anchors": ["robuststats/models/cost.py:Tyler_cost_real", "robuststats/models/cost.py:Tyler_cost_complex"]}
{"id": "C50", "title": "StrictlyPositiveVectors retraction and exponential stay on the manifold", "statement": "For every strictly positive x and every tangent vector u, retr(x,u) and exp(x,u) are strictly positive; exp(x,.) and log(x,.) are mutually inverse; rand and zerovec are valid.", "quantifier": "every positive vector and tangent vector of every size", "why_tests_cant": "continuum; huge steps", "anchors": ["robuststats/models/manifolds.py:StrictlyPositiveVectors"]}
{"id": "C51", "title": "StrictlyPositiveVectors geometry is consistent", "statement": "dist is a metric (symmetric, zero iff equal, triangle inequality), dist(x,y) = norm(x, log(x,y)), transp is a linear isometry between tangent spaces, inner(x, egrad2rgrad(x,g), v) = sum g*v, and ehess2rhess is the covariant derivative of the gradient along exp geodesics.", "quantifier": "every point, tangent vector, gradient", "why_tests_cant": "continuum", "anchors": ["robuststats/models/manifolds.py:StrictlyPositiveVectors"]}
{"id": "C52", "title": "HermitianPositiveDefinite retraction stays positive definite", "statement": "For every Hermitian positive definite x and every Hermitian u of any size, retr(x,u) is Hermitian positive definite.", "quantifier": "every x, u", "why_tests_cant": "continuum; huge steps", "anchors": ["robuststats/models/manifolds.py:HermitianPositiveDefinite.retr"]}
{"id": "C53", "title": "HermitianPositiveDefinite exp and log", "statement": "exp(x,u) is Hermitian positive definite, log(x,y) is Hermitian, exp(x,log(x,y)) = y and log(x,exp(x,u)) = u, for every valid eigendecomposition returned by the solver.", "quantifier": "every x,y positive definite, u Hermitian", "why_tests_cant": "continuum", "anchors": ["robuststats/models/manifolds.py:HermitianPositiveDefinite.exp", "robuststats/models/manifolds.py:HermitianPositiveDefinite.log"]}
{"id": "C54", "title": "HermitianPositiveDefinite metric is consistent", "statement": "inner is symmetric, bilinear over the reals, positive definite on Hermitian matrices, invariant under congruence, norm(x,u)^2 = inner(x,u,u), and egrad2rgrad gives the Riemannian gradient of that metric.", "quantifier": "every x, u, v, congruence", "why_tests_cant": "continuum", "anchors": ["robuststats/models/manifolds.py:HermitianPositiveDefinite.inner", "robuststats/models/manifolds.py:HermitianPositiveDefinite.norm", "robuststats/models/manifolds.py:HermitianPositiveDefinite.egrad2rgrad"]}
{"id": "C55", "title": "HermitianPositiveDefinite transport is an isometry", "statement": "inner(x2, transp(x1,x2,u), transp(x1,x2,v)) = inner(x1,u,v) and transp maps Hermitian to Hermitian.", "quantifier": "every x1,x2,u,v", "why_tests_cant": "continuum", "anchors": ["robuststats/models/manifolds.py:HermitianPositiveDefinite.transp"]}
{"id": "C56", "title": "SpecialHermitianPositiveDefinite stays on the unit-determinant manifold", "statement": "retr, exp and rand return Hermitian positive definite matrices with determinant exactly 1; proj returns a Hermitian matrix with trace(x^{-1} proj)=0, is idempotent and fixes tangent vectors.", "quantifier": "every x, u", "why_tests_cant": "continuum", "anchors": ["robuststats/models/manifolds.py:SpecialHermitianPositiveDefinite"]}
{"id": "C57", "title": "Reported manifold dimension is the true dimension", "statement": "HermitianPositiveDefinite(n,k).dim equals the real dimension k n^2 of the space of k Hermitian matrices, and SpecialHermitianPositiveDefinite(n,k).dim equals k(n^2-1).", "quantifier": "every n, k", "why_tests_cant": "all n,k", "anchors": ["robuststats/models/manifolds.py:HermitianPositiveDefinite.__init__", "robuststats/models/manifolds.py:SpecialHermitianPositiveDefinite.__init__"]}
{"id": "C58", "title": "WeightedProduct metric, distance and gradient agree", "statement": "For positive weights inner is the weighted sum of the component inner products, dist^2 the weighted sum of squared distances (a distance: zero only at equal points, symmetric, triangle inequality), and egrad2rgrad is the Riemannian gradient for inner; randvec returns a unit-norm tangent vector.", "quantifier": "every number of components, weights, points", "why_tests_cant": "all weights", "anchors": ["robuststats/models/manifolds.py:WeightedProduct"]}
{"id": "C59", "title": "Kronecker elliptical metric is the Fisher metric and is positive definite", "statement": "inner on KroneckerHermitianPositiveElliptical equals alpha tr(S^-1 dS S^-1 dS) + (alpha-1) tr(S^-1 dS)^2 for S = A kron B and dS the differential, and for the alpha chosen by KroneckerStudent with df>0 it is positive definite on the tangent space.", "quantifier": "every a, b, df>0, point, tangent vectors", "why_tests_cant": "continuum", "anchors": ["robuststats/models/manifolds.py:KroneckerHermitianPositiveElliptical.inner", "robuststats/estimation/structured.py:KroneckerStudent.__init__"]}
{"id": "C60", "title": "Kronecker elliptical gradient is the gradient of its metric", "statement": "inner(theta, egrad2rgrad(theta,g), xi) equals the Euclidean directional derivative Re tr(g_A xi_A) + Re tr(g_B xi_B) for every tangent xi.", "quantifier": "every theta, g, xi, alpha", "why_tests_cant": "continuum", "anchors": ["robuststats/models/manifolds.py:KroneckerHermitianPositiveElliptical.inner", "robuststats/models/manifolds.py:WeightedProduct.egrad2rgrad"]}
{"id": "C61", "title": "Complex normal density", "statement": "complex_multivariate_normal logpdf with complex parameters equals -p log(pi) - log det(Sigma) - (z-mu)^H Sigma^{-1} (z-mu) for every Hermitian positive definite Sigma, mean mu and point z.", "quantifier": "every p, Sigma, mu, z", "why_tests_cant": "continuum", "anchors": ["robuststats/models/probability.py:complex_multivariate_normal_gen.logpdf", "robuststats/models/probability.py:_check_parameters_array_complex_normal"]}
{"id": "C62", "title": "Complex Student-t density", "statement": "complex_multivariate_t(...).logpdf with complex parameters equals the 2p-dimensional circular t log-density: lgamma(df/2+p) - lgamma(df/2) - p log(pi df/2) - log det(Sigma) - (df/2+p) log(1 + 2 (z-mu)^H Sigma^{-1}(z-mu)/df).", "quantifier": "every p, Sigma, mu, z, df>0", "why_tests_cant": "continuum", "anchors": ["robuststats/models/probability.py:complex_multivariate_t_frozen.logpdf"]}
{"id": "C63", "title": "Real/complex dispatch of the densities", "statement": "With a complex covariance, real data are evaluated as complex data with zero imaginary part; with real parameters, complex data are evaluated by their real part; every combination of real/complex data, mean and covariance of matching sizes yields arrays of matching dimension.", "quantifier": "every combination of dtypes and sizes", "why_tests_cant": "combinations at every size", "anchors": ["robuststats/models/probability.py:_check_parameters_complex_normal", "robuststats/models/probability.py:_check_parameters_array_complex_normal"]}
{"id": "C64", "title": "Complex random draws have the requested covariance and are circular", "statement": "If the underlying real sampler returns L w with L L^T equal to the mapped covariance, then the complex samples z satisfy E[z z^H] = Sigma and E[z z^T] = 0.", "quantifier": "every Hermitian Sigma, every factor L", "why_tests_cant": "all factors", "anchors": ["robuststats/models/probability.py:complex_multivariate_normal_gen.rvs", "robuststats/models/mappings.py:arraytocomplex", "robuststats/models/mappings.py:covariancetoreal"]}
{"id": "C65", "title": "Kronecker MM reports what it documents", "statement": "estimation_cov_kronecker_MM terminates within iter_max iterations, returns None exactly when a*b != n_features, and returns as third value the final error between two iterations.", "quantifier": "every input, tol, iter_max", "why_tests_cant": "all trajectories", "anchors": ["robuststats/estimation/structured.py:estimation_cov_kronecker_MM"]}
{"id": "C66", "title": "Kronecker MM uses the quadratic form of A kron B", "statement": "The normalising denominators used by estimation_cov_kronecker_MM equal x^H (A kron B)^{-1} x for every sample x, so that kron(A_,B_) estimates the covariance of x.", "quantifier": "every complex sample, A, B positive definite", "why_tests_cant": "complex data only; continuum", "anchors": ["robuststats/estimation/structured.py:estimation_cov_kronecker_MM", "robuststats/estimation/structured.py:KroneckerEllipticalMM.fit"]}
{"id": "C67", "title": "Kronecker MM iterates stay Hermitian positive definite", "statement": "The update of A (and B) is the unique positive definite solution Y of Y A^{-1} Y = M, for M the weighted scatter matrix of the step; hence iterates stay positive definite.", "quantifier": "every data, every iteration", "why_tests_cant": "unbounded iterations", "anchors": ["robuststats/estimation/structured.py:estimation_cov_kronecker_MM"]}
{"id": "C68", "title": "Kronecker Student gradient centres the data", "statement": "The Euclidean gradient used by KroneckerStudent with location mu on data X equals the gradient with zero location on X - mu, and uses the same quadratic form x^H (A kron B)^{-1} x as the cost.", "quantifier": "every data and location", "why_tests_cant": "continuum", "anchors": ["robuststats/estimation/structured.py:_generate_egrad_function_kronecker_student", "robuststats/estimation/structured.py:_generate_cost_function_kronecker_student"]}
{"id": "C69", "title": "KroneckerStudent/KroneckerEllipticalMM score evaluates the fitted covariance", "statement": "score(X_test) depends on the fitted covariance and is larger for a more likely model.", "quantifier": "every fitted state and test set", "why_tests_cant": "all states", "anchors": ["robuststats/estimation/structured.py:KroneckerStudent.score", "robuststats/estimation/structured.py:KroneckerEllipticalMM.score"]}
{"id": "C70", "title": "Online estimates stay positive definite", "statement": "Starting from a positive definite estimate on HermitianPositiveDefinite with a Hermitian-valued gradient, after any stream of samples and any mix of update/fit calls the estimate is positive definite and covariance_ is exactly that estimate.", "quantifier": "every stream, every learning rate, every gradient function", "why_tests_cant": "unbounded streams", "anchors": ["robuststats/online/estimation.py:StochasticGradientCovarianceEstimator"]}
{"id": "C71", "title": "Online learning-rate schedule", "statement": "During one fit on a fresh estimator with 'inverse iteration' the i-th sample (from 0) is used with step lrate/(i+1), and with any other setting with step lrate; each sample is used exactly once, in order.", "quantifier": "every stream length", "why_tests_cant": "unbounded streams", "anchors": ["robuststats/online/estimation.py:StochasticGradientCovarianceEstimator.fit", "robuststats/online/estimation.py:StochasticGradientCovarianceEstimator._current_lr"]}
{"id": "C72", "title": "Online fit is history independent", "statement": "fit(X, init) gives the same estimate on a fresh estimator and on one that has been fitted before.", "quantifier": "every history of fits/updates", "why_tests_cant": "all histories", "anchors": ["robuststats/online/estimation.py:StochasticGradientCovarianceEstimator.fit"]}
{"id": "C73", "title": "Uninitialised online estimator", "statement": "update on an estimator without an initial point logs an error and changes nothing; fit with init=None logs an error and returns the estimator unchanged.", "quantifier": "every state", "why_tests_cant": "every call order", "anchors": ["robuststats/online/estimation.py:StochasticGradientCovarianceEstimator.update", "robuststats/online/estimation.py:StochasticGradientCovarianceEstimator.fit"]}
{"id": "C74", "title": "Generated covariances are covariances", "statement": "generate_covariance and generate_complex_covariance return symmetric/Hermitian positive semi-definite (complex: eigenvalues in [1,2], positive definite) matrices for every draw, and determinant 1 with unit_det=True (if non-singular).", "quantifier": "every random draw, every p", "why_tests_cant": "every draw", "anchors": ["robuststats/utils/generation_data.py:generate_covariance", "robuststats/utils/generation_data.py:generate_complex_covariance"]}
{"id": "C75", "title": "Stiefel samples are orthonormal", "statement": "generate_stiefel(p,k)/generate_complex_stiefel(p,k) return p x min(p,k) matrices with orthonormal columns for every orthogonal/unitary draw.", "quantifier": "every p,k, every draw", "why_tests_cant": "every draw", "anchors": ["robuststats/utils/generation_data.py:generate_stiefel", "robuststats/utils/generation_data.py:generate_complex_stiefel"]}
{"id": "C76", "title": "Normal and compound sampling have the requested second moments", "statement": "For every draw of white noise with empirical second moment I, sample_normal_distribution returns data with empirical second moment cov, and sample_compound_distribution(tau,cov) scales sample i by sqrt(tau_i).", "quantifier": "every cov PSD, tau, draw", "why_tests_cant": "every draw", "anchors": ["robuststats/utils/generation_data.py:sample_normal_distribution", "robuststats/utils/generation_data.py:sample_compound_distribution"]}
{"id": "C77", "title": "Hermitian/symmetric checkers", "statement": "check_Hermitian(a) is True for every exactly Hermitian a and all non-negative tolerances, is False whenever some entry differs from its mirrored conjugate by more than the tolerance, is unchanged by transposition, and with zero tolerances is True exactly for Hermitian matrices; check_Symmetric likewise without conjugation. On matrices that are not square they raise ValueError exactly when no side has length one; a row or a column of another length is accepted, with zero tolerances exactly when its entries are all equal (and real, for check_Hermitian).", "quantifier": "every matrix, square or not, and all tolerances", "why_tests_cant": "continuum", "anchors": ["robuststats/models/mappings.py:check_Hermitian", "robuststats/models/mappings.py:check_Symmetric"]}
{"id": "C78", "title": "Scoring an unfitted or Tyler estimator", "statement": "CenteredStudentMLE.score returns None before the first fit; Huber's score always raises NotImplementedError; TylerShapeMatrix.score returns a log-likelihood after fit.", "quantifier": "every history", "why_tests_cant": "all histories", "anchors": ["robuststats/estimation/covariance.py:CenteredStudentMLE.score", "robuststats/estimation/covariance.py:HuberMEstimator.score", "robuststats/estimation/covariance.py:TylerShapeMatrix.score"]}
{"id": "C79", "title": "A copy of an estimator is independent of the original", "statement": "After est2 = copy.deepcopy(est), changing tol, iter_max or normalisation on est2 and fitting it uses est2's values, and changing the same attributes of est does not affect est2 (this is what running CovariancesEstimation in parallel or cloning relies on).", "quantifier": "every pair of attribute values and every data set", "why_tests_cant": "the two objects agree until attributes diverge, so a test with untouched attributes passes", "anchors": ["robuststats/estimation/covariance.py:TylerShapeMatrix", "robuststats/estimation/covariance.py:ComplexTylerShapeMatrix", "robuststats/estimation/base.py"]}
{"id": "C80", "title": "Tyler's estimate is the minimiser of Tyler's cost", "statement": "A positive definite matrix that one iteration of Tyler's fixed-point estimator leaves unchanged minimises Tyler's cost (as evaluated by the library) over all positive definite matrices, and conversely every positive definite minimiser is left unchanged.", "quantifier": "every data set without zero sample and every pair of positive definite matrices, real and complex", "why_tests_cant": "global optimality over a continuum of matrices", "anchors": ["robuststats/estimation/covariance.py:tyler_shape_matrix_fixedpoint", "robuststats/estimation/covariance.py:complex_tyler_shape_matrix_fixedpoint", "robuststats/models/cost.py:tyler_cost_real", "robuststats/models/cost.py:tyler_cost_complex"]}
{"id": "C81", "title": "The Student-t estimate is unique and optimal", "statement": "At most one positive definite matrix is left unchanged by an iteration of the Student-t estimator, and it is the strict global minimiser of the corresponding negative log-likelihood.", "quantifier": "every data set, df > 0, every positive definite matrix", "why_tests_cant": "global optimality over a continuum of matrices", "anchors": ["robuststats/estimation/covariance.py:student_t_mle_fixed_point", "robuststats/estimation/covariance.py:complex_student_t_mle_fixed_point"]}
{"id": "C82", "title": "When Tyler's estimate is unique", "statement": "Given one positive definite fixed point of Tyler's iteration, all positive definite fixed points are its multiples if and only if the samples cannot be split between two complementary proper subspaces.", "quantifier": "every data set that spans and has no zero sample", "why_tests_cant": "characterises all data sets", "anchors": ["robuststats/estimation/covariance.py:tyler_shape_matrix_fixedpoint", "robuststats/estimation/covariance.py:complex_tyler_shape_matrix_fixedpoint"]}
{"id": "C83", "title": "The Student-t iteration converges from every start", "statement": "If the Student-t estimate exists then from every positive definite init (or none) the returned matrix is within C r^iteration of it with r < 1, and for every positive tol the loop stops by itself, without the non-convergence warning, as soon as iter_max is large enough.", "quantifier": "every spanning data set, df > 0, init, tol, iter_max", "why_tests_cant": "an asymptotic statement over unboundedly many iterations", "anchors": ["robuststats/estimation/covariance.py:student_t_mle_fixed_point", "robuststats/estimation/covariance.py:complex_student_t_mle_fixed_point"]}
{"id": "C84", "title": "Tyler's iteration converges from every start", "statement": "If Tyler's estimate exists and the samples cannot be split, then from every positive definite init (or none) the normalised result tends to the normalised estimate, and for every positive tol the loop stops by itself without warning as soon as iter_max is large enough.", "quantifier": "every spanning unsplittable data set without zero sample, init, tol, iter_max, normalisation", "why_tests_cant": "an asymptotic statement over unboundedly many iterations", "anchors": ["robuststats/estimation/covariance.py:tyler_shape_matrix_fixedpoint", "robuststats/estimation/covariance.py:complex_tyler_shape_matrix_fixedpoint"]}
{"id": "C85", "title": "When the Student-t estimate exists", "statement": "The Student-t iteration has a positive definite fixed point if and only if some positive definite A is strictly below (nu+p)/p times its image under one Tyler iteration; in particular it has one for every df > 0 whenever Tyler's estimate exists.", "quantifier": "every spanning data set without zero sample, df > 0", "why_tests_cant": "existence over a continuum", "anchors": ["robuststats/estimation/covariance.py:student_t_mle_fixed_point", "robuststats/estimation/covariance.py:complex_student_t_mle_fixed_point"]}
{"id": "C86", "title": "The HPD exponential map follows geodesics and the retractions approximate it", "statement": "t -> exp(x, t u) starts at x with velocity u, solves the geodesic equation of the affine-invariant metric at every t, has constant speed norm(x,u), and never leaves the positive definite matrices; retr(x, t u) agrees with it up to second order in t; on the unit-determinant manifold retr agrees with exp to first order.", "quantifier": "every positive definite stack x, Hermitian (resp. trace-free) u, time t", "why_tests_cant": "differential statement over a continuum of points and directions", "anchors": ["robuststats/models/manifolds.py:HermitianPositiveDefinite", "robuststats/models/manifolds.py:SpecialHermitianPositiveDefinite"]}
{"id": "C87", "title": "ehess2rhess returns the Riemannian Hessian", "statement": "For every function with Euclidean gradient g and Hessian h, inner(x, ehess2rhess(x, g, h, u), u) is the second derivative of the function along the geodesic t -> exp(x, t u), and the map u -> ehess2rhess is self-adjoint for the metric when the Euclidean Hessian is.", "quantifier": "every positive definite x, Hermitian u, twice differentiable cost", "why_tests_cant": "differential statement over all cost functions", "anchors": ["robuststats/models/manifolds.py:HermitianPositiveDefinite"]}
{"id": "C88", "title": "The HPD distance is a congruence-invariant distance compatible with exp and log", "statement": "dist is symmetric, zero exactly on equal arguments, satisfies the triangle inequality, is equal to norm(x, log(x,y)), satisfies dist(x, exp(x,u)) = norm(x,u), and is unchanged when both arguments are congruent by the same invertible matrix or both inverted.", "quantifier": "every pair (triple for the triangle inequality) of positive definite stacks, tangent vector, invertible matrix, stack size", "why_tests_cant": "identities over a continuum and over any eigensolver/Cholesky factor", "anchors": ["robuststats/models/manifolds.py:HermitianPositiveDefinite"]}
{"id": "C89", "title": "The two ways of evaluating the t density agree", "statement": "complex_multivariate_t.logpdf(x, loc, shape, df) and complex_multivariate_t(loc, shape, df).logpdf(x) give the same value.", "quantifier": "every data array, location, positive definite shape and df > 0", "why_tests_cant": "two code paths over a continuum of inputs", "anchors": ["robuststats/models/probability.py:complex_multivariate_t_gen", "robuststats/models/probability.py:complex_multivariate_t_frozen.logpdf"]}
{"id": "C90", "title": "The default arguments describe the standard law", "statement": "complex_multivariate_normal() and complex_multivariate_normal.logpdf(x) with mean and covariance left at their defaults describe the standard normal law in dimension one.", "quantifier": "every data array", "why_tests_cant": "the default path is separate from every tested path", "anchors": ["robuststats/models/probability.py:_check_parameters_complex_normal", "robuststats/models/probability.py:complex_multivariate_normal_gen.logpdf"]}
{"id": "C91", "title": "Each Kronecker MM iteration lowers Tyler's cost", "statement": "On data without zero samples, rich enough in rows and columns, no iteration of estimation_cov_kronecker_MM increases Tyler's cost of kron(A, B).", "quantifier": "every data set meeting the hypothesis, every iteration, every tol and iter_max", "why_tests_cant": "unbounded iterations over a continuum of data; fails only for complex data", "anchors": ["robuststats/estimation/structured.py:estimation_cov_kronecker_MM"]}
{"id": "C92", "title": "The solver of KroneckerStudent gets the gradient of its cost", "statement": "The pair of matrices given to the solver as Euclidean gradient by KroneckerStudent is the gradient of the cost given to the same solver.", "quantifier": "every data set, df > 0, every curve of positive definite pairs", "why_tests_cant": "identity of derivatives over a continuum", "anchors": ["robuststats/estimation/structured.py:_generate_egrad_function_kronecker_student", "robuststats/estimation/structured.py:_generate_cost_function_kronecker_student", "robuststats/estimation/structured.py:_estimate_covariance_kronecker_t_gradient"]}
{"id": "C93", "title": "Kronecker MM ignores the scale and the order of the samples", "statement": "estimation_cov_kronecker_MM returns the same value (matrices, count, error) when every sample is multiplied by its own nonzero number and when the samples are permuted.", "quantifier": "every data set, nonzero factors, permutation, a, b, tol, iter_max", "why_tests_cant": "every permutation, every scale, unbounded loop", "anchors": ["robuststats/estimation/structured.py:estimation_cov_kronecker_MM"]}
{"id": "C94", "title": "Stationary points of Kronecker MM are the minimisers of Tyler's cost", "statement": "A positive definite pair (A, B) is left unchanged by an iteration of estimation_cov_kronecker_MM exactly when kron(A, B) has the smallest Tyler cost among Kronecker products of positive definite matrices.", "quantifier": "every data set rich enough in rows and columns, every positive definite pair", "why_tests_cant": "global optimality over a continuum", "anchors": ["robuststats/estimation/structured.py:estimation_cov_kronecker_MM"]}
{"id": "C95", "title": "An online step lowers the cost whose gradient is given", "statement": "On HermitianPositiveDefinite, when rgrad returns the Riemannian gradient of a differentiable cost, one update with a small enough positive learning rate does not increase that cost (it lowers it where the gradient is not zero).", "quantifier": "every differentiable cost, every positive definite estimate, every small enough learning rate", "why_tests_cant": "all costs and a limit in the step", "anchors": ["robuststats/online/estimation.py:StochasticGradientCovarianceEstimator.update", "robuststats/models/manifolds.py:HermitianPositiveDefinite.retr"]}
{"id": "C96", "title": "Samples one by one or in one fit", "statement": "Calling set_estimate(init) and then update on each row of X in order gives the same estimate as fit(X, init).", "quantifier": "every data set, every gradient and retraction, every lr_update", "why_tests_cant": "unbounded streams", "anchors": ["robuststats/online/estimation.py:StochasticGradientCovarianceEstimator.update", "robuststats/online/estimation.py:StochasticGradientCovarianceEstimator.fit"]}
{"id": "C97", "title": "Low-rank signal plus white noise", "statement": "The columns returned by sample_tau_UUH_distribution(tau, U) and its complex version are independent normal (circular complex normal) vectors with mean 0, the i-th with covariance tau_i U U^H + I.", "quantifier": "every U, every non-negative tau of shape (N,) or (N,1), every state of the generator", "why_tests_cant": "equality of laws", "anchors": ["robuststats/utils/generation_data.py:sample_tau_UUH_distribution", "robuststats/utils/generation_data.py:sample_complex_tau_UUH_distribution"]}
{"id": "C98", "title": "Gamma textures have mean one", "statement": "The textures of generate_textures_gamma_dist(N, nu) are positive with mean 1 and variance 1/nu; nu <= 0 is refused.", "quantifier": "every nu, N", "why_tests_cant": "moments of a continuous law", "anchors": ["robuststats/utils/generation_data.py:generate_textures_gamma_dist"]}
{"id": "C99", "title": "Lognormal textures have the requested variance", "statement": "The textures of generate_textures_lognormal_dist(N, variance) are positive with mean 1 and variance equal to the argument.", "quantifier": "every variance > 0, N", "why_tests_cant": "moments of a continuous law", "anchors": ["robuststats/utils/generation_data.py:generate_textures_lognormal_dist"]}
{"id": "C100", "title": "Eigenvalues of generated covariances are chi-square", "statement": "The eigenvalues of generate_covariance(p) have the chi-square law with one degree of freedom, as the comment in the function says.", "quantifier": "every p, every eigenvalue, every law of the draws", "why_tests_cant": "equality of laws", "anchors": ["robuststats/utils/generation_data.py:generate_covariance"]}
{"id": "C101", "title": "When Tyler's estimate exists and is unique", "statement": "Tyler's iteration has a positive definite fixed point, unique up to a positive factor, if and only if every subspace V other than {0} and the whole space holds less than a share dim V / p of the samples. Consequently for samples in general position with N > p the call converges from every start, to a limit independent of it, and stops without warning; with N <= p (p > 1) the estimate is never determined.", "quantifier": "every data set without zero sample, real and complex; every start, tol, normalisation other than None", "why_tests_cant": "existence over a continuum, for all data sets", "anchors": ["robuststats/estimation/covariance.py:tyler_shape_matrix_fixedpoint", "robuststats/estimation/covariance.py:complex_tyler_shape_matrix_fixedpoint"]}
{"id": "C102", "title": "When the Student-t estimate exists, in terms of the data", "statement": "The Student-t iteration has a positive definite fixed point if and only if every proper subspace V holds less than a share (nu + dim V)/(nu + p) of the samples, where nu is df/2 for real and df for complex data. Consequently for samples in general position with N >= p the call converges geometrically from every start to one matrix and stops without warning.", "quantifier": "every data set, zero samples included, df > 0, start, tol", "why_tests_cant": "existence over a continuum, for all data sets", "anchors": ["robuststats/estimation/covariance.py:student_t_mle_fixed_point", "robuststats/estimation/covariance.py:complex_student_t_mle_fixed_point"]}
{"id": "C103", "title": "When the Huber estimate exists and is unique", "statement": "The Huber iteration has exactly one positive definite fixed point if and only if the samples span the space; the fixed point is beta times the plain second moment M exactly when no sample has x^H M^-1 x > lbda*beta.", "quantifier": "every data set, q in (0,1), real and complex", "why_tests_cant": "existence and uniqueness over a continuum of matrices, for all data sets", "anchors": ["robuststats/estimation/covariance.py:huber_m_estimator_fixed_point", "robuststats/estimation/covariance.py:complex_huber_m_estimator_fixed_point"]}
{"id": "C104", "title": "The Huber iteration converges from every start", "statement": "On spanning data, from every positive definite init (or none), the matrix returned by the Huber fixed-point functions tends to the estimate as iter_max grows and tol shrinks, and for every positive tol the loop stops by itself without the non-convergence warning.", "quantifier": "every spanning data set, q in (0,1), init, tol, iter_max", "why_tests_cant": "an asymptotic statement over unboundedly many iterations; the data sets that oscillate are special", "anchors": ["robuststats/estimation/covariance.py:huber_m_estimator_fixed_point", "robuststats/estimation/covariance.py:complex_huber_m_estimator_fixed_point"]}
{"id": "C105", "title": "The natural-gradient and fixed-point methods compute the same Tyler estimate", "statement": "When the solver returns a minimiser of the cost it is given, the natural-gradient functions return, for the normalisations trace, determinant and element, exactly the matrix to which the fixed-point functions converge from every start, on all data for which Tyler's estimate is unique; without normalisation they return a fixed point of the iteration.", "quantifier": "every data set without zero samples in which every proper subspace holds less than its share of the samples, every start of either method, every normalisation that fixes the scale", "why_tests_cant": "equality of two optimisation procedures over all data and starting points; a test compares two approximate outputs on samples drawn from circular distributions, where the discrepancy of the complex version vanishes as the sample size grows", "anchors": ["robuststats/estimation/covariance.py:tyler_shape_matrix_naturalgradient", "robuststats/estimation/covariance.py:complex_tyler_shape_matrix_naturalgradient", "robuststats/estimation/covariance.py:tyler_shape_matrix_fixedpoint"]}
{"id": "C106", "title": "FeaturesEstimation works on copies of the estimator", "statement": "FeaturesEstimation(est, n_jobs).transform(X) leaves est as it was, and feature i is the one that est, in the state in which it was given, computes on trial i, whatever n_jobs, the joblib backend and the order in which the workers run.", "quantifier": "every estimator object (any state, any fit, any transform), every number of trials, every number of batches and every interleaving of the workers", "why_tests_cant": "interleavings of threads and estimator behaviours are unbounded, and a sequential test with an estimator without memory cannot see that the copy is dropped", "anchors": ["robuststats/estimation/base.py:_feature_estimation", "robuststats/estimation/base.py:FeaturesEstimation.transform"]}
{"id": "C107", "title": "shape, dtype and nb_manifolds describe what a feature array holds", "statement": "For a _FeatureArray with declared item shapes, after any sequence of accepted appends shape is one tuple (len, item shape) per component and dtype one dtype per component, equal to those of the stacked items it holds; without items shape is 0 and dtype is (); nb_manifolds is the number of components.", "quantifier": "every number of components, all shapes, dtypes and histories of appends", "why_tests_cant": "all histories and shapes; tests append items of the declared shape only", "anchors": ["robuststats/estimation/base.py:_FeatureArray.shape", "robuststats/estimation/base.py:_FeatureArray.dtype", "robuststats/estimation/base.py:_FeatureArray.append"]}
{"id": "C108", "title": "A feature array owns its data", "statement": "What a program sees of its numpy arrays and _FeatureArray objects is as if every array were a value: append changes the feature array it is called on and nothing else, indexing and export leave later changes of one object invisible in the others, and writing to an array that was appended, or to an exported one, does not change the feature array.", "quantifier": "every program made of array creation, views, construction, append (arrays, lists, feature arrays, also rejected ones), indexing, export and writes, of any length", "why_tests_cant": "sharing shows only in particular interleavings of appends, views and writes over several objects", "anchors": ["robuststats/estimation/base.py:_FeatureArray.append", "robuststats/estimation/base.py:_FeatureArray.__getitem__", "robuststats/estimation/base.py:_FeatureArray.export"]}
{"id": "C109", "title": "get_precision is the pseudo-inverse of the covariance", "statement": "After any sequence of fits, direct settings of the covariance and attribute changes on a ComplexEmpiricalCovariance object that has a covariance_, get_precision() is the Moore-Penrose inverse of covariance_ (its inverse when invertible), whatever store_precision is.", "quantifier": "all sequences of operations, all data and dimensions, both values of store_precision and assume_centered, every pinvh meeting its contract", "why_tests_cant": "the stored precision can go stale or missing only along particular histories; the claim is about all of them", "anchors": ["robuststats/estimation/base.py:ComplexEmpiricalCovariance._set_covariance", "robuststats/estimation/base.py:ComplexEmpiricalCovariance.fit"]}
{"id": "C110", "title": "The score of a fitted complex covariance is the complex Gaussian log-likelihood", "statement": "For a fitted ComplexEmpiricalCovariance with positive definite covariance_, score(X_test) is the mean log-density of the rows of X_test under the circular complex normal law with mean location_ and covariance covariance_.", "quantifier": "all fitted objects, test sets and dimensions", "why_tests_cant": "no test calls score on complex data; an identity over all data", "anchors": ["robuststats/estimation/base.py:ComplexEmpiricalCovariance", "robuststats/estimation/base.py:ComplexEmpiricalCovariance._validate_data"]}
{"id": "C111", "title": "The Kronecker MM algorithm converges", "statement": "If the fixed-point equations of estimation_cov_kronecker_MM have a positive definite solution (A, B) that is unique up to the two scales, then the estimates tend to (s A, t B) with scales depending on the data only: within any eps once enough iterations are done, and also once tol is small enough and iter_max large enough, for fit of KroneckerEllipticalMM as well. With tol > 0 the loop stops by itself without warning for large iter_max. A positive definite limit always solves the equations, and the solution is unique up to scale when the samples have no common two-sided symmetry.", "quantifier": "all real or complex data sets, sizes a, b, N, tolerances and iter_max", "why_tests_cant": "a limit over infinitely many iterations for all data; tests run one data set to one tolerance", "anchors": ["robuststats/estimation/structured.py:estimation_cov_kronecker_MM", "robuststats/estimation/structured.py:KroneckerEllipticalMM.fit"]}
{"id": "C112", "title": "A small tolerance gives an accurate estimate", "statement": "For the Tyler, Student-t and Huber fixed-point functions, whenever the results tend to a matrix as the number of iterations grows, every eps > 0 has a tolerance and an iter_max from which on every call returns a matrix within eps of the limit: the stopping rule never ends the loop early by accident. For data in general position (N > p for Tyler with a normalisation, N >= p for Student-t) this holds with one limit for all starting points. It holds for Huber's estimators from every starting point if at a fixed point the samples inside the threshold span the space.", "quantifier": "all data in general position (or with convergent results), starting points, tolerances, eps", "why_tests_cant": "a statement over all tolerances and an unbounded number of iterations", "anchors": ["robuststats/estimation/covariance.py:tyler_shape_matrix_fixedpoint", "robuststats/estimation/covariance.py:student_t_mle_fixed_point", "robuststats/estimation/covariance.py:huber_m_estimator_fixed_point", "robuststats/estimation/covariance.py:complex_tyler_shape_matrix_fixedpoint"]}
{"id": "C113", "title": "KroneckerStudent.fit never makes the training data less likely", "statement": "With a solver which does not lose ground, KroneckerStudent(a, b, df).fit(X, init) stores the location (zero if assume_centered, else the sample mean), a positive definite pair (A, B) and the covariance A kron B, and the training samples are at least as likely under the complex t law with the fitted parameters as under the one with the starting pair: init when given, the identities otherwise. With an ideal solver the fitted covariance is the maximum likelihood estimate among Kronecker products, when there is one.", "quantifier": "all a, b > 0, df > 0, complex data sets with at least one sample, starting points, both values of assume_centered, all solvers meeting the contract", "why_tests_cant": "an inequality for all data, starting points and solvers; tests compare one estimate with the true parameter", "anchors": ["robuststats/estimation/structured.py:KroneckerStudent.fit", "robuststats/estimation/structured.py:_estimate_covariance_kronecker_t_gradient"]}
{"id": "C114", "title": "Second value and scale invariance of the natural-gradient Tyler functions", "statement": "The second value returned by the natural-gradient Tyler functions is the opposite of Tyler's cost, of the samples divided by their norms, at the returned estimate, for every normalisation; multiplying each sample by a positive number of its own changes neither value, for real and complex data and whatever the solver does. It is not the error between two iterations which the docstring announces: it can be negative.", "quantifier": "all real or complex data sets without zero samples, positive scale factors, normalisations, starting points and solvers returning a positive definite matrix", "why_tests_cant": "an identity of real numbers for all data and solvers; the existing tests do not look at the second value", "anchors": ["robuststats/estimation/covariance.py:tyler_shape_matrix_naturalgradient", "robuststats/estimation/covariance.py:complex_tyler_shape_matrix_naturalgradient"]}
{"id": "C115", "title": "pdf is a probability density with the stated moments", "statement": "pdf of complex_multivariate_normal, as module function and frozen, is positive, integrates to one over C^p, and the law with this density has the given mean, the given covariance E[(z-m)(z-m)^H] and pseudo-covariance E[(z-m)(z-m)^T] = 0. For the frozen complex t law the same holds with covariance df/(df-2) times the shape when df > 2. With real parameters the densities are those of laws on R^p with the corresponding mean and covariance.", "quantifier": "all dimensions, means (left out, real, complex), positive definite covariances, df > 0, data arrays", "why_tests_cant": "integrals over C^p for all parameters; tests evaluate the density at single points", "anchors": ["robuststats/models/probability.py:complex_multivariate_normal_gen.pdf", "robuststats/models/probability.py:complex_multivariate_normal_frozen.logpdf", "robuststats/models/probability.py:complex_multivariate_t_frozen.logpdf"]}
{"id": "C116", "title": "rvs draws independently from the density pdf", "statement": "If the rows drawn by scipy's real sampler are independent and each has the real normal (or t) density, then the rows returned by rvs with complex parameters are independent and the law of each has exactly the density returned by pdf for the same parameters, normal and t, module function and frozen.", "quantifier": "all dimensions, sizes, means, positive definite covariances, df > 0, samplers meeting the contract", "why_tests_cant": "a statement about probability laws; tests see finitely many draws", "anchors": ["robuststats/models/probability.py:complex_multivariate_normal_gen.rvs", "robuststats/models/probability.py:complex_multivariate_normal_frozen.rvs", "robuststats/models/probability.py:complex_multivariate_t_gen.rvs", "robuststats/models/probability.py:complex_multivariate_t_frozen.rvs"]}
{"id": "C117", "title": "entropy is the differential entropy of pdf", "statement": "entropy, as module function and frozen, returns minus the integral of f log f for the density f returned by pdf with the same parameters, real and complex.", "quantifier": "all dimensions, means and positive definite covariances", "why_tests_cant": "an integral over C^p for all parameters", "anchors": ["robuststats/models/probability.py:complex_multivariate_normal_gen.entropy"]}
{"id": "C118", "title": "cdf and logcdf are the distribution function of pdf", "statement": "With complex parameters, cdf at z (module function and frozen) is, within the error of scipy's integration routine, the probability under the density returned by pdf that all real and imaginary parts are at most those of z; with real parameters it is the distribution function. With exact integration logcdf is the logarithm of this probability, which is positive.", "quantifier": "all dimensions, means, positive definite covariances, data arrays, integration routines with error at most epsilon", "why_tests_cant": "a probability of an orthant for all parameters and arguments; the repository has no test of cdf", "anchors": ["robuststats/models/probability.py:complex_multivariate_normal_gen.cdf", "robuststats/models/probability.py:complex_multivariate_normal_gen.logcdf", "robuststats/models/probability.py:complex_multivariate_normal_frozen.cdf"]}
{"id": "C119", "title": "ComplexEmpiricalCovariance is consistent; its expectation", "statement": "For independent samples of a law on C^p with mean m and covariance S, location_ and covariance_ after fit tend almost surely to m and S as the number of samples grows; with assume_centered=True covariance_ tends to S + m m^H. For N samples the expectation of covariance_ is (1 - 1/N) S (biased), respectively S + m m^H.", "quantifier": "all p >= 1, laws with finite second moments, probability spaces, numbers of samples", "why_tests_cant": "a limit over an infinite sequence of random samples; every law", "anchors": ["robuststats/estimation/base.py:ComplexEmpiricalCovariance.fit", "robuststats/estimation/base.py:complex_empirical_covariance"]}
{"id": "C120", "title": "Tyler's estimator is consistent for elliptical laws", "statement": "On independent samples of an elliptical law with scatter matrix S (normalised like the result), which gives probability zero to proper subspaces, the results of tyler_shape_matrix_fixedpoint and its complex counterpart tend to S almost surely as the number of samples grows, from every start, for small enough tol and large enough iter_max. No moment need exist. The laws of rvs with mean zero (normal, Student-t, real and complex) are such laws.", "quantifier": "all dimensions p >= 1, laws, scatter matrices, the three normalisations, starts", "why_tests_cant": "a limit over infinitely many samples and iterations, with probability one", "anchors": ["robuststats/estimation/covariance.py:tyler_shape_matrix_fixedpoint", "robuststats/estimation/covariance.py:complex_tyler_shape_matrix_fixedpoint", "robuststats/models/probability.py"]}
{"id": "C121", "title": "Student-t estimators are consistent for the t law with the same df", "statement": "On independent samples of the t law with df degrees of freedom and scatter matrix S, student_t_mle_fixed_point and its complex counterpart called with the same df tend to S almost surely. False: the results tend to kappa S with kappa < 1 (real), kappa > 1 (complex). They are consistent on samples with df/2 (real), respectively 2 df (complex) degrees of freedom; on samples of any elliptical law they tend to a multiple of the scatter matrix given by a scalar equation.", "quantifier": "all dimensions p >= 1, df > 0, positive definite S, starts", "why_tests_cant": "a limit over infinitely many samples; the repository's tests compare no estimate with the law of the samples", "anchors": ["robuststats/estimation/covariance.py:student_t_mle_fixed_point", "robuststats/estimation/covariance.py:complex_student_t_mle_fixed_point", "robuststats/models/probability.py"]}
{"id": "C122", "title": "Large-sample limit of the Huber estimators", "statement": "On independent samples of a law for which S solves E[beta max(1, x^H S^-1 x / lbda) x x^H] = S, with samples inside the threshold possible, the results of the Huber fixed-point functions tend to S almost surely as the number of samples grows, from every start, for small enough tol and large enough iter_max (in particular the oscillations of C104 do not occur for large N). For an elliptical law with scatter matrix S and finite fourth moment the limit is kappa S, where beta E[max(1, d/(kappa lbda)) d] = p kappa and d = x^H S^-1 x.", "quantifier": "all dimensions p >= 1, laws giving probability zero to proper subspaces, q in (0,1), starts, real and complex", "why_tests_cant": "a limit over infinitely many samples and iterations, with probability one", "anchors": ["robuststats/estimation/covariance.py:huber_m_estimator_fixed_point", "robuststats/estimation/covariance.py:complex_huber_m_estimator_fixed_point"]}
{"id": "C123", "title": "Huber estimators are consistent on normal data", "statement": "With exact chi-square functions, on independent samples of the centred normal law with covariance S the results of the Huber fixed-point functions tend to S almost surely. False: they tend to kappa S with kappa > 1, for real and for complex data and for every q in (0,1), because the weight is beta max(1, d/lbda) instead of beta' min(1, lbda/d).", "quantifier": "all dimensions p >= 1, q in (0,1), positive definite S, starts", "why_tests_cant": "a limit over infinitely many samples; the excess over 1 is hidden by sampling error in a test", "anchors": ["robuststats/estimation/covariance.py:huber_m_estimator_fixed_point", "robuststats/estimation/covariance.py:complex_huber_m_estimator_fixed_point", "robuststats/models/probability.py"]}
{"id": "C124", "title": "Huber estimates of heavy-tailed data have a limit exactly when fourth moments are finite", "statement": "On independent samples of an elliptical law the Huber estimates have an almost sure limit if the law has a finite fourth moment; otherwise they almost surely have no limit and grow without bound. On Student-t samples with df degrees of freedom: a limit (a multiple of the scatter matrix) for df > 4, none for df <= 4.", "quantifier": "all dimensions p >= 1, elliptical laws, df > 0, q in (0,1), starts, real and complex", "why_tests_cant": "the absence of a limit is a statement about infinitely many samples", "anchors": ["robuststats/estimation/covariance.py:huber_m_estimator_fixed_point", "robuststats/estimation/covariance.py:complex_huber_m_estimator_fixed_point", "robuststats/models/probability.py"]}
{"id": "C125", "title": "Constructors accept every parameter except an unknown method", "statement": "Creating an estimator always succeeds and leaves existing objects as they are, except TylerShapeMatrix and ComplexTylerShapeMatrix with a method other than 'fixed-point' and 'natural gradient', which raise NotImplementedError; sklearn's clone of an object whose method attribute has been changed to such a name raises too.", "quantifier": "all classes, parameters, heaps of existing objects", "why_tests_cant": "unbounded parameter space, and the effect of failures on other objects is not observed in tests", "anchors": ["robuststats/estimation/covariance.py:TylerShapeMatrix.set_method", "robuststats/estimation/covariance.py:ComplexTylerShapeMatrix.set_method", "robuststats/estimation/covariance.py:CenteredStudentMLE.__init__", "robuststats/estimation/covariance.py:HuberMEstimator.__init__"]}
{"id": "C126", "title": "Number of wrong samples that the Student-t estimators withstand", "statement": "For N > p samples in general position, the eigenvalues of the Student-t estimate stay within fixed positive bounds whatever m samples are replaced by anything, if and only if m(nu+p) < N and m(nu+p) < nu N, where nu = df/2 for real and nu = df for complex data. Under these conditions the calls converge, from every start, to an estimate within the bounds for every replacement. With m(nu+p) >= nu N shrinking m samples takes the smallest eigenvalue below any bound; with m(nu+p) >= N moving m samples far away in one direction takes the largest one above any bound.", "quantifier": "all N > p >= 1, df > 0, m, data in general position, replacements, starts", "why_tests_cant": "a statement about all replacements of samples, unbounded in size", "anchors": ["robuststats/estimation/covariance.py:student_t_mle_fixed_point", "robuststats/estimation/covariance.py:complex_student_t_mle_fixed_point"]}
{"id": "C127", "title": "The Huber estimators withstand a wrong sample", "statement": "Replacing one sample changes the result of the Huber fixed-point functions by a bounded amount only. False: scaling up any single non-zero sample takes the largest eigenvalue of the result above any bound, for every start, tolerance and positive iter_max, because far samples get a weight of at least beta instead of lbda/distance. What holds: as long as p right samples in general position are left, the eigenvalues stay above a fixed bound.", "quantifier": "all spanning data, q in (0,1), samples, bounds, starts, tol, iter_max >= 1", "why_tests_cant": "a statement about samples of unbounded size; no finite set of outliers shows the absence of a bound", "anchors": ["robuststats/estimation/covariance.py:huber_m_estimator_fixed_point", "robuststats/estimation/covariance.py:complex_huber_m_estimator_fixed_point"]}
{"id": "C128", "title": "Number of wrong samples that Tyler's estimator withstands", "statement": "For samples in general position, 2 <= p < N, the condition number of Tyler's estimate has a bound that holds for all replacements of m samples by non-zero vectors, if and only if p(m+1) < N. Under this condition the calls converge, from every start and with each normalisation, to an estimate within the bound; otherwise m copies of another sample leave no estimate at all.", "quantifier": "all N > p >= 2, m, data in general position, replacements, starts, normalisations", "why_tests_cant": "a statement about all replacements of samples", "anchors": ["robuststats/estimation/covariance.py:tyler_shape_matrix_fixedpoint", "robuststats/estimation/covariance.py:complex_tyler_shape_matrix_fixedpoint"]}
{"id": "C129", "title": "The text of a feature array shows its items", "statement": "str(fa) and repr(fa) show exactly the items of the feature array: two feature arrays with the same items have the same text.", "quantifier": "every history of appends", "why_tests_cant": "the unused rows of the buffer appear only after a second append; every history must be considered", "anchors": ["robuststats/estimation/base.py:_FeatureArray.__str__", "robuststats/estimation/base.py:_FeatureArray.__repr__"]}
{"id": "C130", "title": "matprint shows every entry under the given format, in aligned columns", "statement": "For every format accepted by str.format for the entries, matprint(mat, fmt) prints one line per row, all of the same length, in which each entry appears as formatted by fmt, right-aligned in its column.", "quantifier": "every matrix, every format string", "why_tests_cant": "all formats and all matrices; a wrong fill character shows up only for entries shorter than the width", "anchors": ["robuststats/utils/verbose.py:matprint"]}
{"id": "C131", "title": "The progress bar logs one line per refresh, none before the first iteration", "statement": "logging_tqdm.display sends nothing to the logger before the first iteration and afterwards exactly one info line per call: the message given, or the text of the bar.", "quantifier": "every iteration count, message and text", "why_tests_cant": "display timing depends on the clock", "anchors": ["robuststats/utils/verbose.py:logging_tqdm.display"]}
{"id": "C132", "title": "Mahalanobis distances of a complex covariance estimator", "statement": "After fit, ComplexEmpiricalCovariance.mahalanobis(X) returns one squared distance to the mean per sample.", "quantifier": "every fitted object, every array", "why_tests_cant": "every state and array", "anchors": ["robuststats/estimation/base.py:ComplexEmpiricalCovariance.fit"]}
{"id": "C133", "title": "RealCovarianceScale keeps the covariance and the scale it is given", "statement": "After storing a covariance and a scale in a RealCovarianceScale, transform returns both unchanged whatever its argument; a vector of scales, one per sample, can be stored.", "quantifier": "every sequence of operations, every array", "why_tests_cant": "every history and array", "anchors": ["robuststats/estimation/base.py:RealCovarianceScale"]}
{"id": "C134", "title": "fit does not silently discard an argument", "statement": "A keyword argument of fit other than y and init either has an effect or makes the call raise TypeError.", "quantifier": "every estimator class and method, every list of keyword names, every state of the object, every data array and initial point", "why_tests_cant": "every set of names and every state of the object", "anchors": ["robuststats/estimation/covariance.py:HuberMEstimator.fit", "robuststats/estimation/covariance.py:CenteredStudentMLE.fit", "robuststats/estimation/covariance.py:TylerShapeMatrix.fit", "robuststats/estimation/covariance.py:TylerShapeMatrix.set_method"]}
{"id": "C135", "title": "n_features_in_ is the number of columns of the data", "statement": "After a successful fit, n_features_in_ is the number of columns of the data and the number of rows and columns of covariance_.", "quantifier": "every estimator class, real and complex, every state, data array, initial point and keyword arguments", "why_tests_cant": "every array and state", "anchors": ["robuststats/estimation/base.py:ComplexEmpiricalCovariance._validate_data", "robuststats/estimation/covariance.py:HuberMEstimator.fit"]}
{"id": "C136", "title": "A fit that raises leaves the estimator as it was", "statement": "When fit of a Huber, Student-t or Tyler estimator raises, the parameters, covariance_, err_, iteration_ and n_features_in_ of every object are as before the call.", "quantifier": "every estimator class, state, data array, initial point and keyword arguments", "why_tests_cant": "every failing call in every state", "anchors": ["robuststats/estimation/covariance.py:HuberMEstimator.fit", "robuststats/estimation/covariance.py:CenteredStudentMLE.fit", "robuststats/estimation/covariance.py:TylerShapeMatrix.fit"]}
{"id": "C137", "title": "transform returns the estimate of the last successful fit", "statement": "transform returns the covariance of the last successful fit whatever its argument and whatever failed fits and parameter changes have come since; before the first successful fit it raises AttributeError; fit_transform(X) is fit(X) followed by transform, with the same exceptions.", "quantifier": "every history of fit, set_params and transform calls", "why_tests_cant": "unbounded histories", "anchors": ["robuststats/estimation/base.py:RealEmpiricalCovariance.transform"]}
{"id": "C138", "title": "KroneckerStudent honours parameters changed after construction", "statement": "After set_params or assignment to a, b, df or assume_centered, alpha and manifold are those of a new KroneckerStudent with the current parameters and fit does what it does on that new object.", "quantifier": "every history of set_params, fit and score calls, every solver", "why_tests_cant": "unbounded histories and every solver", "anchors": ["robuststats/estimation/structured.py:KroneckerStudent.__init__", "robuststats/estimation/structured.py:KroneckerStudent.fit"]}
{"id": "C139", "title": "A KroneckerStudent.fit that raises leaves the estimator as it was", "statement": "When KroneckerStudent.fit raises, the parameters, location_, A_, B_ and covariance_ are as before the call.", "quantifier": "every state, data array, initial point and solver", "why_tests_cant": "every failing call in every state", "anchors": ["robuststats/estimation/structured.py:KroneckerStudent.fit", "robuststats/estimation/structured.py:KroneckerStudent.score"]}
{"id": "C140", "title": "The metric of KroneckerStudent is the Fisher information of the model it fits", "statement": "The inner product of the manifold on which KroneckerStudent(a, b, df) optimises is, at every pair (A, B) and for all tangent vectors, the Fisher information of the complex t laws whose likelihood is the cost given to the solver.", "quantifier": "every a, b > 0, df > 0, positive definite pair and tangent vectors", "why_tests_cant": "expectations over a heavy-tailed law in every dimension, for every point and direction", "anchors": ["robuststats/estimation/structured.py:KroneckerStudent.__init__", "robuststats/models/manifolds.py:KroneckerHermitianPositiveElliptical.inner", "robuststats/models/probability.py:complex_multivariate_t_frozen.logpdf"]}
{"id": "C141", "title": "Precision matrix and Mahalanobis distances of a fitted robust estimator", "statement": "After a fit that succeeded, get_precision() of every estimator of covariance.py is the inverse of covariance_, and mahalanobis(X) returns one squared distance per sample.", "quantifier": "every estimator class, real and complex, history of fits and parameter changes, spanning data set, array X and version of sklearn", "why_tests_cant": "all histories, data sets and library versions; the failure concerns inherited methods that the project's own tests do not call", "anchors": ["robuststats/estimation/covariance.py:HuberMEstimator.fit", "robuststats/estimation/covariance.py:CenteredStudentMLE.fit", "robuststats/estimation/covariance.py:TylerShapeMatrix.fit", "robuststats/estimation/covariance.py:ComplexTylerShapeMatrix.fit", "robuststats/estimation/base.py:ComplexEmpiricalCovariance._validate_data"]}
{"id": "C142", "title": "The iterations converge geometrically and their number grows at most logarithmically with 1/tol", "statement": "For data on which the estimate exists (and, for Tyler, is unique up to a factor), every call of the Tyler and Student-t fixed-point functions returns a matrix whose distance to the limit is at most C r^iteration with r < 1, and there is a K such that for every tol in (0, 1] a call with iter_max > K (1 + log(1/tol)) stops without the warning within K (1 + log(1/tol)) iterations.", "quantifier": "every real or complex data set satisfying the existence condition, positive definite start or none, normalisation, df > 0, tol and iter_max", "why_tests_cant": "a rate is a statement about unboundedly many iterations, for every data set and start", "anchors": ["robuststats/estimation/covariance.py:student_t_mle_fixed_point", "robuststats/estimation/covariance.py:tyler_shape_matrix_fixedpoint", "robuststats/estimation/covariance.py:complex_student_t_mle_fixed_point", "robuststats/estimation/covariance.py:complex_tyler_shape_matrix_fixedpoint"]}
{"id": "C143", "title": "The reported error bounds the distance to the exact estimate", "statement": "For data on which the estimate exists (and, for Tyler, is unique up to a factor) there is a constant C, independent of tol and iter_max, such that every call of the Tyler and Student-t fixed-point functions with iter_max >= 1 returns a finite error d and a matrix at distance at most C d of the exact (normalised) estimate.", "quantifier": "every real or complex data set satisfying the existence condition, positive definite start or none, normalisation, df > 0, tol and iter_max >= 1", "why_tests_cant": "the exact estimate is not computable, and the bound concerns all tolerances at once", "anchors": ["robuststats/estimation/covariance.py:student_t_mle_fixed_point", "robuststats/estimation/covariance.py:tyler_shape_matrix_fixedpoint", "robuststats/estimation/covariance.py:complex_student_t_mle_fixed_point", "robuststats/estimation/covariance.py:complex_tyler_shape_matrix_fixedpoint"]}
{"id": "C144", "title": "The Tyler and Student-t estimates depend continuously on the data", "statement": "Take data on which the estimate exists (and, for Tyler, is unique up to a factor; with one of the three normalisations). Then every data set close enough to it, entry by entry, also has an estimate, and that estimate tends to the estimate of the original data as the data sets do. Here the estimate of a data set is the matrix that the calls approach: from every start, a call with small enough tol and large enough iter_max ends without warning as close to it as wanted.", "quantifier": "every real or complex data set satisfying the existence condition, every perturbation of it, normalisation, df > 0, positive definite start or none, tol and iter_max", "why_tests_cant": "concerns all perturbations and the limits of the iterations at once; the modulus of continuity depends on the data", "anchors": ["robuststats/estimation/covariance.py:student_t_mle_fixed_point", "robuststats/estimation/covariance.py:tyler_shape_matrix_fixedpoint", "robuststats/estimation/covariance.py:complex_student_t_mle_fixed_point", "robuststats/estimation/covariance.py:complex_tyler_shape_matrix_fixedpoint"]}
{"id": "C145", "title": "When the Kronecker estimate exists and is unique", "statement": "Reshape each sample into a matrix. The fixed-point equations of the Kronecker estimation have a positive definite solution that is unique up to the scales of the two factors if and only if the samples are spread out: for every choice of bases of the row and column spaces and weights on them, not all equal, the average over the samples of the largest weight carried by a nonzero entry exceeds the average weight. More than a*b samples in general position are spread out; one sample never is when a*b > 1. On spread-out samples the call converges to one such pair as tol shrinks and iter_max grows, and stops without warning for every positive tol once iter_max is large enough; fit stores the pair and its Kronecker product.", "quantifier": "every real or complex data set of nonzero samples, dimensions a and b, tol, iter_max", "why_tests_cant": "the condition ranges over all bases and weights, and existence, uniqueness and convergence concern all candidate pairs and unboundedly long runs", "anchors": ["robuststats/estimation/structured.py:estimation_cov_kronecker_MM", "robuststats/estimation/structured.py:KroneckerEllipticalMM.fit"]}
{"id": "C146", "title": "CovariancesEstimation with the package's own estimators", "statement": "CovariancesEstimation(est, n_jobs).transform(X, init=init), for est any Huber, Student or Tyler estimator of the package, returns the stack whose entry i is the covariance that a newly constructed estimator with the same parameters computes on X[i], whatever est did before, for n_jobs = 1 as for threads or worker processes in any order; it raises when some trial cannot be fitted; and with n_jobs other than 1 it leaves all objects of the user as they were.", "quantifier": "every class, parameters, history of the estimator, stack of real or complex trials, initial point, n_jobs, division of the trials among the workers and order of their steps", "why_tests_cant": "unboundedly many trials, histories and interleavings; copies share a function with the original, which matters only in some of them", "anchors": ["robuststats/estimation/base.py:CovariancesEstimation.transform", "robuststats/estimation/base.py:_fit_transform_covariance_copy", "robuststats/estimation/covariance.py:TylerShapeMatrix.fit", "robuststats/estimation/covariance.py:TylerShapeMatrix.set_method"]}
{"id": "C147", "title": "ehess2rhess of weighted products is the Riemannian Hessian", "statement": "For a function of all the components of a WeightedProduct with Euclidean gradient egrad whose derivative along H is ehess, ehess2rhess(X, egrad, ehess, H) is the Riemannian Hessian for the weighted metric: the second derivative of the function along the geodesic of direction H is inner(X, ehess2rhess(...), H), and the operator is self-adjoint. This is to hold for products of the manifolds of the package and for KroneckerHermitianPositiveElliptical.", "quantifier": "every number of components, non-zero weights, points, tangent vectors and functions, coupled or not", "why_tests_cant": "all functions, directions and sizes; a test checks one function by finite differences", "anchors": ["robuststats/models/manifolds.py:WeightedProduct.ehess2rhess", "robuststats/models/manifolds.py:KroneckerHermitianPositiveElliptical"]}
{"id": "C148", "title": "Kronecker MM never returns a singular covariance: degenerate data raise", "statement": "estimation_cov_kronecker_MM, and fit of KroneckerEllipticalMM, either return positive definite A and B or raise: ValueError when a sample is zero, LinAlgError when the samples reshaped into b x a matrices vanish together in a direction of the columns or of the rows, which is always so with too few samples (n_samples*b < a or n_samples*a < b).", "quantifier": "every data set, size, tolerance and number of iterations", "why_tests_cant": "all data sets; the failure shows only with degenerate data and few iterations", "anchors": ["robuststats/estimation/structured.py:estimation_cov_kronecker_MM", "robuststats/estimation/structured.py:KroneckerEllipticalMM.fit"]}
{"id": "C149", "title": "The Kronecker MM estimator is consistent up to scale for elliptical laws", "statement": "On independent samples of an elliptical law with scatter matrix kron(A, B), which gives probability zero to proper subspaces, the covariance_ of KroneckerEllipticalMM(a, b, tol, iter_max).fit divided by its trace tends almost surely to kron(A, B) divided by its trace as the number of samples grows, for small enough tol and large enough iter_max; the two matrices returned by estimation_cov_kronecker_MM tend to the shapes of A and B. False for complex data: the limit is the shape of kron(A.T, B), which differs as soon as A has an entry that is not real. True for real data and for real A.", "quantifier": "all sizes a, b >= 1, positive definite A and B, laws and sample sequences (with probability one)", "why_tests_cant": "a limit over infinitely many samples and iterations, with probability one, for all laws", "anchors": ["robuststats/estimation/structured.py:estimation_cov_kronecker_MM", "robuststats/estimation/structured.py:KroneckerEllipticalMM.fit"]}
{"id": "C150", "title": "Maximum likelihood with KroneckerStudent: the estimate exists, is unique and is consistent", "statement": "Take KroneckerStudent(a, b, df) with a solver that returns a minimiser of the cost it is given whenever one exists. On complex data such that every proper subspace V holds fewer than n (df/2 + dim V) / (df/2 + a b) of the n centred samples, exactly one Kronecker product of positive definite matrices maximises the likelihood of the complex t law, and fit stores it in covariance_, whatever the positive definite init. With assume_centered=True, on independent samples of the complex t law with scatter matrix kron(A, B) and the same df, covariance_ tends almost surely to kron(A, B), scale included; for the other elliptical laws with this scatter matrix (with no mass on proper subspaces) it tends to a multiple of it.", "quantifier": "all a, b >= 1, df > 0, data, positive definite A, B and init, laws and sample sequences (with probability one)", "why_tests_cant": "existence and uniqueness of a maximum over a non-compact set of matrices, and a limit with probability one over infinitely many samples", "anchors": ["robuststats/estimation/structured.py:KroneckerStudent.fit", "robuststats/estimation/structured.py:_estimate_covariance_kronecker_t_gradient"]}
{"id": "C151", "title": "Student-t estimates with a large df are close to the sample covariance", "statement": "Let X be n samples of p features that span the feature space, M = (1/n) sum_i x_i x_i^H and nu = df/2 (real data) or nu = df (complex data). If nu > n - p, the Student-t fixed-point equation has a positive definite solution. For every df > 0, each positive definite S that one iteration of student_t_mle_fixed_point (or the complex version) leaves unchanged satisfies (1 - (n-p)/nu) M <= S <= (1 + p/nu) M, where A <= B means that B - A is positive semi-definite. For every eps there is a df0 such that for all df >= df0 the call, from every positive definite init or the default one, returns a matrix within eps of M if tol is small enough and iter_max large enough.", "quantifier": "all n, p >= 1, spanning real or complex data, df > 0, eps > 0, inits, small tol and large iter_max", "why_tests_cant": "a bound valid for all data and all df, and a limit in df", "anchors": ["robuststats/estimation/covariance.py:student_t_mle_fixed_point", "robuststats/estimation/covariance.py:complex_student_t_mle_fixed_point"]}
{"id": "C152", "title": "Student-t estimates with a small df are close to a multiple of Tyler's estimate", "statement": "Let X be n nonzero samples of p features and T a positive definite matrix that one iteration of tyler_shape_matrix_fixedpoint with normalisation 'None' (or the complex version) leaves unchanged; write q_i = x_i^H T^-1 x_i. For spanning data and every df > 0, the Student-t estimate S satisfies (min_i q_i / p) T <= S <= (max_i q_i / p) T. If every proper nonzero subspace V holds fewer than n dim(V)/p samples (so that T is unique up to scale), then for every eps there is a df0 > 0 such that for all 0 < df <= df0 student_t_mle_fixed_point, from every positive definite init or the default one, returns a matrix within eps of c T with c = n / (p sum_i 1/q_i), if tol is small enough and iter_max large enough.", "quantifier": "all n, p >= 1, real or complex data meeting the condition, df > 0, eps > 0, inits, small tol and large iter_max", "why_tests_cant": "a bound valid for all data and all df, and a limit in df", "anchors": ["robuststats/estimation/covariance.py:student_t_mle_fixed_point", "robuststats/estimation/covariance.py:complex_student_t_mle_fixed_point", "robuststats/estimation/covariance.py:tyler_shape_matrix_fixedpoint"]}
{"id": "C153", "title": "The Kronecker MM estimate depends continuously on the data", "statement": "Let X be nonzero samples of a*b features, real or complex, for which the Kronecker estimate exists and is unique up to the two scales (the condition of C145). There are positive definite A, B such that for every eps there is a delta with: for all data Y whose entries are within delta of those of X, estimation_cov_kronecker_MM(Y, a, b, tol, iter_max) stops by itself without warning for every tol > 0 once iter_max is large enough, and for small enough tol and large enough iter_max the two matrices it returns and their Kronecker product, each divided by its trace, are within eps of A, B and kron(A, B) divided by theirs. The covariance stored by KroneckerEllipticalMM.fit on complex data, divided by its trace, is continuous in the same sense. In particular the condition of C145 holds for all data close to X.", "quantifier": "all n, a, b >= 1, all spread-out real or complex data, all eps > 0, all data within delta, all small tol and large iter_max", "why_tests_cant": "continuity concerns all perturbations and an iterative limit for each of them", "anchors": ["robuststats/estimation/structured.py:estimation_cov_kronecker_MM", "robuststats/estimation/structured.py:KroneckerEllipticalMM.fit"]}
{"id": "C154", "title": "FeaturesEstimation with the package's own estimators", "statement": "FeaturesEstimation(est, n_jobs).transform(trials), where est is one of the Huber, Student-t or Tyler estimators of the package with any history of fits and parameter changes, returns a feature array with one item per trial, in order: the covariance that a newly constructed estimator with the current parameters computes from that trial alone, of dtype float64 or complex128 (whatever the dtype of the data); it raises if such a fit raises for some trial. This holds for every n_jobs, joblib backend, division of the trials among workers and order of execution, and for trials with different numbers of samples.", "quantifier": "all trial lists, estimator classes, parameters, histories, backends, divisions and interleavings", "why_tests_cant": "depends on every interleaving of the workers and every history of the estimator", "anchors": ["robuststats/estimation/base.py:FeaturesEstimation", "robuststats/estimation/base.py:_feature_estimation", "robuststats/estimation/covariance.py:HuberMEstimator.fit"]}
{"id": "C155", "title": "The exact estimates follow linear changes of coordinates", "statement": "Replace every sample x by T x, T invertible (the data X T^T). (1) If the Student-t estimate of X exists (condition of C102) and is S, the calls on X T^T, started anywhere, stop without warning as close as wanted to T S T^H. (2) If Tyler's estimate of X exists (condition of C101) and is S, then for all nonzero numbers d_i the calls on the samples d_i T x_i come as close as wanted to c T S T^H, where c > 0 makes this matrix meet the chosen normalisation (trace p, determinant 1 or first entry 1). (3) If the samples span the space, the only positive definite matrix that a call of the Huber estimator leaves in place on X T^T is T S T^H, S being the only one for X. Real and complex data.", "quantifier": "all data with an estimate, all invertible T, all nonzero sample factors, all starting points, tolerances and normalisations", "why_tests_cant": "all linear maps and limits of all runs; the runs themselves differ because the stopping rule is not invariant (C36)", "anchors": ["robuststats/estimation/covariance.py:student_t_mle_fixed_point", "robuststats/estimation/covariance.py:tyler_shape_matrix_fixedpoint", "robuststats/estimation/covariance.py:huber_m_estimator_fixed_point"]}
{"id": "C156", "title": "The Kronecker MM estimate follows changes of coordinates V ⊗ U", "statement": "Let X be samples of a*b features for which the Kronecker estimate exists (condition of C145), A and B its limits. For invertible V (a by a) and U (b by b) the estimate of the samples (V ⊗ U) x should be, up to scale, (V ⊗ U)(A ⊗ B)(V ⊗ U)^H.", "quantifier": "all spread-out real or complex data, all invertible V, U", "why_tests_cant": "all data and all linear maps, and limits of the calls", "anchors": ["robuststats/estimation/structured.py:estimation_cov_kronecker_MM"]}
{"id": "C157", "title": "The Student-t fixed-point estimate withstands rounding errors", "statement": "Suppose that every matrix student_t_mle_fixed_point (or its complex version) stores in its loop, and its default starting point, are off by at most a relative error u, stay symmetric/Hermitian, and that the relative error err is computed up to u(1+err). For data that have an estimate S and a positive definite starting point there are constants such that for all small u every call returns a positive definite matrix within C(r^iteration + u) of S with r < 1, every tolerance tol with C u <= tol <= 1 is reached without warning within K(1+log(1/tol)) iterations, and the distance of the returned matrix to S is at most C(err + u). With u = 0 the calls are those of the exact model.", "quantifier": "all real or complex data satisfying the existence condition, all df > 0, all positive definite initialisations, all rounding errors bounded by u, all tol and iter_max", "why_tests_cant": "all sequences of rounding errors over arbitrarily many iterations", "anchors": ["robuststats/estimation/covariance.py:student_t_mle_fixed_point", "robuststats/estimation/covariance.py:complex_student_t_mle_fixed_point"]}
{"id": "C158", "title": "Tyler's fixed-point estimate withstands rounding errors", "statement": "Suppose that every matrix tyler_shape_matrix_fixedpoint (or its complex version) stores in its loop, and its default starting point, are off by at most a relative error u, stay symmetric/Hermitian, and that the relative error err is computed up to u(1+err). The scale of the iterates may then drift without limit. For data whose estimate is unique up to a factor, one of the normalisations trace, determinant, element, and a positive definite starting point there are constants such that for all small u every call returns a positive definite matrix within C(r^iteration + u) of the normalised estimate S with r < 1, every tolerance tol with C u <= tol <= 1 is reached without warning within K(1+log(1/tol)) iterations, and the distance of the returned matrix to S is at most C(err + u). With u = 0 the calls are those of the exact model.", "quantifier": "all real or complex data satisfying the uniqueness condition, the three normalisations, all positive definite initialisations, all rounding errors bounded by u, all tol and iter_max", "why_tests_cant": "all sequences of rounding errors over arbitrarily many iterations", "anchors": ["robuststats/estimation/covariance.py:tyler_shape_matrix_fixedpoint", "robuststats/estimation/covariance.py:complex_tyler_shape_matrix_fixedpoint"]}
{"id": "C159", "title": "Tolerances below the rounding errors may never be reached", "statement": "For every u <= 1/2 there are rounding errors of relative size at most u in the matrices stored by the loop (none in the starting point or in the error) for which student_t_mle_fixed_point and tyler_shape_matrix_fixedpoint, real or complex, reach no tolerance below u/2: every call uses exactly iter_max iterations, warns, returns a positive definite matrix and, if iter_max > 0, an error of at least u/2. So the condition C u <= tol of C157 and C158 cannot be dropped, although the exact iteration reaches every positive tolerance.", "quantifier": "all spanning data (without a zero sample for Tyler), df > 0, normalisations, positive definite initialisations, u <= 1/2, tol < u/2, iter_max >= 0", "why_tests_cant": "no reachable tolerance for any number of iterations", "anchors": ["robuststats/estimation/covariance.py:student_t_mle_fixed_point", "robuststats/estimation/covariance.py:tyler_shape_matrix_fixedpoint", "robuststats/estimation/covariance.py:complex_student_t_mle_fixed_point", "robuststats/estimation/covariance.py:complex_tyler_shape_matrix_fixedpoint"]}
{"id": "C160", "title": "The Huber estimate depends continuously on the data", "statement": "For every data set that spans the space, the only positive definite matrix that one iteration of huber_m_estimator_fixed_point (or its complex version) leaves unchanged depends continuously on the data: for every eps there is a delta such that all data whose entries differ by less than delta also have exactly one such matrix, at a Frobenius distance below eps. If moreover the samples whose quadratic form at that matrix is below the threshold span the space, the function itself computes it, for the data and for all data close to them: from every positive definite start, with a small enough tol and a large enough iter_max, it stops without warning as close to it as wanted.", "quantifier": "all real or complex data that span the space, 0 < q < 1, all perturbations of the data, all positive definite initialisations", "why_tests_cant": "continuity over all data and all perturbations", "anchors": ["robuststats/estimation/covariance.py:huber_m_estimator_fixed_point", "robuststats/estimation/covariance.py:complex_huber_m_estimator_fixed_point"]}
{"id": "C161", "title": "Where the Huber iteration converges it does so geometrically, and its error can be trusted", "statement": "If at the fixed point S the samples whose quadratic form is below the threshold span the space, then for huber_m_estimator_fixed_point and its complex version, from every positive definite start: the returned matrix is within C r^iteration of S with r < 1; every tolerance tol in (0, 1] is reached without warning within K(1+log(1/tol)) iterations; and the distance of the returned matrix to S is at most a constant times the reported error.", "quantifier": "all real or complex data that span the space with the condition on the samples below the threshold, 0 < q < 1, all positive definite initialisations, all tol and iter_max", "why_tests_cant": "rates and bounds over all tolerances and iteration numbers", "anchors": ["robuststats/estimation/covariance.py:huber_m_estimator_fixed_point", "robuststats/estimation/covariance.py:complex_huber_m_estimator_fixed_point"]}
{"id": "C162", "title": "The Huber fixed-point estimate withstands rounding errors", "statement": "Suppose that every matrix huber_m_estimator_fixed_point (or its complex version) stores in its loop, and its default starting point, are off by at most a relative error u, stay symmetric/Hermitian, and that the relative error err is computed up to u(1+err). If at the fixed point S the samples below the threshold span the space, there are constants such that for all small u every call returns a positive definite matrix within C(r^iteration + u) of S with r < 1, every tolerance tol with C u <= tol <= 1 is reached without warning within K(1+log(1/tol)) iterations, and the distance of the returned matrix to S is at most C(err + u). With u = 0 the calls are those of the exact model. Conversely, for all spanning data and u <= 1/2, some errors within u keep the calls from reaching any tolerance below u/2.", "quantifier": "all real or complex data that span the space (with the condition on the samples below the threshold for stability), 0 < q < 1, all positive definite initialisations, all rounding errors bounded by u, all tol and iter_max", "why_tests_cant": "all sequences of rounding errors over arbitrarily many iterations", "anchors": ["robuststats/estimation/covariance.py:huber_m_estimator_fixed_point", "robuststats/estimation/covariance.py:complex_huber_m_estimator_fixed_point"]}
{"id": "C163", "title": "The natural gradient of Tyler's cost is the reversed fixed-point step", "statement": "At every positive definite S a matrix G is a Euclidean gradient of Tyler_cost_real (Tyler_cost_complex), i.e. gives its derivative along every curve of positive definite matrices, exactly when S (G + G^H)/2 S = N (S - T), where T is what one iteration of the fixed-point method returns from S. S has gradient zero exactly when the cost is nowhere smaller than at S, and exactly when one iteration returns S. The cost that the natural-gradient method gives to its solver, computed from samples divided by their norms, has the same gradients.", "quantifier": "all real or complex data without zero samples, all positive definite S, all matrices G, all differentiable curves", "why_tests_cant": "derivatives along all curves through all positive definite matrices; numerical differentiation checks a few points up to an error", "anchors": ["robuststats/models/cost.py:Tyler_cost_real", "robuststats/models/cost.py:Tyler_cost_complex", "robuststats/estimation/covariance.py:_generate_Tyler_egrad", "robuststats/estimation/covariance.py:tyler_shape_matrix_naturalgradient"]}
{"id": "C164", "title": "The natural-gradient estimate is accurate up to a multiple of the solver's gradient tolerance", "statement": "Let the data have a unique Tyler estimate, and for complex data let multiplication by i permute the samples. With normalisation 'trace', 'determinant' or 'element' there are a matrix R, to which the runs of the fixed-point method converge, and constants C and eps0 > 0 such that, whenever the solver returns a positive definite matrix where the natural gradient of its cost has length at most eps <= eps0, the natural-gradient method returns a positive definite matrix at Frobenius distance at most C eps from R. An ideal solver meets this for every eps.", "quantifier": "all such data of any size, all starting points, all tolerances, all solvers with the stated stopping rule", "why_tests_cant": "a statement about all points at which the solver may stop, with constants for all small tolerances", "anchors": ["robuststats/estimation/covariance.py:tyler_shape_matrix_naturalgradient", "robuststats/estimation/covariance.py:complex_tyler_shape_matrix_naturalgradient"]}
{"id": "C165", "title": "The Kronecker MM algorithm converges geometrically and a converged call is accurate up to a multiple of the tolerance", "statement": "Let the data have a solution (A, B) of the Kronecker fixed-point equations, unique up to the scales of A and B. There are scales s, t > 0, a rate r < 1 and constants C, K, depending on the data only, such that for every tol and iter_max estimation_cov_kronecker_MM returns matrices within C r^iteration of s A and t B; for 0 < tol <= 1 and iter_max above K (1 + log(1/tol)) it stops by itself after at most K (1 + log(1/tol)) iterations without the non-convergence message; and whenever it stops before iter_max both matrices are within C tol of s A and t B. In particular fit of KroneckerEllipticalMM on more than a b complex samples in general position sets A_ and B_ within C tol of one fixed pair, for all tolerances.", "quantifier": "all real or complex data with an essentially unique solution (all data in general position with more than a b samples), all a, b >= 1, all tolerances and iteration limits", "why_tests_cant": "a rate and constants valid for all tolerances and iteration counts, for all such data", "anchors": ["robuststats/estimation/structured.py:estimation_cov_kronecker_MM", "robuststats/estimation/structured.py:KroneckerEllipticalMM"]}
{"id": "C166", "title": "get_params and set_params of every estimator give and change exactly the documented parameters", "statement": "For every estimator class of the library, an object created with keyword arguments kw has, after any history of set_params, attribute assignments and fits (with exceptions caught), get_params() equal to the documented parameters, each with the value last set, to begin with the argument or the documented default. set_params with any other name raises ValueError and changes nothing; name__key acts as set_params(key=...) on the value of name. A constructor raises TypeError for an undocumented or a missing argument and otherwise succeeds, except that the Tyler estimators raise NotImplementedError for an unknown method. The code violates this in two places: FeaturesEstimation and CovariancesEstimation accept any further keyword and lose it, and the online estimator stores its parameters under other names, so that get_params, set_params (sklearn from 0.24 on) raise AttributeError for every object, and older versions give None for every parameter.", "quantifier": "all ten estimator classes (complex and real), all keyword arguments, all histories of set_params, assignments and fits of any length, nested estimators of any depth, both behaviours of sklearn for missing attributes", "why_tests_cant": "all histories and nestings, and all arguments", "anchors": ["robuststats/estimation/base.py:FeaturesEstimation", "robuststats/estimation/base.py:CovariancesEstimation", "robuststats/estimation/base.py:RealCovarianceScale", "robuststats/estimation/covariance.py:TylerShapeMatrix", "robuststats/estimation/covariance.py:CenteredStudentMLE", "robuststats/estimation/covariance.py:HuberMEstimator", "robuststats/estimation/structured.py:KroneckerEllipticalMM", "robuststats/estimation/structured.py:KroneckerStudent", "robuststats/online/estimation.py:StochasticGradientCovarianceEstimator"]}
{"id": "C167", "title": "clone makes an unfitted estimator with the current parameters", "statement": "For every estimator class except the online one, sklearn's clone of an object with any history equals a call of its constructor with the clones of the current parameters: its get_params() gives these, it has none of the attributes that fit sets (covariance_, precision_, location_, A_, B_, n_features_in_), and the nested estimator of FeaturesEstimation is replaced by an unfitted one. Cloning succeeds for all classes whose constructor raises nothing of its own. For the Tyler estimators fit goes on using the function of the method given to the constructor whatever set_params(method=...) has stored, whereas a clone uses the current method, or raises NotImplementedError if it is unknown. Likewise KroneckerStudent keeps the alpha and the manifold computed by the constructor, whereas those of a clone are computed from the current df, a and b. For the online estimator clone raises AttributeError (sklearn from 0.24 on), or makes an object whose manifold, gradient and learning rate are None.", "quantifier": "all classes, all constructor arguments, all histories of any length, nested estimators of any depth, both behaviours of sklearn for missing attributes", "why_tests_cant": "all histories and nestings", "anchors": ["robuststats/estimation/base.py", "robuststats/estimation/covariance.py:TylerShapeMatrix.set_method", "robuststats/estimation/structured.py", "robuststats/online/estimation.py"]}
{"id": "C168", "title": "The online estimator with the Gaussian gradient and decreasing steps is consistent", "statement": "Let rgrad be the Riemannian gradient of the Gaussian cost log det S + x^H S^-1 x of one sample (it is S - x x^H). With lr_update='inverse iteration', fit on the first n of independent samples of any law with E[x x^H] = S positive definite leaves estimate_ and covariance_ which converge to S almost surely as n grows, for complex and for real data, from every positive definite initial point, whatever the learning rate and whatever the object was used for before. With a finite fourth moment and a new object with learning rate -1 the estimate is within C (1 + log n)/n of the empirical covariance of the same samples. The code adds the step along the gradient instead of subtracting it: the claim holds for all negative learning rates; for all positive ones, with constant or decreasing steps, the estimates leave every bounded set when the initial point is above the samples.", "quantifier": "all dimensions, all laws with finite second moments, all numbers of samples, all initial points, all learning rates, all previous iteration counts", "why_tests_cant": "the claim is about the limit of infinitely many samples, almost surely, for all laws", "anchors": ["robuststats/online/estimation.py:StochasticGradientCovarianceEstimator.fit", "robuststats/online/estimation.py:StochasticGradientCovarianceEstimator.update", "robuststats/models/manifolds.py:HermitianPositiveDefinite.retr"]}
{"id": "C169", "title": "KroneckerStudent follows changes of coordinates that respect the structure", "statement": "Take KroneckerStudent(a, b, df) with a solver that returns a minimiser of the cost it is given whenever one exists, and complex data for which no proper subspace holds too many centred samples (as in C150). Replace every sample z by kron(V, U) z, plus a constant vector if assume_centered=False, and reorder the samples. Then fit stores kron(V, U) S kron(V, U)^H in covariance_ where it stored S, and the location follows the samples, whatever the positive definite init of either call.", "quantifier": "all a, b >= 1, df > 0, data meeting the condition, invertible V and U, constants, permutations and positive definite inits", "why_tests_cant": "all data, all changes of coordinates and all starting points", "anchors": ["robuststats/estimation/structured.py:KroneckerStudent.fit", "robuststats/estimation/structured.py:_estimate_covariance_kronecker_t_gradient"]}
{"id": "C170", "title": "KroneckerStudent depends continuously on the data", "statement": "Take KroneckerStudent(a, b, df) with a solver that returns a minimiser of the cost it is given whenever one exists, and complex data for which no proper subspace holds too many centred samples (as in C150). For every eps > 0 there is delta > 0 such that, if every entry of the data changes by less than delta, fit still succeeds, and the covariance_ and location_ it stores change by less than eps, whatever the positive definite init.", "quantifier": "all a, b >= 1, df > 0, data meeting the condition, eps > 0, perturbed data and positive definite inits", "why_tests_cant": "a limit over all perturbations of all data sets", "anchors": ["robuststats/estimation/structured.py:KroneckerStudent.fit", "robuststats/estimation/structured.py:_estimate_covariance_kronecker_t_gradient"]}
{"id": "C171", "title": "The Kronecker MM algorithm withstands rounding errors", "statement": "Let the two matrices and the error that a pass of estimation_cov_kronecker_MM stores be wrong by a relative amount u. Take data for which the fixed-point equations have one solution (A, B) up to scales (for instance more than a*b complex samples in general position). There are r < 1, C, K and u0 > 0 that depend on the data only such that for u <= u0 every call returns two positive definite matrices within C(r^iteration + u) of multiples of A and B, in relative terms; a tolerance tol >= C u is reached in at most K(1 + log(1/tol)) iterations and no non-convergence message is printed if iter_max is above that; and a call that stops before iter_max is within C(tol + u). Some rounding errors of size u <= 1/2 prevent every call from reaching a tolerance below u/2. Without rounding the calls are the exact ones.", "quantifier": "all data meeting the condition, rounding errors u <= u0 that may depend on the pass and on the value, tolerances and iteration limits", "why_tests_cant": "one machine shows one rounding; the bound is over all roundings, tolerances and numbers of iterations", "anchors": ["robuststats/estimation/structured.py:estimation_cov_kronecker_MM", "robuststats/estimation/structured.py:KroneckerEllipticalMM.fit"]}
{"id": "C172", "title": "Accuracy of the empirical covariance of complex data: mean squared error and central limit theorem", "statement": "Fit ComplexEmpiricalCovariance to N independent samples of a law on C^p with mean m, covariance S and finite fourth moments. (a) With assume_centered=True the expectation of ||covariance_ - (S + m m^H)||_F^2 is exactly (E||x||^4 - ||S + m m^H||_F^2)/N, for every N >= 1. (b) For either value of assume_centered and every matrix H, sqrt(N) Re tr(H^H (covariance_ - limit)) converges in distribution to the centred normal law whose variance is that of Re tr(H^H y y^H), where y is the sample (assume_centered=True, limit S + m m^H) or the sample minus its mean (assume_centered=False, limit S): estimating the mean does not change the limit law. (c) Hence the probability that |Re tr(H^H (covariance_ - S))| <= t/sqrt(N) converges to the probability of [-t, t] under that normal law, whenever its variance is not zero. (d) For samples of the complex normal law with mean zero, whose density is the package's own, the mean squared error is (tr S)^2/N, and for Hermitian H the limit variance is tr(H S H S).", "quantifier": "all laws with finite fourth moments, all dimensions p >= 1, all matrices H, all t, all positive definite S in (d)", "why_tests_cant": "The statements are about expectations and limits over all laws; a simulation only shows a histogram for one law and one N.", "anchors": ["robuststats/estimation/base.py:complex_empirical_covariance", "robuststats/estimation/base.py:ComplexEmpiricalCovariance.fit"]}
{"id": "C173", "title": "Number of wrong samples that the Kronecker MM estimator withstands", "statement": "Let the N samples of length a*b be in general position (any a*b of them linearly independent) and let any m of them be replaced by arbitrary nonzero vectors. If m*max(a,b) + a*b < N then KroneckerEllipticalMM.fit still converges, as tol tends to 0 and iter_max grows, to a pair (A, B) whose condition numbers are bounded by a constant that does not depend on the replacements, and for each tol > 0 it stops without the warning when iter_max is large enough. Conversely, if m*max(a,b) >= N and m samples are made equal to one unit vector, there is no pair of stationary matrices that is unique up to scale, and if m*max(a,b) > N there is none at all. The share of wrong samples that is withstood is therefore 1/max(a,b) for large N, against 1/(a*b) for Tyler's estimator of the same dimension (C128).", "quantifier": "all N, a, b, m, all samples in general position (real or complex for the algorithm, complex for fit), all replacements", "why_tests_cant": "The bound is uniform over every possible choice of the replaced samples, including arbitrarily large and arbitrarily aligned ones; tests try a few.", "anchors": ["robuststats/estimation/structured.py:estimation_cov_kronecker_MM", "robuststats/estimation/structured.py:KroneckerEllipticalMM.fit"]}
{"id": "C174", "title": "Accuracy of the Student-t estimators: central limit theorem", "statement": "Take independent samples of a law that gives probability zero to proper subspaces and for which the positive definite S solves the population equation of C121 (nu = df/2 for student_t_mle_fixed_point, nu = df for complex_student_t_mle_fixed_point); no moment of the law need be finite. (a) Almost surely, for every N >= p, the calls on the first N samples settle at one matrix T_N: from every positive definite start the result is within any eps of T_N if tol is small and iter_max large enough. (b) For every matrix H, sqrt(N) Re tr(H^H (T_N - S)) converges in distribution to the centred normal law whose variance is that of (nu+p)/(nu+q) Re x^H K x, q = x^H S^-1 x, where K is the solution of S K S - E[(nu+p)/(nu+q)^2 (Re x^H K x) x x^H] = S H S; this equation has exactly one solution for every H. (c) Hence the probability that |tr(H^T (T_N - S))| <= t/sqrt(N) converges to the probability of [-t, t] under that law, if its variance is not zero. (d) For elliptical laws the solution along H = S^-1 is explicit; on samples of the complex t law with 2 df degrees of freedom, sqrt(N)(tr(S^-1 T_N) - p) converges to the normal law with variance p (df + p + 1)/df.", "quantifier": "all laws as described (also without moments), all dimensions p >= 1, all df > 0, all matrices H, all starts, all t", "why_tests_cant": "The statement is about limits in distribution over all laws; a simulation only shows a histogram for one law and one N.", "anchors": ["robuststats/estimation/covariance.py:student_t_mle_fixed_point", "robuststats/estimation/covariance.py:complex_student_t_mle_fixed_point"]}
{"id": "C175", "title": "The complex Student-t estimator is asymptotically efficient for the complex t law with 2 df degrees of freedom", "statement": "Take independent samples of the centred complex t law with 2 df degrees of freedom and positive definite scatter matrix S, and let T_N be the matrix at which the calls of complex_student_t_mle_fixed_point with parameter df on the first N >= p samples settle (C174). (a) For every Hermitian H, sqrt(N) tr(H (T_N - S)) converges in distribution to the centred normal law with variance v(H) = (df+p+1)/(df+p) (tr(HSHS) + tr(HS)^2/df). (b) For every differentiable curve of matrices through S with Hermitian direction D, the Fisher information I of these laws along the curve satisfies tr(HD)^2 <= v(H) I, and (c) for H not zero there is a curve with I > 0 and tr(HD)^2 / I = v(H): the variance is the Cramer-Rao bound, so no regular estimator is more accurate on these samples.", "quantifier": "all dimensions p >= 1, all df > 0, all positive definite S, all Hermitian H, all curves through S", "why_tests_cant": "A limit variance and an optimality statement over all directions: a simulation estimates one variance for one S and one H.", "anchors": ["robuststats/estimation/covariance.py:complex_student_t_mle_fixed_point", "robuststats/models/probability.py:complex_multivariate_t"]}
{"id": "C176", "title": "The real Student-t estimator is asymptotically efficient for the t law with df/2 degrees of freedom", "statement": "Take independent samples of the centred real t law with df/2 degrees of freedom and positive definite scatter matrix S, write nu = df/2, and let T_N be the matrix at which the calls of student_t_mle_fixed_point with parameter df on the first N >= p samples settle (C174). (a) For every symmetric H, sqrt(N) tr(H (T_N - S)) converges in distribution to the centred normal law with variance v(H) = 2 (nu+p+2)/(nu+p) (tr(HSHS) + tr(HS)^2/nu). (b) The Fisher information of the t laws with nu degrees of freedom at S, along curves with symmetric directions D and E, is alpha/2 tr(S^-1 D S^-1 E) + (alpha-1)/4 tr(S^-1 D) tr(S^-1 E) with alpha = (nu+p)/(nu+p+2). (c) Along every such curve the information I satisfies tr(HD)^2 <= v(H) I, and (d) for H not zero there is a curve with I > 0 and tr(HD)^2 / I = v(H): the variance is the Cramer-Rao bound.", "quantifier": "all dimensions p >= 1, all df > 0, all positive definite S, all symmetric H, all curves through S", "why_tests_cant": "A limit variance and an optimality statement over all directions: a simulation estimates one variance for one S and one H.", "anchors": ["robuststats/estimation/covariance.py:student_t_mle_fixed_point"]}
{"id": "C177", "title": "Tyler's estimator has the same limit law for all elliptical laws", "statement": "Take independent samples of any elliptical law (symmetric about zero, giving probability zero to proper subspaces) with positive definite scatter matrix S, normalised by the trace (tr S = p), the determinant (det S = 1) or the first element (S[0,0] = 1), and let T_N be the matrix at which the calls of tyler_shape_matrix_fixedpoint (complex_tyler_shape_matrix_fixedpoint for complex data) with that normalisation on the first N > p samples settle, from every start, when tol is small and iter_max large enough. (a) For every symmetric (Hermitian) H, sqrt(N) Re tr(H (T_N - S)) converges in distribution to the centred normal law with variance b (p+b)/p tr(H0 S H0 S), where b = 2 for real and b = 1 for complex data, H0 = H - tr(HS) G, and G is 1/p times the identity for 'trace', S^-1/p for 'determinant' and the matrix with a single 1 at [0,0] for 'element': the limit depends on the law of the data only through S, also when the law has no moments. (b) Every normalisation: for H with tr(HS) = 0 the variance is at least the limit variance of the efficient estimator for the t law with any number of degrees of freedom (C175, C176) and at most (p+1)/p times it for complex, (p+2)/p times it for real data.", "quantifier": "all dimensions p >= 1, all elliptical laws, the three normalisations, all positive definite normalised S, all symmetric or Hermitian H", "why_tests_cant": "A distribution-free limit: a simulation uses one law and one number of samples, and estimates a variance with error.", "anchors": ["robuststats/estimation/covariance.py:tyler_shape_matrix_fixedpoint", "robuststats/estimation/covariance.py:complex_tyler_shape_matrix_fixedpoint"]}
{"id": "C178", "title": "Limit laws of correlations, coherences and other smooth functions of the robust estimates", "statement": "Let T_N be the matrix at which the calls of an estimator on the first N independent samples settle (as in C174-C177). (a) If g is a measurable real function of the matrix, differentiable at the scatter matrix S with derivative Re tr(H D) in the Hermitian directions D, then sqrt(N) (g(T_N) - g(S)) converges in distribution to the centred normal law with the variance that C177 (tyler_shape_matrix_fixedpoint, complex_tyler_shape_matrix_fixedpoint; any elliptical law, any of the three normalisations), C176 (student_t_mle_fixed_point, t samples) or C175 (complex_student_t_mle_fixed_point, complex t samples) gives for H. (b) Real data: for r_N = T_N[i,j]/sqrt(T_N[i,i] T_N[j,j]) and rho the same for S, sqrt(N) (r_N - rho) has limit variance (1 + 2/p)(1 - rho^2)^2 for Tyler's estimator, whatever the elliptical law and the normalisation, and (1 + 2/(nu + p))(1 - rho^2)^2 for the Student-t estimator on samples of the t law with nu = df/2 degrees of freedom. (c) Complex data: for the squared coherence |T_N[i,j]|^2/(T_N[i,i] T_N[j,j]) with value g2 at S, the limit variances are 2 (1 + 1/p) g2 (1 - g2)^2 for Tyler's estimator and 2 (1 + 1/(df + p)) g2 (1 - g2)^2 for the Student-t estimator on samples of the complex t law with 2 df degrees of freedom.", "quantifier": "all dimensions p >= 1, all positive definite S, all elliptical laws that give probability zero to proper subspaces (Tyler) or all df > 0 (Student), the three normalisations, all variables i, j, all functions g with a gradient at S", "why_tests_cant": "A statement about limits of laws for all elliptical laws; a simulation has one law, one number of samples and an error in the estimated variance.", "anchors": ["robuststats/estimation/covariance.py:tyler_shape_matrix_fixedpoint", "robuststats/estimation/covariance.py:complex_tyler_shape_matrix_fixedpoint", "robuststats/estimation/covariance.py:student_t_mle_fixed_point", "robuststats/estimation/covariance.py:complex_student_t_mle_fixed_point"]}
{"id": "C179", "title": "Confidence intervals for correlations from Tyler's estimator hold for all elliptical laws", "statement": "Let T_N be the matrix at which the calls of an estimator on the first N independent samples settle (as in C177), i != j, q any number, and r_N = T_N[i,j]/sqrt(T_N[i,i] T_N[j,j]). (a) tyler_shape_matrix_fixedpoint, any elliptical law with scatter matrix S that gives probability zero to proper subspaces, any normalisation: the probability that the interval from tanh(artanh(r_N) - q sqrt(1 + 2/p)/sqrt(N)) to tanh(artanh(r_N) + q sqrt(1 + 2/p)/sqrt(N)) contains the correlation S[i,j]/sqrt(S[i,i] S[j,j]) tends to the probability of [-q, q] under the standard normal law; neither S nor the law of the data enters the ends of the interval. (b) student_t_mle_fixed_point on samples of the t law with df/2 degrees of freedom: the same with the factor sqrt(1 + 2/(df/2 + p)). (c) complex_tyler_shape_matrix_fixedpoint, any complex elliptical law with S[i,j] != 0: the same for the coherence |S[i,j]|/sqrt(S[i,i] S[j,j]) with the factor sqrt((1 + 1/p)/2). (d) complex_student_t_mle_fixed_point on samples of the complex t law with 2 df degrees of freedom and S[i,j] != 0: the same with the factor sqrt((1 + 1/(df + p))/2).", "quantifier": "all dimensions p, all positive definite S, all elliptical laws (a, c), all df > 0 (b, d), the three normalisations, all pairs i != j, all q", "why_tests_cant": "Coverage in the limit for all elliptical laws: a simulation has one law and one number of samples, and only estimates the coverage.", "anchors": ["robuststats/estimation/covariance.py:tyler_shape_matrix_fixedpoint", "robuststats/estimation/covariance.py:complex_tyler_shape_matrix_fixedpoint", "robuststats/estimation/covariance.py:student_t_mle_fixed_point", "robuststats/estimation/covariance.py:complex_student_t_mle_fixed_point"]}
{"id": "C180", "title": "The typical distance of strictly positive vectors is that of a unit step in every coordinate", "statement": "StrictlyPositiveVectors(n, k).typicaldist is sqrt(n k). For every point x and every tangent vector u with |u[i,j]| = x[i,j] it equals the root of the sum over columns of norm(x, u)**2, and the root of the sum over columns of dist(x, exp(x, u))**2. WeightedProduct (and KroneckerHermitianPositiveElliptical) raise NotImplementedError, also when every factor has a typical distance.", "quantifier": "all n, k, all points with positive entries, all such tangent vectors; all factors and weights", "why_tests_cant": "All sizes and all points: a test compares the number with one step at one point.", "anchors": ["robuststats/models/manifolds.py:StrictlyPositiveVectors.typicaldist", "robuststats/models/manifolds.py:WeightedProduct.typicaldist"]}
{"id": "C181", "title": "When Tyler's estimator beats the empirical covariance for coherences", "statement": "ComplexEmpiricalCovariance on independent samples with finite fourth moments, mean m and covariance S (assume_centered only with m = 0), C_N the covariance of the first N samples. (a) For every measurable g with gradient H at S, sqrt(N) (g(C_N) - g(S)) converges in distribution to the centred normal law with the variance of Re (z - m)^H H (z - m). (b) Elliptical law, m = 0, S positive definite: for the squared coherence gamma2 = |S[i,j]|^2/(S[i,i] S[j,j]) the variance is 2 kappa gamma2 (1 - gamma2)^2 with kappa = E[(z^H S^-1 z)^2]/(p (p + 1)), whether or not the mean is estimated. (c) On the same samples, for i != j and S[i,j] != 0, the limit variance by complex_tyler_shape_matrix_fixedpoint (any normalisation) is smaller than that by the empirical covariance if and only if E[(z^H S^-1 z)^2] > (p + 1)^2. (d) Complex normal samples: kappa = 1. (e) Complex t samples with nu > 4 degrees of freedom: kappa = (nu - 2)/(nu - 4); Tyler's estimator has the smaller variance if and only if nu < 2 p + 4, the Student-t estimator with df = nu/2 always has.", "quantifier": "all dimensions, all positive definite S, all elliptical laws with fourth moments (all laws with fourth moments in a), all nu > 4, all pairs of channels, the three normalisations", "why_tests_cant": "A simulation compares two estimators on one law with one number of samples; the criterion is exact and holds for all laws.", "anchors": ["robuststats/estimation/base.py:ComplexEmpiricalCovariance", "robuststats/estimation/base.py:complex_empirical_covariance", "robuststats/estimation/covariance.py:complex_tyler_shape_matrix_fixedpoint"]}
{"id": "C182", "title": "Coverage of the usual interval for coherences from the empirical covariance", "statement": "ComplexEmpiricalCovariance on independent samples with mean zero (assume_centered or not), c_N the coherence |C[i,j]|/sqrt(C[i,i] C[j,j]), i != j, of the covariance of the first N samples, c > 0 the true one; interval with ends tanh(artanh(c_N) -/+ q sqrt(1/2)/sqrt(N)). (a) Elliptical law with covariance S and finite fourth moments: the probability that the interval contains c tends to that of [-q, q] under the centred normal law with variance kappa = E[(z^H S^-1 z)^2]/(p (p + 1)). (b) Complex normal samples: kappa = 1, so the coverage is the nominal one. (c) Complex t samples with nu > 4 degrees of freedom: kappa = (nu - 2)/(nu - 4). (d) For q > 0 the coverage of (c) is strictly below the nominal one for every nu > 4, and tends to 0 as nu decreases to 4. (Compare C179: with Tyler's estimator one interval has the nominal coverage for all elliptical laws.)", "quantifier": "all dimensions, all positive definite S, all elliptical laws with fourth moments, all nu > 4, all pairs of distinct channels that are not uncorrelated, all q", "why_tests_cant": "A coverage probability is a statement about the law of the result, and the loss of coverage is a limit in the number of samples.", "anchors": ["robuststats/estimation/base.py:ComplexEmpiricalCovariance", "robuststats/estimation/base.py:complex_empirical_covariance"]}
{"id": "C183", "title": "False alarm rate of the coherence test: constant with Tyler's estimator, not with the empirical covariance", "statement": "Independent complex samples, i and j two channels with S[i,j] = 0, gamma2_N = |T[i,j]|^2/(T[i,i] T[j,j]) of the estimate of the first N samples. The probability that N gamma2_N >= t tends to exp(-t/c) for every t > 0, with (a) c = 1 + 1/p for complex_tyler_shape_matrix_fixedpoint (any normalisation) and every elliptical law with scatter matrix S, with or without moments; so the test that reports a dependence if N gamma2_N >= (1 + 1/p) log(1/alpha) has false alarm rate alpha in the limit whatever the law; (b) c = 1 + 1/(df + p) for complex_student_t_mle_fixed_point on the complex t law with 2 df degrees of freedom; (c) c = E[(z^H S^-1 z)^2]/(p (p + 1)) for ComplexEmpiricalCovariance on elliptical laws with mean zero, covariance S and finite fourth moments; (d) so the threshold log(1/alpha) with the empirical covariance has false alarm rate alpha on normal samples, but alpha^((nu - 4)/(nu - 2)) > alpha on complex t samples with nu > 4 degrees of freedom.", "quantifier": "all dimensions, all positive definite S, all pairs of uncorrelated channels, all elliptical laws ((c): with fourth moments), all nu > 4, all df > 0, all levels, the three normalisations", "why_tests_cant": "A false alarm rate is a property of the law of the result in the limit; that it is the same for all elliptical laws cannot be sampled.", "anchors": ["robuststats/estimation/covariance.py:complex_tyler_shape_matrix_fixedpoint", "robuststats/estimation/covariance.py:complex_student_t_mle_fixed_point", "robuststats/estimation/base.py:ComplexEmpiricalCovariance"]}
{"id": "C184", "title": "Limit law of the test of a given shape of the scatter matrix", "statement": "Independent samples of dimension p, T_N the estimate of the first N samples, U_N = tr((p S^-1 T_N / tr(S^-1 T_N) - I)^2), the statistic that tests whether the scatter matrix has the shape of S (sphericity for S = I). U_N >= 0, and U_N = 0 exactly if T_N is a multiple of S. If the law is elliptical with scatter matrix (a multiple of) S, N U_N converges in distribution to c times a chi-square variable with d degrees of freedom: (a) complex_tyler_shape_matrix_fixedpoint, any normalisation, any elliptical law with or without moments: c = 1 + 1/p, d = p^2 - 1; (b) tyler_shape_matrix_fixedpoint on real data: c = 2 (1 + 2/p), d = p (p + 1)/2 - 1; (c) complex_student_t_mle_fixed_point on the complex t law with 2 df degrees of freedom: c = 1 + 1/(df + p), d = p^2 - 1; (d) student_t_mle_fixed_point on the real t law with df/2 degrees of freedom: c = 2 (1 + 2/(df/2 + p)), d = p (p + 1)/2 - 1; (e) ComplexEmpiricalCovariance on elliptical laws with mean zero, covariance S and finite fourth moments: c = E[(z^H S^-1 z)^2]/(p (p + 1)), d = p^2 - 1, which is c = 1 for normal samples and c = (nu - 2)/(nu - 4) for complex t samples with nu > 4 degrees of freedom. (f) If the scatter matrix of the law is not a multiple of S, N U_N of Tyler's estimates tends to infinity almost surely. (g) So for p >= 2 the test that rejects if N U_N >= (1 + 1/p) t (complex; 2 (1 + 2/p) t for real data) with Tyler's estimates has in the limit the false alarm rate P(chi2_d >= t) whatever the elliptical law, whereas with ComplexEmpiricalCovariance the threshold t has the rate P(chi2_d >= t) on normal samples and a strictly larger one on complex t samples.", "quantifier": "all dimensions, all positive definite S, all elliptical laws ((e): with fourth moments), all nu > 4, all df > 0, the three normalisations", "why_tests_cant": "The limit law of the statistic, and that it is the same for all elliptical laws, cannot be observed on finitely many samples.", "anchors": ["robuststats/estimation/covariance.py:tyler_shape_matrix_fixedpoint", "robuststats/estimation/covariance.py:complex_tyler_shape_matrix_fixedpoint", "robuststats/estimation/covariance.py:student_t_mle_fixed_point", "robuststats/estimation/covariance.py:complex_student_t_mle_fixed_point", "robuststats/estimation/base.py:ComplexEmpiricalCovariance"]}
{"id": "C185", "title": "Refitting ComplexEmpiricalCovariance, and a fit that raises", "statement": "fit of ComplexEmpiricalCovariance depends on the data and on store_precision and assume_centered alone: after any sequence of fits (accepted or refused), stored matrices and parameter changes it raises exactly if it would on a new object with the same parameters, with the same exception, and otherwise location_, covariance_ and precision_ are those of the new object. After any number of calls of fit, covariance_ is that of the last accepted data, and is missing if all were refused. A fit that raises leaves location_, covariance_ and precision_ as they were. The last claim holds for every array except real ones with a single column, where it is violated: fit then always raises ValueError but has already replaced location_ by an empty array, while covariance_ and precision_ are still those of the former fit.", "quantifier": "all histories of the object, all arrays (real or complex, any number of axes, any shape), any pseudo-inverse", "why_tests_cant": "histories and arrays are unbounded; the state after an exception is hardly ever looked at, and only one shape of data leaves the object inconsistent", "anchors": ["robuststats/estimation/base.py:ComplexEmpiricalCovariance.fit", "robuststats/estimation/base.py:ComplexEmpiricalCovariance._set_covariance", "robuststats/estimation/base.py:ComplexEmpiricalCovariance._validate_data", "robuststats/models/mappings.py:arraytocomplex"]}
{"id": "C186", "title": "Tests of uncorrelated variables: false alarm rate for real data, and every true correlation is found", "statement": "Independent samples of dimension p, r_N = T[i,j]/sqrt(T[i,i] T[j,j]) of the estimate T of the first N samples, for real data; |r_N|^2 the squared coherence for complex data. (a) tyler_shape_matrix_fixedpoint with any normalisation, any elliptical law with scatter matrix S, with or without moments: if S[i,j] = 0, the probability of sqrt(N) |r_N| > t tends to that of |z| > t for z normal with mean 0 and variance 1 + 2/p, the same for all laws; (b) student_t_mle_fixed_point on the real t law with df/2 degrees of freedom: the same with variance 1 + 2/(df/2 + p). (c) In (a) and (b), if i != j and S[i,j] != 0, the probability of sqrt(N) |r_N| > t tends to 1 for every t. (d) If S[i,j] != 0, the probability of N |r_N|^2 > t tends to 1 for every t with complex_tyler_shape_matrix_fixedpoint (elliptical laws), complex_student_t_mle_fixed_point (t law with 2 df degrees of freedom) and ComplexEmpiricalCovariance (elliptical laws with finite fourth moments): the test whose false alarm rate C183 describes finds every true coherence.", "quantifier": "all dimensions, all positive definite S, all pairs of variables, all thresholds, all elliptical laws ((d), empirical covariance: with fourth moments), all df > 0, the three normalisations", "why_tests_cant": "Rates in the limit of many samples, the same for every elliptical law, cannot be sampled.", "anchors": ["robuststats/estimation/covariance.py:tyler_shape_matrix_fixedpoint", "robuststats/estimation/covariance.py:student_t_mle_fixed_point", "robuststats/estimation/covariance.py:complex_tyler_shape_matrix_fixedpoint", "robuststats/estimation/covariance.py:complex_student_t_mle_fixed_point", "robuststats/estimation/base.py:ComplexEmpiricalCovariance"]}
{"id": "C187", "title": "What Tyler's estimator loses against the Student-t estimator on samples of the t law", "statement": "Independent samples of the t law to which the Student-t estimator with parameter df belongs (real: df/2 degrees of freedom, complex: 2 df), any positive definite scatter matrix. sqrt(N) (r_N - rho) is asymptotically normal both for the correlation r_N of student_t_mle_fixed_point with the same df (variance v) and of tyler_shape_matrix_fixedpoint with any normalisation (variance w), for any two variables, and v < w < (1 + 2/p) v: the Student-t estimate is the more accurate, but Tyler's needs at most 1 + 2/p times the samples whatever df and the scatter matrix. For complex data and squared coherences other than zero of complex_student_t_mle_fixed_point and complex_tyler_shape_matrix_fixedpoint: v < w < (1 + 1/p) v.", "quantifier": "all dimensions, all df > 0, all positive definite scatter matrices, all pairs of variables, the three normalisations", "why_tests_cant": "a comparison of limit laws over all laws of the family and all dimensions", "anchors": ["robuststats/estimation/covariance.py:tyler_shape_matrix_fixedpoint", "robuststats/estimation/covariance.py:student_t_mle_fixed_point", "robuststats/estimation/covariance.py:complex_tyler_shape_matrix_fixedpoint", "robuststats/estimation/covariance.py:complex_student_t_mle_fixed_point"]}
