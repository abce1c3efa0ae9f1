{
 "C01": "exact round trips in both directions and the layout; the empty 2-D case raises ValueError and is described separately",
 "C05": "the claim is false of the code for lengths 1 and 3 (C05_violated); rejected for every odd length >= 5",
 "C10": "false for complex Hermitian matrices: unvech(vech(M)) is the conjugate (witness); the real symmetric case holds",
 "C16": "refinement to list concatenation for every non-empty history of batches of one signature, any number of components, also from other feature arrays",
 "C17": "the claim is false (C17_violated); exact row count n1 + 1000*ceil((N-n1)/1000), so it holds iff 1000 divides N-n1; the first len rows are right",
 "C18": "false for a failed first append on several components (C18_violated); true for filled arrays and for fresh one-component arrays",
 "C19": "append does not compare batch lengths (C19_violated); true when batches are aligned; len always follows the last component",
 "C20": "proved for Python ints and all slices; numpy integers violate it",
 "C21": "the estimator is a function of the trial; dtypes and shapes equal over trials",
 "C22": "every n_jobs, every complete interleaving of copy and fit steps; also: a failing trial makes every run fail",
 "C23": "false for integer X (C23_violated, exact truncation in C23_int_truncates); exact for complex X and for float X with real covariances",
 "C24": "parallel: user object unchanged under every schedule, even incomplete or failing; sequential: fitted on the trials in order, last one last",
 "C25": "all sizes; the covariance is identified entrywise with the average of (x-m)(x-m)^H",
 "C26": "linear maps for both modes, affine maps without assume_centered, permutations for both",
 "C27": "the claim is false for every real data set with at least one sample and one feature (C27_violated); even column counts are read as [re, im] (C27_real_data_exact); complex data are fitted as documented",
 "C28": "every non-empty complex square matrix is stored exactly, everything else complex raises; real matrices are read as real forms (C28_real_matrix)",
 "C29": "false (C29_violated, both norms); exact zero set for Hermitian matrices in C29_exact; true for real errors",
 "C30": "every size >= 1, real and complex; unknown names are the identity on every matrix",
 "C31": "",
 "C32": "complete description of every run (iterates, error, count, stopping), totality, and the AssertionError of the Huber functions for q = 0",
 "C33": "false of the code: it warns when it converges at the last allowed iteration and stays silent on a NaN error (C33_violated); the exact condition is iteration == iter_max (C32); the implication error > tol -> warning holds",
 "C34": "for the six functions at once, with the complete output as an M-estimation run",
 "C35": "equality of the whole output, hypotheses: spanning data without zero samples, positive definite initial point",
 "C36": "also the default initial point; 'element' normalisation shown to depend on the basis",
 "C37": "equality of the whole output",
 "C38": "every iterate, plus the returned matrix under every normalisation against the starting point",
 "C39": "every iterate, plus the returned matrix against the starting point",
 "C40": "false: the code optimises the t law with df/2 (real) and 2*df (complex) degrees of freedom; both proved globally (partial theorems), both refuted for the same df by concrete data",
 "C41": "",
 "C42": "false: the loop divides by the Huber weight, so it applies its reciprocal, which grows with the distance; exact weight proved, witness given, partial inside the threshold",
 "C47": "whole output for Tyler and Student; the loop body for Huber (its two parameters come from different chi-square laws)",
 "C49": "value, scale, sample scale, linear maps, real data, shape errors",
 "C43": "after any history, for every initial point and every position of the zero sample; iter_max >= 1",
 "C44": "any sequence of fits (failed ones too) and attribute changes; the stored values are those of the estimation function; on spanning data fit always succeeds",
 "C45": "false: the first fit stores iteration_ = None and every later fit compares it with 0 (TypeError); exact theorem for all histories, witness, and a partial for the first fit",
 "C46": "false for method: a change of method never has an effect; proved for the other attributes",
 "C48": "Hermitian always; positive definite only proved for solver outputs of the block form, with a 4x4 witness that others fail",
 "C78": "Student and Huber as stated; false for Tyler: score always raises (no location_)",
 "C79": "false for deep copies of Tyler estimators, which read the original's attributes; proved for Student, Huber and for sklearn clones of all",
 "C80": "whole set of positive definite matrices, not a neighbourhood; every dataset with nonzero samples",
 "C81": "uniqueness among all positive definite matrices",
 "C83": "for every positive definite initial point; also the loop stops",
 "C84": "for every positive definite initial point, given that a fixed point exists and is unique up to scale; trace, determinant and element normalisations",
 "C85": "if and only if, over all spanning data sets without zero sample",
 "C82": "both directions, real and complex",
 "C50": "any sequence of retractions/exponentials",
 "C51": "metric axioms, exp/log inverse, dist = norm(log), gradient and Hessian against independent derivative specs",
 "C52": "every Hermitian direction, also huge ones",
 "C53": "both compositions, any eigensolver and Cholesky factor meeting their contract",
 "C54": "symmetric, positive definite, real-bilinear; norm; gradient against the derivative of the cost along curves; randvec unit norm",
 "C55": "isometry between any two points; transport is the congruence by the square root of x2 x1^-1",
 "C56": "points keep determinant 1 and tangent vectors stay trace-free through every operation; exp/log mutually inverse",
 "C57": "false: the reported dimension n(n+1) (minus 1) exceeds the real dimension n^2 (minus 1) for every n >= 1; partial: upper bound",
 "C58": "metric, distance (with the axioms of a distance), gradient for every family of components meeting GradOk (shown for the three manifolds of the package); false for randvec: exact norm, witness, partial for default weights",
 "C59": "inner against the Fisher form at A kron B; positive definite for the coefficient chosen by KroneckerStudent",
 "C60": "false at every point when alpha is not 1: exact defect; partial for determinant-preserving directions, and the returned vector is still an ascent direction",
 "C86": "first and second order derivatives, constant speed",
 "C87": "any cost with Euclidean gradient/Hessian in the sense of Spec/Manifolds",
 "C88": "a distance on stacks of any size (symmetry, zero set, triangle inequality), compatible with exp and log, invariant under congruence and inversion; any eigensolver/Cholesky factor meeting its contract",
 "C61": "logpdf, frozen logpdf, pdf and entropy; real parameters too",
 "C62": "frozen logpdf; df <= 0 is rejected",
 "C63": "first two clauses proved; the third is false: a complex mean with a real covariance loses its imaginary part or raises (C63_violated); partial for the other combinations",
 "C64": "moments for any sampler with the requested mean and covariance; the law for normal samplers; real case; a sampler meeting the contract is constructed",
 "C89": "false: the class inherits scipy's logpdf, which does not conjugate; partial for real arguments",
 "C90": "false: len(1) raises TypeError; partial for an explicit covariance",
 "C65": "None and the bound proved; the third value is tol, not the error (C65_violated)",
 "C66": "exact: the form of A^T kron B; false for complex data (witness), proved for real data",
 "C67": "each step, the whole run, and fit; for any square root meeting its contract",
 "C68": "cost proved; gradient: location ignored and conjugate missing (two witnesses); partial for real data",
 "C69": "false: MM score is constantly 0, Student score ignores the fitted covariance and has the wrong sign; exact descriptions",
 "C91": "for A^T kron B always (C91_transpose); for kron(A,B) on real data; complex witness where the cost grows",
 "C92": "false: witness where cost derivative and gradient have opposite signs; partial: the gradient is that of the real student cost, on real data",
 "C93": "equality of results for all inputs, also failing ones",
 "C94": "both directions; for A^T kron B always, for kron(A,B) on real data; complex witness",
 "C70": "any sequence of set_estimate/update/fit/lrate changes, exceptions caught; also on the Kronecker manifold with det 1",
 "C71": "full path of samples, steps and estimates, from any state (C71_general) and a fresh one",
 "C72": "false for the default lr_update: the iteration counter is never reset; exact dependency; partial for a constant step",
 "C73": "update: exact; fit(init=None) raises ValueError and erases the estimate (C73_violated); partial when estimatetocov accepts None",
 "C95": "false at every point with nonzero gradient: the step goes up the gradient; partial: negative learning rates",
 "C96": "false for the default lr_update (update does not count samples); partial for a constant step",
 "C74": "eigenvalues exactly the squared draws (real) and 1+draws (complex); determinant 1 with unit_det",
 "C75": "also for negative k",
 "C76": "laws of the columns and their independence from a stream of standard normal variates; compound, dtype refusal, behaviour for row textures",
 "C97": "law and independence of the columns, real and complex",
 "C98": "moments from the gamma law as contract of numpy's sampler",
 "C99": "false: variance is exp(variance)-1 for every argument; partial: mean 1",
 "C100": "false for every law of the draws: all eigenvalues lie in [0,1)",
 "C101": "both directions; corollaries for general position (convergence) and N <= p",
 "C102": "both directions; zero samples allowed; corollary for general position (geometric convergence)",
 "C103": "both directions, real and complex; exact condition for the estimate to be the plain second moment",
 "C104": "false: explicit data on which the call alternates between two matrices for ever (exact orbit); partial: geometric convergence and stopping when the samples below the threshold span",
 "C105": "real data: proved under the contract that the solver returns a minimiser; complex data: false, the method minimises the cost of the real form over all symmetric matrices of double size and drops half of the result (explicit eight samples, every normalisation); partial: data whose real form has estimates of the block form, in particular data that multiplication by i permutes",
 "C106": "false: the copy is dropped, n_jobs=1 and threads work on the given object (witnesses: left fitted, memory leaks between trials, two threads exchange features); partial: worker processes never touch the object, and sequential runs, process runs and non-interleaving threads give the right features for estimators without memory",
 "C107": "false: shape reports the declared shape and the first batch is not checked (such an array then refuses every further item, proved in general); partial: all batches of the declared shape",
 "C108": "false: the first batch is kept by reference; witnesses: a later write of the caller shows in the feature array, and an append after a rejected first append, after a batch with components of different lengths, or on f[np.int64(i)] overwrites an array of the caller. Partial: for every program whose batches are even, whose first appends are accepted, whose keys are Python ints or slices and which writes only to unshared arrays, references cannot be noticed; unsharedness is characterised (C108_new_array, C108_unshared)",
 "C109": "false: store_precision switched on after a fit makes get_precision return None (exact description: C109_exact); partial: all histories in which store_precision keeps its value",
 "C110": "false: TypeError for every object with an sklearn that validates the test set (1.0 and later), and before that the product is not conjugated and the constant is that of the real law (witness); partial: real-valued location, covariance and test set give the real normal log-likelihood",
 "C111": "limit under existence and uniqueness up to scale of the fixed pair; stopping; accuracy for small tol, also for fit; limits are fixed pairs; uniqueness for irreducible samples",
 "C112": "generic over the six fixed-point functions; unconditional for Tyler and Student-t in general position; for Huber's estimators where the samples inside the threshold span the space at the fixed point (C104)",
 "C113": "pymanopt's solver is a parameter; contract: positive definite result whose cost is at most the starting cost (or minimal)",
 "C114": "real and complex; value for every normalisation; C114_negative gives a run whose second value is negative",
 "C115": "Lebesgue integrals over R^p and C^p; t law as a Gamma mixture of normal laws",
 "C116": "scipy's sampler is a parameter; contract: independent rows with the real density (samplers meeting it exist)",
 "C117": "real and complex, module function and frozen",
 "C118": "scipy's integration routine is a parameter with error epsilon; logcdf stated for exact integration",
 "C119": "almost sure limits over Mathlib's strong law of large numbers; samples as independent random vectors",
 "C120": "general population equation, then elliptical laws, then the laws of rvs; tol and iter_max may depend on the number of samples",
 "C121": "violated for the same df (factor kappa below 1 real, above 1 complex); consistent for df/2 (real) and 2 df (complex)",
 "C122": "general population equation, then elliptical laws with an explicit equation for the factor kappa",
 "C123": "violated: factor kappa > 1 for every q; exact chi-square functions, whose existence is proved",
 "C124": "limit if and only if the fourth moment is finite; explicit threshold df = 4 for t samples",
 "C125": "constructors and clone on the object heap",
 "C126": "sharp: both bounds proved necessary and sufficient",
 "C127": "violated: a single sample breaks the estimate down; lower bound proved",
 "C128": "sharp: the bound comes from compactness, the converse from the subspace count of C101",
 "C129": "C129_shown is the exact description; false because unused buffer rows are shown.",
 "C130": "False for formats with an alignment or a sign; proved for plain formats.",
 "C132": "False: raises for every object and array.",
 "C133": "False for one-dimensional scales; everything else proved.",
 "C134": "False: CenteredStudentMLE ignores every extra name, the others every name that is not one of their own parameters. Exact: the refused names per class and method raise and change nothing; all other names leave the call as it is without them.",
 "C135": "False for the complex estimators (twice the number of columns, proved); proved for the real ones.",
 "C136": "False for n_features_in_, which is already the one of the refused call; proved for everything else. C136_columns is the exact description.",
 "C137": "",
 "C138": "False: alpha and manifold stay those of the construction (C138_state, C138_fit are the exact description). The partial covers histories after which a, b and df are those of the construction.",
 "C139": "False: location_ is overwritten before the solver runs, after which the score of the data of the first fit raises. The partial covers all other attributes.",
 "C140": "False: alpha = (df+p)/(df+p+1) belongs to the laws with 2 df degrees of freedom (C140_partial), while the cost is the likelihood for df. C140_fisher is the exact Fisher information; C140_violated: in every nonzero direction the metric is larger.",
 "C141": "False: no fit of covariance.py sets location_, so mahalanobis raises for every object and array (AttributeError after a successful real fit). The partial theorems: get_precision is the inverse of covariance_.",
 "C142": "Tyler: whitening, self-adjoint derivative with a spectral gap, second-order remainder in the Loewner order; Student-t: contraction in the Loewner order",
 "C143": "distance to the limit bounded by the last step, locally by the gap or the contraction, elsewhere because a step of length zero is a fixed point; normalising is Lipschitz",
 "C144": "existence conditions are open in the data; the cost of nearby data is positive on a small sphere around the strict minimiser, so their minimisers lie inside it",
 "C145": "exact existence condition (weights on bases), general position suffices, one sample never does; convergence and fit on spread-out samples",
 "C146": "False for the natural-gradient method: with n_jobs = 1 the second trial raises TypeError, while threads and processes return the stack; an estimator fitted before raises TypeError for every n_jobs. The partial theorems cover everything else.",
 "C147": "Holds for products of strictly positive vectors and Hermitian positive definite matrices; with unit-determinant matrices among the components, hence on the Kronecker manifold, ehess2rhess always raises NotImplementedError.",
 "C148": "Exact description in exact arithmetic for iter_max >= 2 and tol < 1/sqrt(b): it returns exactly on non-degenerate data. With iter_max = 1 data poor in rows give a singular covariance_ and no exception.",
 "C149": "The limit is proved for real and complex data (C149_exact, C149_fit_exact): the shape of kron(A.T, B). Consistent for real data and real A; inconsistent exactly when A is not real (C149_fit_wrong), with the complex normal law as witness (C149_violated).",
 "C150": "The solver is a parameter; the ideal one is a contract (KronMinimises), which a real gradient solver may miss because the gradient it is given is wrong in general (C92). The condition on the samples is sufficient, not shown necessary. Consistency is stated for assume_centered=True (the mean need not exist for small df).",
 "C151": "The bounds are on the exact fixed point; the runs approach it (C83, C112). Real arithmetic.",
 "C152": "The bounds are on the exact fixed point; the runs approach it (C83, C112). Real arithmetic. Data whose Tyler estimate is not unique up to scale are covered by the bounds, not by the limit.",
 "C153": "Up to scale: the scales of the two returned matrices depend on the trajectory. Real arithmetic; sqrtm enters through its contract.",
 "C154": "Partial because the code violates it: the deep copy made for each trial is overwritten, so with threads an item can be the covariance of another trial (C154_threads), and with n_jobs = 1, or two trials in one process batch, a natural-gradient Tyler estimator raises TypeError at the second trial. Proved for the fixed-point methods with n_jobs = 1, processes, and threads that do not interleave fit and transform.",
 "C155": "proved for the limits of the calls (Student-t, Tyler) and for the matrices left in place by one call (Huber, whose calls need not converge from every start, C104)",
 "C156": "violated for complex data: the algorithm returns the transpose of the first factor, so the estimates of (V ⊗ U) x are conj(V) A V^T and U B U^H (C156_law, all data); C156_violated shows that for all complex spread-out data with a >= 2 some V breaks the expected law. C156_partial: the law holds for real data and for V with real entries.",
 "C157": "Props/Rounding. Rounding errors enter through the two results stored by each pass of the loop; u bounds the error of a whole pass.",
 "C158": "Props/Rounding. The final normalisation itself is exact in the model; rounding errors enter through the two results stored by each pass.",
 "C159": "Props/RoundingFloor. The rounding errors are chosen against the data and the starting point.",
 "C160": "C160_fixed_*: without further condition. C160_estimate_*: the calls converge only under the condition of C104.",
 "C161": "The condition on the samples below the threshold is that of C104; without it the iteration may oscillate (C104_violated).",
 "C162": "C162_run_*: the stored matrices are those one expects. Stability under the condition of C104.",
 "C163": "The derivative computed by autograd is not modelled; the theorem says what a correct derivative is.",
 "C164": "The solver is a parameter with the contract SolverStops; other complex data are excluded because the two methods then disagree (C105).",
 "C165": "The third returned value is the tolerance, not the last error, so accuracy is stated for calls that stop before iter_max. Exact arithmetic.",
 "C166": "Partial because the code violates the property: two wrappers swallow unknown keywords and the online estimator does not store its parameters under their names.",
 "C167": "Partial because the online estimator cannot be cloned. The last check of clone, that the constructor has stored the very values it was given, is not modelled.",
 "C168": "Partial because update moves along +t*gradient, so the claim is false for every positive learning rate (C168_violated, C168_growth) and holds for every negative one.",
 "C169": "Ideal solver (KronMinimises), a contract. By contrast the covariance of KroneckerEllipticalMM follows complex changes of coordinates only for real V (C156).",
 "C170": "Ideal solver (KronMinimises), a contract. The modulus of continuity is not computed.",
 "C171": "The errors inside a pass are not modelled: they count as errors of the two matrices it stores. The scales of the two matrices may drift, so the distances are to multiples of A and B.",
 "C172": "Exact mean squared error; asymptotic normality of every linear function; asymptotic coverage; explicit values for normal samples. Independence of the samples is the hypothesis IIDSamples (C119).",
 "C173": "C173_withstands and C173_fit (bounded condition numbers and convergence), C173_breaks (collapse), C173_share (both together). Exact arithmetic; the matrix square root is a parameter with its contract. For N between m*max(a,b) and m*max(a,b)+a*b nothing is claimed.",
 "C174": "Asymptotic normality of every linear function of the estimate, the variance being given by the unique solution of a linear equation; asymptotic coverage; explicit variance of the scale on t samples. Independence of the samples is the hypothesis IIDSamples (C119).",
 "C175": "Explicit limit variance, Cramer-Rao inequality with the Fisher information of C140, and attainment. That the Cramer-Rao quantity bounds the variance of other estimators is the classical theorem and is not formalised; the theorems show that the limit variance equals it.",
 "C176": "Explicit limit variance, Fisher information of the real t laws, Cramer-Rao inequality and attainment. The law is the one with df/2 degrees of freedom (C121: with df degrees of freedom the limit has another scale). That the Cramer-Rao quantity bounds the variance of other estimators is the classical theorem and is not formalised.",
 "C177": "Limit law with explicit variance for all elliptical laws and the three normalisations; comparison with the efficient variance of C175.",
 "C178": "Delta method on C175-C177, with the gradients of correlation and coherence computed.",
 "C179": "Fisher's transformation makes the limit variance of C178 a known constant.",
 "C180": "The distance covered is independent of the point and the signs; the product part is a direct reading of the code.",
 "C181": "(e) is proved as the limit law for the empirical covariance together with the comparison of the factors of C178.",
 "C182": "",
 "C183": "The gradient of the squared coherence vanishes at S[i,j] = 0, so C178 and C181 say nothing there; this is the second-order limit.",
 "C184": "The degrees of freedom 2 df (complex) and df/2 (real) are those of C175 and C176.",
 "C185": "Partial because the code violates the clause on exceptions for real data with one column (C185_violated, exact description C185_one_column); the independence of the history is proved in full. n_features_in_ is not an attribute of the model.",
 "C186": "From the limit laws C178 and C181; detection needs no consistency result, a limit law with any variance is enough.",
 "C187": "From the limit laws C178 of both estimators on the same samples."
}