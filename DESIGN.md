# A Lean 4 model of AmmarMian/robuststats

## Trusted base

* Lean 4.33.0's kernel and Mathlib's definitions.
* Axioms: no theorem may depend on anything but `propext`, `Classical.choice`,
  `Quot.sound`. No axioms are added, no `sorry`, no `native_decide`/`bv_decide`.
* The reading of `/repo` written down in `lean/Verif/Model/*.lean`; every
  definition cites the file and lines it models.

## Conventions of the model

* **Numbers.** Floats are modelled by exact reals `ℝ` and complexes `ℂ`; rounding,
  overflow and signed zeros are not modelled. Where the code's behaviour hinges on
  `inf`/`nan` (error of the fixed-point loops, a zero sample, division by zero in a
  weight) these values are explicit constructors in the model. Model/Rounding repeats
  the Student-t, Tyler and Huber fixed-point functions with an arbitrary error in each
  matrix and each relative error that the loop stores, and Model/KronRounding does it
  for the Kronecker MM algorithm; the arithmetic inside one pass of the loop is not
  modelled there either.
* **Empty data.** The functions of covariance.py called directly on an array without samples
  or without features divide by the integers `N` or `p`, and Python raises `ZeroDivisionError`.
  The model does not cover this: it has Lean's `1/0 = 0`, and theorems about these functions say
  something about the code for `N ≥ 1` and `p ≥ 1` only. `fit` rejects such data before
  (`check_array`), in the code and in the model.
* **Arrays.** `Fin`-indexed families/matrices; where the code dispatches on dtype
  and `ndim` a tagged array type is used. Slicing and broadcasting are modelled
  explicitly where the code relies on them.
* **Exceptions** are values of `Except PyErr`; logging calls that the properties
  talk about are recorded in the result.
* **External numerical routines** are parameters constrained by their contract
  and never axioms: `eigh` (any unitary eigendecomposition), `cholesky` (any
  `c cᴴ = x`), scipy's `sqrtm` of a matrix similar to a positive matrix (C148: also to a
  positive semi-definite one), scipy's
  normal and t log-densities (their published formula), sklearn's `check_array`,
  `empirical_covariance`, `error_norm`, `score`, pymanopt's solvers, `joblib`
  (workers finish in any order, results gathered by index), random draws (any value).
* Properties that the code violates are kept in `properties.jsonl` as the user
  would expect them; the Lean development then proves (i) an exact description of
  what the code does, (ii) the negation with a concrete witness
  (`..._violated`/`..._false`), and (iii) the strongest true part (`..._partial`).

## What is modelled and what is not

| source in /repo/robuststats | model | not modelled |
|---|---|---|
| models/mappings.py | Mappings, NDArray (all functions) | - |
| utils/linalg.py | Linalg (all functions) | the `autograd` switch (same formulas) |
| utils/checking.py, utils/montecarlo.py | Checking, MonteCarlo (all) | - |
| utils/generation_data.py | GenData (all) | quality of the random generator: draws are any values, or streams with the stated law |
| utils/verbose.py | Verbose (`matprint` with the format mini-language, `logging_tqdm.display`) | when tqdm refreshes; the digits of a number (a parameter) |
| utils/backend.py | - | choice of numpy/autograd.numpy (same formulas) |
| models/cost.py | Cost (all) | `autograd` switch |
| models/manifolds.py | Manifolds, TypicalDist (all five classes) | methods inherited from pymanopt |
| models/probability.py | Probability | scipy's samplers and numerical integration (parameters with contracts) |
| estimation/base.py | Base, FeatureArray, FeatureHeap, FeatureJobs, Precision, Pipeline and FeaturePipe (`CovariancesEstimation`, `FeaturesEstimation` on the estimators of covariance.py) | how numpy prints an array (`str` of a feature array is modelled up to the object printed) |
| estimation/covariance.py | Covariance (functions), Estimators (classes), FitCall (keyword arguments, `n_features_in_`, `transform`, `fit_transform`), Inherited (`get_precision`, `mahalanobis`), Params (constructors, `get_params`, `set_params`, `clone` of all classes) | autograd's derivative in `_generate_Tyler_egrad` (C163 says what it has to be); pymanopt's solver is a parameter |
| estimation/structured.py | Structured, KronObject (`KroneckerStudent` as an object) | progress bars; pymanopt's solver is a parameter |
| online/estimation.py | Online | - |

Not modelled: floating-point rounding (except for Model/Rounding and Model/KronRounding), memory limits, wall-clock time,
log texts (only whether a warning is issued), `examples/`, `docs/`, `tests/`.

## Layout

* `lean/Verif/Model/` – the model, function by function.
* `lean/Verif/Spec/` – small independent specifications used in statements.
* `lean/Verif/Lemmas/` – helper lemmas.
* `lean/Verif/Props/` – the property theorems `Cnn_...`, and examples showing that
  hypotheses are satisfiable.
* `seeded/LOG.jsonl` – wrong-program experiments.

## Plan per property

| id | property | model and proof |
|---|---|---|
| C01 | Array complex/real round trip | Model/Mappings.lean over tagged arrays (real/complex, ndim 0-3 and >=4) with slicing and numpy broadcasting; equality of arrays by computation on indices. |
| C02 | Covariance complex/real round trip | same model; stacks as families of matrices; ext on indices. |
| C03 | Mappings pass already-converted input through and reject unsupported formats | case analysis on tag and ndim of the model. |
| C04 | covariancetoreal preserves covariance structure | block-matrix algebra (Matrix.fromBlocks), quadratic form identity, det of [[P,-Q],[Q,P]] via a complex change of basis. |
| C05 | arraytocomplex rejects real arrays with an odd last axis | expected FALSE of the code (lengths 1 and 3 broadcast): prove exact characterisation of the accepted odd lengths, negation with witness, partial theorem for the rejected ones. |
| C06 | covariancetocomplex inverts exactly the block-structured matrices | entrywise comparison. |
| C07 | Matrix functions are well defined | eigh modelled as an arbitrary solver satisfying the eigendecomposition contract; intertwining argument (commuting with all matrices with equal diagonal entries). |
| C08 | Matrix square root, inverse square root, exponential, logarithm and powers obey their algebra | diagonal algebra conjugated by a unitary. |
| C09 | vec/unvec round trip | vec/unvec on Fin-indexed families; Nat.sqrt. |
| C10 | vech/unvech round trip on Hermitian matrices | expected FALSE for complex Hermitian (returns the conjugate): prove unvech(vech M)=conj M in general, equality for real symmetric as partial, witness for the negation. |
| C11 | unvech accepts exactly the triangular lengths | real sqrt/round analysis of the order formula; triangular numbers. |
| C12 | ToeplitzMatrix is Hermitian positive semi-definite | explicit LDL^H factorisation; telescoping sum; 2x2 witness for |rho|>1. |
| C13 | hermitian/multiherm are the orthogonal projection onto Hermitian matrices | linear algebra + Frobenius norm expansion. |
| C14 | Argument checkers decide exactly their documented predicate | decision logic over an ordered field / decidable equality. |
| C15 | temp_seed restores the global random state | context manager as a state transformer over an abstract RNG; induction over nested programs. |
| C16 | _FeatureArray behaves like a list of batches | imperative buffer model with capacity growth loop; refinement to list concatenation by induction over appends. |
| C17 | vectorize returns one row per stored item | expected FALSE (returns whole capacity): exact row count theorem, witness, partial theorem when no growth happened. |
| C18 | A rejected append leaves the feature array unchanged | expected FALSE for several components: witness; partial for one component. |
| C19 | Multi-component feature arrays stay aligned | expected FALSE for mismatched batches: witness; partial for matched batches. |
| C20 | Indexing a feature array selects items | list indexing on the refinement; numpy integer keys as separate witness. |
| C21 | FeaturesEstimation returns one feature per trial in order | fold of appends over trials, via C16 refinement. |
| C22 | CovariancesEstimation does not depend on n_jobs | parallel execution as an arbitrary permutation of worker completions with results gathered by index; equality with the sequential loop under history-independence of fit. |
| C23 | CovariancesEstimation stores covariances exactly | dtype cast modelled (truncation toward zero for integer dtype); FALSE for integer input: witness + partial. |
| C24 | Parallel transform leaves the estimator untouched; sequential transform leaves it fitted on the last trial | estimator state threaded through the loop. |
| C25 | Complex empirical covariance is Hermitian positive semi-definite | Gram matrix PSD; centring projection. |
| C26 | Complex empirical covariance is affine equivariant and sample-order independent | matrix algebra, Equiv.sum_comp. |
| C27 | Complex estimators treat real data as complex data with zero imaginary part | expected FALSE: exact description of what is computed + witness; partial = complex input. |
| C28 | A covariance given to a complex estimator is stored exactly | composition of the mapping model with check_array. |
| C29 | error_norm is zero exactly for the stored covariance | expected FALSE: witness Hermitian error with zero sum of squares; partial for real-valued errors. |
| C30 | Normalisation functions normalise | PosDef trace/det/diagonal positivity. |
| C31 | Normalised shape is scale free and normalisation is idempotent | homogeneity of the normalisers. |
| C32 | Fixed-point estimators stop as documented | while loop by well-founded recursion with explicit infinity/NaN error values; invariant proof. |
| C33 | The non-convergence warning is accurate | expected FALSE (warns when converging on the last allowed iteration, silent on NaN): exact characterisation, witness, partial. |
| C34 | Every iterate is positive definite | quadratic-form positivity + induction over loop. |
| C35 | Tyler's estimate ignores the scale of each sample | step invariance then loop congruence. |
| C36 | Fixed-point estimators are equivariant under rotations | step equivariance via inverse of congruence, Frobenius norm unitary invariance, loop simulation. |
| C37 | Fixed-point estimators do not depend on sample order | Equiv.sum_comp, loop congruence. |
| C38 | Tyler's iteration never increases Tyler's cost | MM inequality: log t <= t-1 on samples and on eigenvalues (log det M <= tr M - p). |
| C39 | Student-t iteration never increases its likelihood cost | same MM argument with shifted log. |
| C40 | The Student-t estimator with parameter df maximises the likelihood of the t model with the same df | expected FALSE: stationarity along the scale direction computed explicitly; negation witness; partial = stationary for the df actually used. |
| C41 | Huber's weight function | real analysis of min. |
| C42 | Huber's estimator down-weights outlying samples | expected FALSE (the code divides by the weight): exact weight beta*max(1,d/lambda), monotone non-decreasing; partial inside the threshold. |
| C43 | An all-zero sample makes the Tyler estimators fail loudly | NaN-aware step model. |
| C44 | Fitting is history independent | fit as a state transition; equality of reachable states' observables. |
| C45 | A natural-gradient Tyler estimator can be fitted again | expected FALSE (None > 0 TypeError): theorem that every second fit raises; partial: first fit works. |
| C46 | Parameters changed after construction are honoured | object model with closure over the constructing object; method changes ignored: witness; partial for tol/iter_max/normalisation. |
| C47 | Complex estimators extend the real ones | embedding of real matrices into complex ones commutes with the step. |
| C48 | complex natural-gradient Tyler returns a Hermitian positive definite matrix | Hermitian part proved; positive definiteness FALSE: 4x4 witness; partial for block-structured solver outputs. |
| C49 | Tyler cost is invariant to the scale of the shape matrix and shifts by a constant under per-sample scaling | log/det algebra. |
| C50 | StrictlyPositiveVectors retraction and exponential stay on the manifold | (x+(x+u)^2/x)/2 > 0; exp/log on positive reals. |
| C51 | StrictlyPositiveVectors geometry is consistent | metric axioms from Euclidean norm of logs; derivative computation along geodesics. |
| C52 | HermitianPositiveDefinite retraction stays positive definite | retr = (x + (x+u) x^{-1} (x+u)^H)/2. |
| C53 | HermitianPositiveDefinite exp and log | matrix function calculus of C07/C08. |
| C54 | HermitianPositiveDefinite metric is consistent | trace algebra through Cholesky/square root. |
| C55 | HermitianPositiveDefinite transport is an isometry | E x1 E^H = x2 for E=(x2 x1^{-1})^{1/2}. |
| C56 | SpecialHermitianPositiveDefinite stays on the unit-determinant manifold | det of scaled matrix; trace algebra. |
| C57 | Reported manifold dimension is the true dimension | expected FALSE: n(n+1) vs n^2; negation for every n>=1. |
| C58 | WeightedProduct metric, distance and gradient agree | finite sums; randvec part expected FALSE: exact norm theorem, witness, partial for unit weights. |
| C59 | Kronecker elliptical metric is the Fisher metric and is positive definite | Kronecker trace identities, Cauchy-Schwarz. |
| C60 | Kronecker elliptical gradient is the gradient of its metric | expected FALSE: exact defect theorem; partial for trace-free directions. |
| C61 | Complex normal density | realification identities (det, inverse, quadratic form) + scipy formula as modelled external. |
| C62 | Complex Student-t density | same. |
| C63 | Real/complex dispatch of the densities | decision logic; complex mean with real covariance is a counterexample: witness + partial. |
| C64 | Complex random draws have the requested covariance and are circular | integrals of the real and imaginary halves; characteristic functions for the law; the contract is met by an explicit Gaussian sampler (Lemmas/GaussSampler). |
| C65 | Kronecker MM reports what it documents | loop model; third value expected FALSE (returns tol): theorem + witness + partial. |
| C66 | Kronecker MM uses the quadratic form of A kron B | vec/kron identity; FALSE for complex A: witness; partial for symmetric A. |
| C67 | Kronecker MM iterates stay Hermitian positive definite | Riccati equation of the geometric mean. |
| C68 | Kronecker Student gradient centres the data | FALSE: location ignored and conjugate missing; witnesses; partial for zero location and real data. |
| C69 | KroneckerStudent/KroneckerEllipticalMM score evaluates the fitted covariance | FALSE: constant 0 / independent of the fitted state; theorems stating that. |
| C70 | Online estimates stay positive definite | induction over the stream using C52. |
| C71 | Online learning-rate schedule | fold model with an explicit log of (sample, step). |
| C72 | Online fit is history independent | FALSE: iteration counter not reset; witness; partial for constant step. |
| C73 | Uninitialised online estimator | FALSE for fit(init=None) (raises); partial for update. |
| C74 | Generated covariances are covariances | conjugation of a diagonal matrix by an orthogonal draw. |
| C75 | Stiefel samples are orthonormal | column selection of an orthogonal matrix. |
| C76 | Normal and compound sampling have the requested second moments | square-root algebra of C08. |
| C77 | Hermitian/symmetric checkers | pointwise inequality analysis. |
| C78 | Scoring an unfitted or Tyler estimator | object model; Tyler's score after fit raises AttributeError (location_ never set): witness; partial for the rest. |
| C79 | A copy of an estimator is independent of the original | object heap with closure addresses; expected FALSE for Tyler estimators (the closure keeps the original object): witness; partial for the other estimators. |
| C80 | Tyler's estimate is the minimiser of Tyler's cost | equality case of Jensen and log det <= tr - p (Lemmas/Unique). |
| C81 | The Student-t estimate is unique and optimal | geodesic-free strict convexity through the equality case of the MM inequality. |
| C82 | When Tyler's estimate is unique | if: spectral argument on the extreme eigenspaces; only if: rescale one block of the splitting. |
| C83 | The Student-t iteration converges from every start | Loewner-order sandwich (1+e)^-1 S <= S_k <= (1+e) S contracts at rate r (Lemmas/Converge). |
| C84 | Tyler's iteration converges from every start | order-preserving homogeneous map, compactness and C82 (Lemmas/TylerConverge). |
| C85 | When the Student-t estimate exists | monotone bounded iteration in the Loewner order (Lemmas/Limits). |
| C86 | The HPD exponential map follows geodesics | entrywise derivatives of matrix functions in a fixed eigenbasis (Lemmas/MatDeriv). |
| C87 | ehess2rhess returns the Riemannian Hessian | second derivative along the geodesic, chain rule through CurveDeriv. |
| C88 | HPD distance | generalised eigenvalues are similarity invariants; spectrum of c^-1 y c^-H. Triangle inequality: along the geodesic from y to z the distance from x grows no faster than arc length; each small step is bounded by Klein's inequality for log^2, and the steps are telescoped (Lemmas/LogDist). |
| C89 | The two ways of evaluating the t density agree | false: witness with data 2i; proved for real arguments. |
| C90 | The default arguments describe the standard law | false: the default covariance 1 has no length. |
| C91 | Each Kronecker MM iteration lowers Tyler's cost | block MM inequality with the geometric mean (Lemmas/Structured `kron_mm`); true for A^T kron B, witness against A kron B on complex data. |
| C92 | The solver of KroneckerStudent gets the gradient of its cost | derivative of the student cost along curves (`studentCost_kron_deriv`); witness where cost and gradient disagree in sign. |
| C93 | Kronecker MM ignores scale and order | invariance of the step, loop congruence. |
| C94 | Stationary points of Kronecker MM | two fixed-point margins and Jensen on the eigenvalues; equality case of the MM inequality for the converse. |
| C95 | An online step lowers the cost | FALSE: first-order expansion of the retraction along +gradient; partial for negative rates. |
| C96 | Samples one by one or in one fit | FALSE for inverse iteration; partial for a constant step. |
| C97 | Low-rank signal plus white noise | characteristic functions of linear maps of the normal stream. |
| C98 | Gamma textures have mean one | moments of the gamma density. |
| C99 | Lognormal textures have the requested variance | FALSE: variance is exp(v)-1; partial for the mean. |
| C100 | Eigenvalues of generated covariances are chi-square | FALSE: they are below 1. |
| C101 | When Tyler's estimate exists and is unique | if: the cost is coercive (sorted eigenbasis, compactness of the unitary matrices, summation by parts over the flag of eigenspaces; Lemmas/Exist); only if: trace of the S-orthogonal projector onto V (Lemmas/ExistIff). |
| C102 | When the Student-t estimate exists, in terms of the data | same two arguments with nu > 0. |
| C103 | When the Huber estimate exists and is unique | the weight of the code grows with the quadratic form: uniqueness by a monotonicity argument along log l in the common eigenbasis, existence by minimising a coercive C1 cost (Lemmas/HuberFix). |
| C104 | The Huber iteration converges from every start | false: period-two orbit on the unit vectors; partial: sandwich contraction when the samples below the threshold span (Lemmas/HuberConverge). |
| C105 | The natural-gradient and fixed-point methods compute the same Tyler estimate | real: the cost given to the solver is Tyler's cost plus a constant, C80/C82/C84; complex: false, explicit witness; partial for block form and circular data (Lemmas/NatGrad). |
| C106 | FeaturesEstimation works on copies of the estimator | false, witnesses; invariant over the steps of a schedule for processes, induction for the sequential run (Model/FeatureJobs, Lemmas/FeatureJobs). |
| C107 | shape, dtype, nb_manifolds describe the content | false, witness; partial from the history invariant of C16. |
| C108 | a feature array owns its data | false, witnesses; partial: model with memory cells refines the model with values (invariant: spare cells of the buffers are shown by nothing else). |
| C109 | get_precision is the pseudo-inverse of covariance_ | object model; invariant over all histories; false when store_precision is switched on after a fit: exact description, witness. |
| C110 | score is the complex Gaussian log-likelihood | false: inherited score raises or uses the real formula without conjugation; witnesses; partial for real-valued arguments. |
| C111 | Kronecker MM converges | proved: coercivity of the cost modulo scales, monotone determinants, limit points; uniqueness from irreducibility of the samples by the equality case of Jensen. |
| C112 | small tolerance gives an accurate estimate | proved: generic over the six fixed-point functions, unconditional for Tyler and Student-t in general position. |
| C113 | KroneckerStudent.fit does not lose likelihood | C68 and the solver's contract (parameter): descent or minimisation. |
| C114 | second value and scale invariance of the natural-gradient Tyler functions | unit samples, scale invariance of Tyler's cost; run with a negative value. |
| C115 | pdf is a probability density with the stated moments | Gaussian integrals, affine change of variables, t law as Gamma mixture (Lemmas/Density, Elliptical); C^p from R^2p by a measure preserving map (Lemmas/Law). |
| C116 | rvs draws independently from pdf | push-forward of the law of scipy's rows; sampler is a parameter with contract IIDSampler (Spec/Law). |
| C117 | entropy is the differential entropy of pdf | mean of the quadratic form from C115. |
| C118 | cdf, logcdf are the distribution function of pdf | integration routine is a parameter with contract MvnWithin (Spec/Law). |
| C119 | ComplexEmpiricalCovariance is consistent | strong law of large numbers (Mathlib) entry by entry; expectation by independence. |
| C120 | Tyler's estimator is consistent for elliptical laws | population cost and its unique minimiser, uniform convergence on compact sets by the strong law (Lemmas/ConsistDet, Consist), then C84 and C112; elliptical symmetry gives the population equation (ConsistEll); densities of rvs are elliptical (ConsistLaw). |
| C121 | Student-t estimators are consistent with the same df | false, exact limit kappa S; consistent for df/2 (real), 2 df (complex). |
| C122 | Large-sample limit of the Huber estimators | strong law, population equation; explicit factor for elliptical laws. |
| C123 | Huber estimators are consistent on normal data | false, limit kappa S with kappa > 1 for every q. |
| C124 | Huber estimates have a limit exactly when fourth moments are finite | proved; t samples: df > 4. |
| C125 | Constructors accept every parameter except an unknown method | constructor model over an object heap; clone as get_params + constructor. |
| C126 | Number of wrong samples that the Student-t estimators withstand | comparison with a Tyler fixed point of the samples that are kept (lower bound), trace bound (upper bound); explicit bad replacements for the converse. |
| C127 | The Huber estimators withstand a wrong sample | false: one sample is enough; lower bound proved. |
| C128 | Number of wrong samples that Tyler's estimator withstands | limit of spectral decompositions of estimates with growing condition number crowds samples in a subspace (Lemmas/BreakdownTyler). |
| C129 | Text of a feature array | refinement of Store/CapOk (C16): items plus zero rows; witness with two histories of the same items. |
| C130 | matprint | CPython's format-spec parser on character lists; lemma that a width in front of a plain format is parsed as the width; witnesses `>3d`, `+d`. |
| C131 | Progress bar | case analysis. |
| C132 | Mahalanobis distances | sklearn's checks as in C28; raises for every object. |
| C133 | RealCovarianceScale | induction over operations. |
| C134 | fit does not silently discard an argument | Python's binding of keyword arguments as a function on signatures (Model/FitCall); refused names and the rest, per class and method. |
| C135 | n_features_in_ | shape analysis of the fits; witness for complex estimators. |
| C136 | A fit that raises leaves the estimator as it was | case analysis of the call; witness with the estimate of a first fit as initial point. |
| C137 | transform and fit_transform | induction over histories. |
| C138 | KroneckerStudent with changed parameters | object model (Model/KronObject), induction over histories; metric of the stale manifold computed. |
| C139 | KroneckerStudent.fit that raises | case analysis; witness with another number of columns, for every solver that evaluates its starting point first. |
| C140 | Metric of KroneckerStudent as Fisher information | fourth moments of unitarily invariant laws by averaging reflections, Beta moments of the t law as a Gaussian mixture, score by Jacobi's formula. |
| C141 | Precision and Mahalanobis distances of a fitted estimator | C44 and the contract of `pinvh`; case analysis. |
| C142 | geometric rate and logarithmic number of iterations | Lemmas/TylerRate (derivative of Tyler's step at the whitened fixed point is self-adjoint with norm < 1 on trace zero matrices, by compactness and indecomposability), Lemmas/Rate. |
| C143 | reported error bounds the distance to the estimate | Lemmas/Rate: residual bound for both iterations, Lipschitz normalisation. |
| C144 | estimates continuous in the data | Lemmas/DataCont: the counting conditions are open (ranks of sample subsets are lower semicontinuous), cost positive on a sphere around the strict minimiser, compactness, convexity along rays. |
| C145 | when the Kronecker estimate exists | Spec `KronSpread`; Lemmas/KronExist: growth of the cost along rays of the product of cones, coercivity, existence of a minimiser; conversely uniqueness forces growth along every ray. |
| C146 | CovariancesEstimation on the package's estimators | Model/Pipeline: worker memories as heaps of estimator objects with shared closures; invariant of the interleaved run (Lemmas/Pipeline); expected FALSE for the natural gradient. |
| C147 | Hessian of weighted products | Spec/ProductHess: gradients and Hessians of functions of tuples through curves; component geodesics (C51, C86) and the polarised form of their Hessians; expected FALSE for the Kronecker manifold, whose first component has no `ehess2rhess`. |
| C148 | Kronecker MM on degenerate data | Lemmas/KronDegenerate: the first pass from the identity; determinants of square roots of singular scatter matrices; a singular second factor is at relative distance at least 1/sqrt(b) from the identity, so the loop goes on and inverts it. Expected FALSE for iter_max = 1. Needs the contract of `sqrtm` on semidefinite matrices (`SqrtmPSD`). |
| C149 | Consistency of Kronecker MM | Lemmas/KronConsist: kron(A.T, B) of a fixed point has at most the Tyler cost of any other Kronecker product, in particular of the scatter matrix; the law of large numbers of C120 then forces convergence up to scale; the factors are recovered by partial traces. Expected FALSE for complex data, where the limit is kron(A.T, B). |
| C150 | Student likelihood over Kronecker products | Props/KronMLE.lean, Lemmas/KronMLE.lean: coercivity of the unstructured cost + factors normalised by the trace give existence, the geodesic midpoint gives uniqueness, `IIDSamples.consistent` the limit |
| C151 | large df: sample covariance | Props/StudentLimits.lean, Lemmas/StudentLimits.lean: no sample has weighted energy above N at a fixed point, hence bounds on the weights; existence from a sub-solution |
| C152 | small df: Tyler's estimate | Props/StudentLimits.lean, Lemmas/StudentLimits.lean: multiples of Tyler's estimate are sub- and super-solutions of the monotone Student iteration; compactness and uniqueness give the limit |
| C153 | continuity of the Kronecker estimate | Props/KronCont.lean, Lemmas/KronCont.lean: the cost, geodesically convex, is positive on a compact set of directions around the minimiser, hence also for nearby data; it then grows linearly outside a small ball |
| C154 | FeaturesEstimation on the estimators | Model/FeaturePipe.lean, Props/FeaturePipe.lean: Model/FeatureJobs with the heap of the estimator objects as state; the invariant is that the object keeps its class, closure and parameters |
| C155 | affine equivariance of the estimates | `Props/Affine.lean`: estimates of the moved data from the equivariance of one step and the conditions of C101, C102 in new coordinates |
| C156 | Kronecker estimate in new coordinates | `Props/Affine.lean`: transport of the fixed-point equations and of the spread condition, uniqueness of the limits |
| C157 | rounding errors in the Student-t iteration | Model/Rounding `flLoop` stores perturbed iterates and errors; `StableCalls`, proved by an invariant interval around the fixed point |
| C158 | rounding errors in Tyler's iteration | the loop of C157; the errors make the scale drift, so the proof follows the shape (Lemmas/LocalRounding: finitely many perturbed steps, then a contraction of the shape) |
| C159 | rounding errors forbid small tolerances | Props/RoundingFloor: one of (1 + u) F and (1 - u) F is far from the previous iterate; the errors are chosen by recursion along the run |
| C160 | continuity of the Huber estimate | Lemmas/HuberCont: the fixed points for nearby data are bounded above and below, so have limit points, which are fixed points; uniqueness by monotone weights |
| C161 | rate and accuracy of the Huber iteration | `Contracting`: one step shrinks every interval [S/(1+e), (1+e)S]; the lemma `contracting_fl` of C157 without errors |
| C162 | rounding errors in the Huber iteration | the loop of C157; the step is `Contracting`; floor as in C159 |
| C163 | The natural gradient of Tyler's cost is the reversed fixed-point step | derivative of log det and of quadratic forms of the inverse along curves; uniqueness by curves in every direction (Spec/TylerGrad, Lemmas/TylerGrad) |
| C164 | The natural-gradient estimate is accurate up to a multiple of the solver's gradient tolerance | geodesic strong convexity of the cost at the estimate: tilted means lose a multiple of the variance, spectral gap of the linearised iteration, Cauchy-Schwarz; then Lipschitz normalisation (Lemmas/TylerGrad) |
| C165 | Rate of the Kronecker MM algorithm | the cost is geodesically convex with quadratic growth around its minimisers modulo scale; one sweep decreases it by the two half-step divergences, which bound the gap (Lemmas/KronRate); hence the gap, the steps and the distance decrease geometrically (Lemmas/KronRateRun) |
| C166 | get_params and set_params | objects as attribute dictionaries (Model/Params); the invariant that every documented name is stored under itself is kept by set_params, assignments and fits |
| C167 | clone | clone is the constructor applied to the stored parameters, which C166's invariant identifies |
| C168 | consistency of the online estimator | the second-order term of the retraction is positive semidefinite, so the estimates stay above weighted averages of x x^H; its trace obeys an averaging recursion whose noise is summable almost surely (truncation and Borel-Cantelli) |
| C169 | KroneckerStudent in other coordinates | Props/KronMLEData.lean: the log-density changes by a constant, so maximum likelihood estimates are carried over; uniqueness (C150) does the rest |
| C170 | KroneckerStudent under small changes of the data | Lemmas/KronMLECont.lean: convexity along geodesics in the coordinates (V ⊗ W, x ⊕ y); the cost difference on small spheres stays positive for nearby data by compactness |
| C171 | rounding errors in the Kronecker MM algorithm | Model/KronRounding.lean (the loop with the stored values replaced), Lemmas/KronRounding.lean: the cost gap is contracted by every exact pass (C165) and raised by O(u) by the rounding, so it stays below r^k + u; the coordinates of C165 turn the gap into distances to the rays of A and B |
| C172 | accuracy of ComplexEmpiricalCovariance | Lemmas/EmpClt.lean: second moments of sums of independent terms, Mathlib's central limit theorem for Re tr(H^H y y^H), Slutsky for the estimated mean |
| C173 | wrong samples in the Kronecker MM algorithm | Lemmas/KronBreakdown.lean: in all bases, samples in general position reach their levels (the criterion of C145) on average with m samples to spare, since a level space of dimension d holds at most d of them; growth of the cost gives one bound for all replacements; the converse counts traces in the stationarity equations. Between m max(a, b) and m max(a, b) + a b samples nothing is claimed |
| C174 | central limit theorem for the Student-t estimators | Lemmas/StudentClt.lean: first-order expansion of one step; Lemmas/StudentOp.lean: the derivative of the population equation is injective (Cauchy-Schwarz and the population equation), so bijective; Lemmas/StudentExpand.lean: the error is an average over the samples up to a vanishing multiple; Lemmas/StudentLaw.lean: measurability of the solution (limit of the iterates), the remainder tends to zero in measure, Mathlib's central limit theorem |
| C175 | efficiency of the complex Student-t estimator | limit variance and the Cramér–Rao bound for the law with 2 df degrees of freedom (C175) |
| C176 | efficiency of the real Student-t estimator | limit variance, Fisher information and the Cramér–Rao bound for the t law with df/2 degrees of freedom (C176) |
| C177 | distribution-free limit law of Tyler's estimator | central limit theorem for Tyler's estimator, the same for all elliptical laws (C177) |
| C178 | limit laws of correlations and coherences | first-order expansion of g in the expansion of the fixed points behind C174-C177; gradients of correlation and squared coherence (C178) |
| C179 | distribution-free confidence intervals for correlations | C178 for artanh of the correlation, whose limit variance does not depend on S; monotonicity of tanh (C179) |
| C180 | typical distances | unfolding; logarithm of the exponential map entrywise (C180) |
| C181 | coherences: empirical covariance against Tyler's estimator | general delta method from normal limits of all linear functionals (boundedness in probability by the portmanteau theorem); fourth moments of elliptical laws by symmetry, of the t law by the gamma mixture (C181) |
| C182 | coverage of intervals for coherences from the empirical covariance | delta method of C181 with artanh; scaling and density bound of normal laws (C182) |
| C183 | false alarm rate of the coherence test | joint limit of real and imaginary part of the coherence from all real projections (Lévy's theorem on the complex plane), law of the squared modulus by polar coordinates (C183) |
| C184 | limit law of the shape (sphericity) test | orthonormal coordinates of the Hermitian matrices, joint limit of the whitened shape from all its projections (C178, C181), law of its squared norm; continuity and consistency for the power (C184) |
| C185 | Refitting an empirical covariance; refused fits | C185 uses the object of Model/Precision.lean (base.py:346-398): the attributes after fit as functions of data and parameters, and the state left by a fit that raises. |
| C186 | tests of uncorrelated variables: level and detection | probability of large values from the limit laws of correlations and coherences (C178, C181), tightness for the detection of true correlations; uses the models of C120, C121, C119 |
| C187 | loss of Tyler's estimator on t samples | the limit laws C178 for the same samples, comparison of the variances |
