import Mathlib.Analysis.Complex.Norm
import Mathlib.Algebra.BigOperators.Group.Finset.Basic
import Mathlib.Algebra.BigOperators.Fin
import Mathlib.LinearAlgebra.Matrix.ConjTranspose
import Mathlib.Algebra.Order.Floor.Ring
import Mathlib.Algebra.Order.Archimedean.Real.Basic
import Mathlib.Analysis.Real.Sqrt
import Verif.Model.Mappings

/-
Model of the covariance part of robuststats/estimation/base.py:222-430.
-/
set_option autoImplicit false

namespace RS

open Matrix

/-! ## CovariancesEstimation -/

/-- dtype of the trials array `X`, base.py:261. -/
inductive XDType where
  | int
  | float
  | complex

/-- Assignment of a complex number into an array of the given dtype: numpy drops the
imaginary part (with a warning) and truncates toward zero as needed. base.py:265, 272 -/
noncomputable def castTo : XDType → ℂ → ℂ
  | .complex, z => z
  | .float, z => (z.re : ℂ)
  | .int, z => (((if 0 ≤ z.re then ⌊z.re⌋ else ⌈z.re⌉ : ℤ) : ℝ) : ℂ)

/-- `covmats[i, :, :] = cov`, base.py:265 and 272: `cov` must be `p × p` or broadcast
from `1 × 1`. -/
noncomputable def assignCov (dt : XDType) (p : ℕ) (cov : Σ k : ℕ, Matrix (Fin k) (Fin k) ℂ) :
    Py (Matrix (Fin p) (Fin p) ℂ) :=
  if h : cov.1 = p then .ok (of fun i j => castTo dt (cov.2 (i.cast h.symm) (j.cast h.symm)))
  else if h1 : cov.1 = 1 then
    .ok (of fun _ _ => castTo dt (cov.2 ⟨0, by omega⟩ ⟨0, by omega⟩))
  else .error .valueError

/-- An estimator object seen from outside: `fit` changes its state and returns or raises;
`covariance_` is read off the state. `X` is the type of one trial. -/
structure EstObj (S X : Type) where
  fit : S → X → S × Py Unit
  covariance : S → Σ k : ℕ, Matrix (Fin k) (Fin k) ℂ

/-- base.py:262-265 the sequential loop (`n_jobs == 1`): the estimator is refitted in place
on each trial. Returns its final state and the matrices or the exception. -/
noncomputable def seqTransform {S X : Type} (E : EstObj S X) (dt : XDType) (p : ℕ) :
    S → List X → S × Py (List (Matrix (Fin p) (Fin p) ℂ))
  | s, [] => (s, .ok [])
  | s, x :: xs =>
    match E.fit s x with
    | (s', .error e) => (s', .error e)
    | (s', .ok ()) =>
      match assignCov dt p (E.covariance s') with
      | .error e => (s', .error e)
      | .ok c =>
        match seqTransform E dt p s' xs with
        | (s'', .error e) => (s'', .error e)
        | (s'', .ok cs) => (s'', .ok (c :: cs))

/-- Progress of one delayed call of `_fit_transform_covariance_copy`, base.py:276-295. -/
inductive CovTask where
  | pending
  /-- `est = deepcopy(estimator)` done; the copy lives at heap address `r` -/
  | copied (r : ℕ)
  /-- `est.fit(x)` returned or raised; `est.covariance_` read -/
  | done (res : Py (Σ k : ℕ, Matrix (Fin k) (Fin k) ℂ))

/-- State of a parallel run: a heap of estimator objects (the user's is at address 0) and
the progress of each task. -/
structure ParState (S : Type) where
  heap : List S
  tasks : List CovTask

/-- One step of task `i` (base.py:291-295): first the deep copy, then the fit of the copy.
Steps of finished or unknown tasks do nothing. Simplification: `fit` of one task is one
step, and `deepcopy` copies the whole state. -/
noncomputable def parStep {S X : Type} (E : EstObj S X) (xs : List X) (σ : ParState S) (i : ℕ) :
    ParState S :=
  match σ.tasks[i]?, xs[i]? with
  | some .pending, some _ =>
    match σ.heap[0]? with
    | some s => ⟨σ.heap ++ [s], σ.tasks.set i (.copied σ.heap.length)⟩
    | none => σ
  | some (.copied r), some x =>
    match σ.heap[r]? with
    | some s =>
      match E.fit s x with
      | (s', .ok ()) => ⟨σ.heap.set r s', σ.tasks.set i (.done (.ok (E.covariance s')))⟩
      | (s', .error e) => ⟨σ.heap.set r s', σ.tasks.set i (.done (.error e))⟩
    | none => σ
  | _, _ => σ

/-- All steps of a schedule: a sequence of task numbers in the order the workers run. -/
noncomputable def parRun {S X : Type} (E : EstObj S X) (xs : List X) (σ : ParState S)
    (sched : List ℕ) : ParState S := sched.foldl (parStep E xs) σ

/-- base.py:267-270: `Parallel` returns the results by task number, or raises the exception
of a task (here: of the first failed one). An unfinished task is no outcome (`none`). -/
noncomputable def parGather :
    List CovTask → Option (Py (List (Σ k : ℕ, Matrix (Fin k) (Fin k) ℂ)))
  | [] => some (.ok [])
  | .done (.error e) :: _ => some (.error e)
  | .done (.ok c) :: ts =>
    match parGather ts with
    | none => none
    | some (.error e) => some (.error e)
    | some (.ok cs) => some (.ok (c :: cs))
  | _ :: _ => none

/-- base.py:246-273 `CovariancesEstimation.transform`: new heap and result. `sched` is the
order in which the workers of `joblib` run (base.py:271-272 then assigns by number); it plays no role when `n_jobs == 1`. -/
noncomputable def covTransform {S X : Type} (E : EstObj S X) (dt : XDType) (p : ℕ) (nJobs : ℤ)
    (sched : List ℕ) (s : S) (xs : List X) :
    List S × Option (Py (List (Matrix (Fin p) (Fin p) ℂ))) :=
  if nJobs = 1 then
    let r := seqTransform E dt p s xs
    ([r.1], some r.2)
  else
    let σ := parRun E xs ⟨[s], List.replicate xs.length .pending⟩ sched
    (σ.heap, (parGather σ.tasks).map fun r => match r with
      | .error e => .error e
      | .ok cs => cs.mapM (assignCov dt p))

/-! ## complex_empirical_covariance -/

/-- `np.cov(X.T, bias=1)` for complex data (numpy: subtract the mean over observations, then
`X @ X.T.conj() / n`); `n` samples in the rows of `X`. -/
noncomputable def npCov {n p : ℕ} (X : Matrix (Fin n) (Fin p) ℂ) : Matrix (Fin p) (Fin p) ℂ :=
  let D : Matrix (Fin n) (Fin p) ℂ := of fun i j => X i j - (∑ k, X k j) / n
  (n : ℂ)⁻¹ • (Dᵀ * D.map star)

/-- `np.dot(X.T, X.conj()) / X.shape[0]`, base.py:328. -/
noncomputable def dotCov {n p : ℕ} (X : Matrix (Fin n) (Fin p) ℂ) : Matrix (Fin p) (Fin p) ℂ :=
  (n : ℂ)⁻¹ • (Xᵀ * X.map star)

/-- base.py:300-334 `complex_empirical_covariance` on a 2-D array with at least one sample
(without samples numpy divides by zero; the callers have checked that there is one). The
wrapping of a 0-d result is implicit in the matrix type; the warning is not modelled. -/
noncomputable def complexEmpiricalCovariance {n p : ℕ} (X : Matrix (Fin n) (Fin p) ℂ)
    (assumeCentered : Bool) : Matrix (Fin p) (Fin p) ℂ :=
  if assumeCentered then dotCov X else npCov X

/-- base.py:318-324: a 1-D array is one sample. -/
noncomputable def complexEmpiricalCovariance1 {p : ℕ} (x : Fin p → ℂ) (assumeCentered : Bool) :
    Matrix (Fin p) (Fin p) ℂ :=
  complexEmpiricalCovariance (of fun (_ : Fin 1) j => x j) assumeCentered

/-! ## ComplexEmpiricalCovariance -/

/-- sklearn's `check_array` / `_validate_data` with default arguments: 2-D, at least one
sample and one feature, real dtype (complex data are refused), all entries finite (always
so in the model); otherwise `ValueError`. -/
def checkArray : NDArr → Py NDArr
  | .real (.d2 m n a) => if m = 0 ∨ n = 0 then .error .valueError else .ok (.real (.d2 m n a))
  | _ => .error .valueError

/-- base.py:367-371 `_validate_data`. -/
def validateData (X : NDArr) : Py NDArr := do
  let r ← arraytoreal X
  let c ← checkArray r
  arraytocomplex c

/-- base.py:346-365 `_set_covariance`: the stored `covariance_`. The precision matrix
(`linalg.pinvh`) is not modelled. -/
noncomputable def setCovariance (C : NDArr) : Py NDArr := do
  let r ← covariancetoreal C
  let c ← checkArray r
  covariancetocomplex c

/-- The attributes `location_`, `covariance_` after a fit. -/
structure EmpCovFit where
  location : Σ p : ℕ, (Fin p → ℂ)
  covariance : NDArr

/-- base.py:373-398 `fit` of `ComplexEmpiricalCovariance`. -/
noncomputable def complexEmpCovFit (X : NDArr) (assumeCentered : Bool) : Py EmpCovFit := do
  match ← validateData X with
  | .cplx (.d2 n p Z) =>
    let loc : Fin p → ℂ :=
      if assumeCentered then 0 else fun j => (∑ i, Z i j) / n
    let C ← setCovariance (.cplx (.d2 p p (complexEmpiricalCovariance Z assumeCentered)))
    return ⟨⟨p, loc⟩, C⟩
  | _ => .error .valueError

/-- Norm argument of `error_norm`. -/
inductive NormKind where
  | frobenius
  | spectral
  | other

/-- sklearn's `EmpiricalCovariance.error_norm` followed by `np.abs`, base.py:400-406:
`squared_norm = np.sum(error**2)` or `np.amax(svdvals(error.T @ error))`, divided by
`error.shape[0]` if `scaling`, square root unless `squared`. `smax` is the largest singular
value. `|sqrt z|` is `sqrt |z|` for the complex square root. -/
noncomputable def errorNorm {p : ℕ} (smax : Matrix (Fin p) (Fin p) ℂ → ℝ)
    (cov comp : Matrix (Fin p) (Fin p) ℂ) (norm : NormKind) (scaling squared : Bool) : Py ℝ :=
  let error := comp - cov
  let fin (z : ℂ) : ℝ :=
    let z := if scaling then z / p else z
    if squared then ‖z‖ else Real.sqrt ‖z‖
  match norm with
  | .frobenius => .ok (fin (∑ i, ∑ j, error i j ^ 2))
  | .spectral => .ok (fin (smax (errorᵀ * error)))
  | .other => .error .notImplementedError

end RS
