import Verif.Model.Base
import Mathlib.Analysis.SpecialFunctions.Complex.Log
import Mathlib.LinearAlgebra.Matrix.Determinant.Basic

/-
`ComplexEmpiricalCovariance` (robuststats/estimation/base.py:337-406) as an object: its attributes
`location_`, `covariance_`, `precision_`, and what it inherits from sklearn's `EmpiricalCovariance`:
`get_precision`, `score` and `mahalanobis`; and `RealCovarianceScale` (base.py:412-430).

`scipy.linalg.pinvh` is a parameter. Simplification: `score` is modelled for test sets of shape
`(n, p)` with `n` at least one.
-/
set_option autoImplicit false

namespace RS
open Matrix

/-- `scipy.linalg.pinvh` -/
abbrev Pinvh := ∀ n : ℕ, Matrix (Fin n) (Fin n) ℂ → Matrix (Fin n) (Fin n) ℂ

/-- An object of the class. `precision` is `none` before the attribute exists and `some none` when
it is `None`. -/
structure EmpObj where
  storePrecision : Bool
  assumeCentered : Bool
  location : Option (Σ p : ℕ, (Fin p → ℂ))
  covariance : Option NDArr
  precision : Option (Option NDArr)

/-- sklearn's constructor, inherited. -/
def EmpObj.new (storePrecision assumeCentered : Bool) : EmpObj :=
  ⟨storePrecision, assumeCentered, none, none, none⟩

/-- `linalg.pinvh(covariance)`, which wants a square matrix. -/
noncomputable def pinvArr (pinvh : Pinvh) : NDArr → Py NDArr
  | .cplx (.d2 m n a) =>
    if h : m = n then .ok (.cplx (.d2 n n (pinvh n (a.submatrix (Fin.cast h.symm) id))))
    else .error .valueError
  | _ => .error .valueError

/-- base.py:346-365 `_set_covariance`. -/
noncomputable def EmpObj.setCov (pinvh : Pinvh) (o : EmpObj) (C : NDArr) : EmpObj × Py Unit :=
  match setCovariance C with
  | .error e => (o, .error e)
  | .ok c =>
    let o := { o with covariance := some c }
    if o.storePrecision then
      match pinvArr pinvh c with
      | .error e => (o, .error e)
      | .ok P => ({ o with precision := some (some P) }, .ok ())
    else ({ o with precision := some none }, .ok ())

/-- base.py:373-398 `fit`. -/
noncomputable def EmpObj.fit (pinvh : Pinvh) (o : EmpObj) (X : NDArr) : EmpObj × Py Unit :=
  match validateData X with
  | .error e => (o, .error e)
  | .ok (.cplx (.d2 n p Z)) =>
    let loc : Fin p → ℂ := if o.assumeCentered then 0 else fun j => (∑ i, Z i j) / n
    let o := { o with location := some ⟨p, loc⟩ }
    o.setCov pinvh (.cplx (.d2 p p (complexEmpiricalCovariance Z o.assumeCentered)))
  | .ok _ => (o, .error .valueError)

/-- sklearn's `get_precision`: the attribute if `store_precision`, else `pinvh(covariance_)`. The
result may be `None`. -/
noncomputable def EmpObj.getPrecision (pinvh : Pinvh) (o : EmpObj) : Py (Option NDArr) :=
  if o.storePrecision then
    match o.precision with
    | none => .error .attributeError
    | some P => .ok P
  else
    match o.covariance with
    | none => .error .attributeError
    | some c => do
      let P ← pinvArr pinvh c
      return some P

/-- What a user does with an object; exceptions are caught. -/
inductive EmpOp where
  | fit (X : NDArr)
  | setCov (C : NDArr)
  | setStore (b : Bool)
  | setCentered (b : Bool)

/-- The object after one operation. -/
noncomputable def EmpOp.run (pinvh : Pinvh) (o : EmpObj) : EmpOp → EmpObj
  | .fit X => (o.fit pinvh X).1
  | .setCov C => (o.setCov pinvh C).1
  | .setStore b => { o with storePrecision := b }
  | .setCentered b => { o with assumeCentered := b }

/-- What `score` returns: a (complex) number or minus infinity. -/
inductive LogLik where
  | fin (z : ℂ)
  | ninf

/-- sklearn's `log_likelihood(emp_cov, precision)`:
`(-np.sum(emp_cov * precision) + fast_logdet(precision) - p * np.log(2 * np.pi)) / 2`, where
`fast_logdet` is `-inf` unless the sign of the determinant is positive. Simplification: the
determinant of a precision matrix is taken to be real. -/
noncomputable def logLikelihood {p : ℕ} (emp P : Matrix (Fin p) (Fin p) ℂ) : LogLik :=
  open Classical in
  if 0 < P.det.re then
    .fin ((-(∑ i, ∑ j, emp i j * P i j) + (Real.log ‖P.det‖ : ℂ) - p * (Real.log (2 * Real.pi) : ℂ)) / 2)
  else .ninf

/-- sklearn's `score(X_test)`, inherited. From version 1.0 on (`validates`) it begins with
`self._validate_data(X_test, reset=False)`, which base.py:367 does not accept. Before, it is
`log_likelihood(empirical_covariance(X_test - self.location_, assume_centered=True),
self.get_precision())` with `empirical_covariance(Y) = np.dot(Y.T, Y) / n`. -/
noncomputable def EmpObj.score (validates : Bool) (pinvh : Pinvh) (o : EmpObj) {n q : ℕ}
    (X : Matrix (Fin n) (Fin q) ℂ) : Py LogLik :=
  if validates then .error .typeError
  else match o.location with
    | none => .error .attributeError
    | some ⟨p, m⟩ =>
      if h : q = p then do
        let Y : Matrix (Fin n) (Fin p) ℂ := of fun i j => X i (j.cast h.symm) - m j
        let test : Matrix (Fin p) (Fin p) ℂ := (n : ℂ)⁻¹ • (Yᵀ * Y)
        match ← o.getPrecision pinvh with
        | some (.cplx (.d2 k l P)) =>
          if hk : k = p ∧ l = p then
            return logLikelihood test (P.submatrix (Fin.cast hk.1.symm) (Fin.cast hk.2.symm))
          else .error .valueError
        | _ => .error .typeError
      else .error .valueError

/-- sklearn's `mahalanobis(X)`, inherited. From version 1.0 on (`validates`) it begins with
`self._validate_data(X, reset=False)`. Then `precision = self.get_precision()` and
`pairwise_distances(X, self.location_[np.newaxis, :], metric='mahalanobis', VI=precision)`, which
checks both arrays with `check_array` and hands them to scipy (`cdist`). -/
noncomputable def EmpObj.mahalanobis (validates : Bool) (pinvh : Pinvh)
    (cdist : NDArr → NDArr → Option NDArr → Py (List ℝ)) (o : EmpObj) (X : NDArr) :
    Py (List ℝ) :=
  if validates then .error .typeError
  else do
    let P ← o.getPrecision pinvh
    match o.location with
    | none => .error .attributeError
    | some ⟨p, m⟩ => do
      let A ← checkArray X
      let B ← checkArray (.cplx (.d2 1 p fun _ j => m j))
      cdist A B P

/-! ## RealCovarianceScale -/

/-- base.py:412-430 an object of `RealCovarianceScale`: the attributes that can be set. -/
structure CovScale where
  covariance : Option NDArr
  scale : Option NDArr

/-- What a user does with such an object. -/
inductive CovScaleOp where
  | setCovariance (C : NDArr)
  | setScale (s : NDArr)
  | fit (X : NDArr)

/-- sklearn's `_set_covariance` (inherited, `covariance_ = check_array(covariance)`), base.py:419-421
`_set_scale` and base.py:429-430 `fit`. -/
def CovScaleOp.run (o : CovScale) : CovScaleOp → CovScale × Py Unit
  | .setCovariance C =>
    match checkArray C with
    | .error e => (o, .error e)
    | .ok c => ({ o with covariance := some c }, .ok ())
  | .setScale s =>
    match checkArray s with
    | .error e => (o, .error e)
    | .ok c => ({ o with scale := some c }, .ok ())
  | .fit _ => (o, .error .notImplementedError)

/-- base.py:423-424 `get_scale`. -/
def CovScale.getScale (o : CovScale) : Py NDArr :=
  match o.scale with
  | none => .error .attributeError
  | some s => .ok s

/-- base.py:426-427 `transform`, which does not look at its argument. -/
def CovScale.transform (o : CovScale) (_ : NDArr) : Py (List NDArr) :=
  match o.covariance, o.scale with
  | some c, some s => .ok [c, s]
  | _, _ => .error .attributeError

end RS
