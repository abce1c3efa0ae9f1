import Verif.Model.Estimators
import Verif.Model.Precision

/-
What the estimators of robuststats/estimation/covariance.py inherit from sklearn's
`EmpiricalCovariance` besides `score`: `get_precision` and `mahalanobis`.
-/
set_option autoImplicit false

namespace RS
open Matrix

/-- `scipy.linalg.pinvh` of a real matrix -/
abbrev PinvhR := ∀ n : ℕ, Matrix (Fin n) (Fin n) ℝ → Matrix (Fin n) (Fin n) ℝ

/-- `linalg.pinvh(covariance)` for real and complex arrays; it wants a square matrix. -/
noncomputable def pinvAny (pinvR : PinvhR) (pinvC : Pinvh) : NDArr → Py NDArr
  | .real (.d2 m n a) =>
    if h : m = n then .ok (.real (.d2 n n (pinvR n (a.submatrix (Fin.cast h.symm) id))))
    else .error .valueError
  | .cplx (.d2 m n a) =>
    if h : m = n then .ok (.cplx (.d2 n n (pinvC n (a.submatrix (Fin.cast h.symm) id))))
    else .error .valueError
  | _ => .error .valueError

/-- `get_precision` of an estimator of covariance.py. The constructors (covariance.py:489, 563, 643,
1062, 1141, 1221) leave `store_precision` at its default, so that `_set_covariance` (sklearn's and
base.py:346-365) stores `precision_ = pinvh(covariance_)` along with `covariance_`; before the first
fit there is no such attribute. Simplification: `store_precision` is not changed afterwards. -/
noncomputable def Est.getPrecision (pinvR : PinvhR) (pinvC : Pinvh) (o : Est) : Py NDArr :=
  match o.covariance with
  | none => .error .attributeError
  | some c => pinvAny pinvR pinvC c

/-- sklearn's `mahalanobis(X)` for the object at address `a`. From version 1.0 on
(`L.scoreValidates`) it begins with `X = self._validate_data(X, reset=False)`, which base.py:367
does not accept for complex estimators. Then come `precision = self.get_precision()` and
`self.location_`, an attribute that no `fit` of covariance.py sets (516-524, 590-597, 692-698,
1090-1098, 1168-1175, 1271-1277). -/
noncomputable def mahalanobis (L : Lib) (pinvR : PinvhR) (pinvC : Pinvh) (h : Heap) (a : ℕ)
    (X : NDArr) : Py (List ℝ) :=
  match h[a]? with
  | none => .error .nameError
  | some o =>
    if L.scoreValidates && o.complex then .error .typeError
    else do
      let _ ← if L.scoreValidates then checkArray X else .ok X
      let _ ← o.getPrecision pinvR pinvC
      .error .attributeError

end RS
