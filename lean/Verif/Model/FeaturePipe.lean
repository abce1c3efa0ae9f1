import Verif.Model.FitCall
import Verif.Model.FeatureJobs

/-
`FeaturesEstimation` (robuststats/estimation/base.py:157-219) run on the estimator objects of
robuststats/estimation/covariance.py: Model/FeatureJobs with the heap of Model/Estimators as state.
-/
set_option autoImplicit false

namespace RS
open Matrix

/-- The array held by a feature array for one covariance matrix. Only matrices occur as
covariances. -/
def covFeature : NDArr → Py (NArr ℂ)
  | .real (.d2 m n C) => .ok ⟨.float64, [m, n],
      .node (List.ofFn fun i => .node (List.ofFn fun j => .leaf ((C i j : ℝ) : ℂ)))⟩
  | .cplx (.d2 m n C) => .ok ⟨.complex128, [m, n],
      .node (List.ofFn fun i => .node (List.ofFn fun j => .leaf (C i j)))⟩
  | _ => .error .valueError

/-- base.py:161 and 215 `estimator.fit_transform(data)`, without keyword arguments, for the
object at address `a`; base.py:166-167 the ndarray becomes a list of one ndarray. -/
noncomputable def estFeatures (L : Lib) (a : ℕ) : FeatObj Heap NDArr ℂ where
  fit h x := fit L h a x none
  transform h x := do
    let C ← transform h a x
    let c ← covFeature C
    return [c]

/-- base.py:202-219 `FeaturesEstimation(est, n_jobs).transform(X)` for the object `est` at address
`a` and the trials `xs`. -/
noncomputable def featEstTransform (L : Lib) (h : Heap) (a : ℕ) (xs : List NDArr) (b : Backend) :
    Option Heap × Option (Py (FArr ℂ)) :=
  featuresTransformObj (estFeatures L a) 0 b h xs

end RS
