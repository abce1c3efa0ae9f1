import Verif.Model.Pipeline
import Verif.Spec.Estimators

/- Vocabulary for statements about `CovariancesEstimation` on estimator objects. -/
set_option autoImplicit false

namespace RS

/-- `fit(x, init)` of a newly constructed estimator succeeds and stores the covariance `C`. -/
def FreshFit (L : Lib) (complex : Bool) (cls : Cls) (A : Attrs) (init : Option NDArr) (x C : NDArr) :
    Prop :=
  (construct [] complex cls A).2 = .ok 0 ∧
  (fit L (construct [] complex cls A).1 0 x init).2 = .ok () ∧
  ∃ err k, Fitted (fit L (construct [] complex cls A).1 0 x init).1 0 C err k

/-- `fit(x, init)` of a newly constructed estimator raises `e`. -/
def FreshFails (L : Lib) (complex : Bool) (cls : Cls) (A : Attrs) (init : Option NDArr) (x : NDArr)
    (e : PyErr) : Prop :=
  (construct [] complex cls A).2 = .ok 0 ∧
  (fit L (construct [] complex cls A).1 0 x init).2 = .error e

/-- The workers finish all `T` trials. -/
def Backend.Completes (T : ℕ) : Backend → Prop
  | .sequential => True
  | .threads sched => ∀ i < T, 2 ≤ sched.count i
  | .processes n batch sched => (∀ i < T, batch i < n) ∧ ∀ i < T, 2 ≤ sched.count i

/-- `n_jobs` is not 1. -/
def Backend.Parallel : Backend → Prop
  | .sequential => False
  | _ => True

end RS
