import Mathlib.Data.Real.Basic
import Verif.Model.Py

/-
Model of `robuststats/utils/checking.py`. Messages are not modelled.
-/
set_option autoImplicit false

namespace RS

/-- A Python float: a finite number, an infinity or NaN. -/
inductive PyFloat where
  | fin (x : ℝ)
  | pinf
  | ninf
  | nan

open Classical in
/-- `x > 0`: every comparison with NaN is false. -/
noncomputable def PyFloat.gtZero : PyFloat → Bool
  | .fin x => decide (0 < x)
  | .pinf => true
  | .ninf => false
  | .nan => false

open Classical in
/-- `x >= 0` -/
noncomputable def PyFloat.geZero : PyFloat → Bool
  | .fin x => decide (0 ≤ x)
  | .pinf => true
  | .ninf => false
  | .nan => false

/-- checking.py:12-31 `check_positive`. -/
noncomputable def check_positive (var : PyFloat) (strictly : Bool := true) : Py Unit :=
  let condition := if strictly then var.gtZero else var.geZero
  if !condition then .error .valueError else .ok ()

/-- checking.py:34-48 `check_type`, for a value whose type is `ty`. -/
def check_type {T : Type*} [DecidableEq T] (ty : T) (accepted : List T) : Py Unit :=
  if ty ∉ accepted then .error .typeError else .ok ()

/-- checking.py:51-65 `check_value`. -/
def check_value {α : Type*} [DecidableEq α] (var : α) (accepted : List α) : Py Unit :=
  if var ∉ accepted then .error .valueError else .ok ()

end RS
