import Verif.Model.Linalg
import Mathlib.LinearAlgebra.Matrix.Determinant.Basic
import Mathlib.Analysis.SpecialFunctions.Log.Basic

/-
Model of robuststats/models/cost.py. The `autograd` flag only selects the module that provides
`einsum`, `log`, `sum` and `det`; it has no influence on the values.
-/
set_option autoImplicit false

namespace RS
open Matrix

/-- A float: finite, or `-inf`, `inf`, NaN (a logarithm of a number `<= 0`). -/
inductive CostVal where
  | fin (r : ℝ)
  | nonfinite

open Classical in
/-- cost.py:18-53 `Tyler_cost_real`. `Q` is square of size `m`; a `Q` with an eigenvalue `<= 0`
has an infinite or NaN inverse square root and so a value that is not finite. -/
noncomputable def tylerCostReal {N p m : ℕ} (eigh : Eigh (Fin m) ℝ) (X : Matrix (Fin N) (Fin p) ℝ)
    (Q : Matrix (Fin m) (Fin m) ℝ) : Py CostVal :=
  if h : p ≠ m then .error .attributeError
  else
    let temp : Matrix (Fin m) (Fin N) ℝ :=
      invsqrtm eigh Q * Xᵀ.submatrix (Fin.cast (not_not.1 h).symm) id
    let q i := ∑ j, tempᵀ i j * temp j i
    if (∀ i, 0 < (eigh Q).vals i) ∧ (∀ i, 0 < q i) ∧ 0 < Q.det then
      .ok (.fin (p * ∑ i, Real.log (q i) + N * Real.log Q.det))
    else .ok .nonfinite

open Classical in
/-- cost.py:56-91 `Tyler_cost_complex`. -/
noncomputable def tylerCostComplex {N p m : ℕ} (eigh : Eigh (Fin m) ℂ)
    (X : Matrix (Fin N) (Fin p) ℂ) (Q : Matrix (Fin m) (Fin m) ℂ) : Py CostVal :=
  if h : p ≠ m then .error .attributeError
  else
    let temp : Matrix (Fin m) (Fin N) ℂ :=
      invsqrtm eigh Q * Xᵀ.submatrix (Fin.cast (not_not.1 h).symm) id
    let q i := ∑ j, tempᵀ.map star i j * temp j i
    if (∀ i, 0 < (eigh Q).vals i) ∧ (∀ i, 0 < (q i).re) ∧ 0 < Q.det.re then
      .ok (.fin (p * ∑ i, Real.log (q i).re + N * Real.log Q.det.re))
    else .ok .nonfinite

end RS
