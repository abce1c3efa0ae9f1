import Verif.Model.Covariance

/-
The fixed-point functions of covariance.py evaluated with rounding errors. The model of
Model/Covariance.lean computes with exact numbers; here every matrix and every relative error that a
loop stores is replaced by what a floating-point evaluation may have stored instead. What happens
inside one pass of the loop is not modelled: the error of a pass is that of its two results.
-/
set_option autoImplicit false

namespace RS
open Matrix

section
variable {N p : ℕ} {𝕜 : Type} [RCLike 𝕜]

/-- What is stored instead of the exact values: the default starting point, and in pass `n` the new
estimate and the new relative error. -/
structure Rounding (p : ℕ) (𝕜 : Type) where
  start : Matrix (Fin p) (Fin p) 𝕜 → Matrix (Fin p) (Fin p) 𝕜
  mat : ℕ → Matrix (Fin p) (Fin p) 𝕜 → Matrix (Fin p) (Fin p) 𝕜
  err : ℕ → ℝ → ℝ

/-- NaN stays NaN. -/
def Rounding.fmat (fl : Rounding p 𝕜) (n : ℕ) : FMat p 𝕜 → FMat p 𝕜
  | .fin M => .fin (fl.mat n M)
  | .nan => .nan

/-- NaN and infinity stay what they are. -/
def Rounding.delta (fl : Rounding p 𝕜) (n : ℕ) : Delta → Delta
  | .fin d => .fin (fl.err n d)
  | .inf => .inf
  | .nan => .nan

open Classical in
/-- The loop `fpLoop` (covariance.py:421-438 and the five copies) with rounding errors. -/
noncomputable def flLoop (fl : Rounding p 𝕜) (step : Matrix (Fin p) (Fin p) 𝕜 → Py (FMat p 𝕜))
    (tol : ℝ) (iterMax : ℤ) (s : FPState p 𝕜) : Py (FPState p 𝕜) :=
  if s.delta.gt tol ∧ (s.iteration : ℤ) < iterMax then
    match stepSig step s.sigma with
    | .error e => .error e
    | .ok new => flLoop fl step tol iterMax
        ⟨fl.fmat s.iteration new, fl.delta s.iteration (relErr (fl.fmat s.iteration new) s.sigma),
          s.iteration + 1⟩
  else .ok s
termination_by (iterMax - s.iteration).toNat
decreasing_by omega

/-- `runLoop` with rounding errors. -/
noncomputable def flRunLoop (fl : Rounding p 𝕜) (step : Matrix (Fin p) (Fin p) 𝕜 → Py (FMat p 𝕜))
    (tol : ℝ) (iterMax : ℤ) (sigma : Matrix (Fin p) (Fin p) 𝕜) : Py (FPOut p 𝕜) := do
  let s ← flLoop fl step tol iterMax ⟨.fin sigma, .inf, 0⟩
  return ⟨s.sigma, s.delta, s.iteration, (s.iteration : ℤ) == iterMax⟩

end

section
variable {N p : ℕ}

open Classical in
/-- covariance.py:199-271 `student_t_mle_fixed_point` with rounding errors. -/
noncomputable def studentFixedPointFl (env : NumEnv N p ℝ) (fl : Rounding p ℝ)
    (X : Matrix (Fin N) (Fin p) ℝ) (df : ℝ) (init : Option (Matrix (Fin p) (Fin p) ℝ)) (tol : ℝ)
    (iterMax : ℤ) : Py (FPOut p ℝ) :=
  if df ≤ 0 then .error .attributeError
  else
    let sigma := init.getD (fl.start (empiricalCovariance X))
    flRunLoop fl (fun s => .ok (studentStep env df X s)) tol iterMax sigma

open Classical in
/-- covariance.py:804-875 `complex_student_t_mle_fixed_point` with rounding errors. -/
noncomputable def complexStudentFixedPointFl (env : NumEnv N p ℂ) (fl : Rounding p ℂ)
    (X : Matrix (Fin N) (Fin p) ℂ) (df : ℝ) (init : Option (Matrix (Fin p) (Fin p) ℂ)) (tol : ℝ)
    (iterMax : ℤ) : Py (FPOut p ℂ) :=
  if df ≤ 0 then .error .attributeError
  else
    let sigma := init.getD (fl.start (complexEmpiricalCovariance X true))
    flRunLoop fl (fun s => .ok (complexStudentStep env df X s)) tol iterMax sigma

/-- covariance.py:373-446 `tyler_shape_matrix_fixedpoint` with rounding errors (the normalisation of
the result is exact). -/
noncomputable def tylerFixedPointFl (env : NumEnv N p ℝ) (fl : Rounding p ℝ)
    (X : Matrix (Fin N) (Fin p) ℝ) (init : Option (Matrix (Fin p) (Fin p) ℝ)) (tol : ℝ)
    (iterMax : ℤ) (normalisation : String) : Py (FPOut p ℝ) := do
  let sigma := init.getD (fl.start (empiricalCovariance X))
  let out ← flRunLoop fl (fun s => .ok (tylerStep env X s)) tol iterMax sigma
  return { out with sigma := out.sigma.normalise normalisation }

/-- covariance.py:945-1019 `complex_tyler_shape_matrix_fixedpoint` with rounding errors. -/
noncomputable def complexTylerFixedPointFl (env : NumEnv N p ℂ) (fl : Rounding p ℂ)
    (X : Matrix (Fin N) (Fin p) ℂ) (init : Option (Matrix (Fin p) (Fin p) ℂ)) (tol : ℝ)
    (iterMax : ℤ) (normalisation : String) : Py (FPOut p ℂ) := do
  let sigma := init.getD (fl.start (complexEmpiricalCovariance X true))
  let out ← flRunLoop fl (fun s => .ok (complexTylerStep env X s)) tol iterMax sigma
  return { out with sigma := out.sigma.normalise normalisation }

/-- covariance.py:120-196 `huber_m_estimator_fixed_point` with rounding errors. -/
noncomputable def huberFixedPointFl (env : NumEnv N p ℝ) (fl : Rounding p ℝ) (c : Chi2)
    (X : Matrix (Fin N) (Fin p) ℝ) (q : ℝ) (init : Option (Matrix (Fin p) (Fin p) ℝ)) (tol : ℝ)
    (iterMax : ℤ) : Py (FPOut p ℝ) :=
  let sigma := init.getD (fl.start (empiricalCovariance X))
  flRunLoop fl (huberStep env (huberPar c q p) X) tol iterMax sigma

/-- covariance.py:712-801 `complex_huber_m_estimator_fixed_point` with rounding errors. -/
noncomputable def complexHuberFixedPointFl (env : NumEnv N p ℂ) (fl : Rounding p ℂ) (c : Chi2)
    (X : Matrix (Fin N) (Fin p) ℂ) (q : ℝ) (init : Option (Matrix (Fin p) (Fin p) ℂ)) (tol : ℝ)
    (iterMax : ℤ) : Py (FPOut p ℂ) :=
  let sigma := init.getD (fl.start (complexEmpiricalCovariance X true))
  flRunLoop fl (complexHuberStep env (complexHuberPar c q p) X) tol iterMax sigma

end
end RS
