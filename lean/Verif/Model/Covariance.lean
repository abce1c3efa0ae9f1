import Verif.Model.Linalg
import Verif.Model.Base
import Mathlib.LinearAlgebra.Matrix.Trace
import Mathlib.LinearAlgebra.Matrix.Determinant.Basic

/-
Model of the estimation functions of robuststats/estimation/covariance.py.
Progress bars and log messages other than 'did not converge' are not modelled.
-/
set_option autoImplicit false

namespace RS

open Matrix

/-- A matrix of floats: all entries finite, or some entry not a number. -/
inductive FMat (p : ℕ) (𝕜 : Type) where
  | fin (M : Matrix (Fin p) (Fin p) 𝕜)
  | nan

/-- The error `delta` between two iterations: a float. -/
inductive Delta where
  | inf
  | fin (r : ℝ)
  | nan

/-- `delta > tol` for a real `tol`; comparisons with NaN are false. -/
def Delta.gt : Delta → ℝ → Prop
  | .inf, _ => True
  | .fin r, tol => r > tol
  | .nan, _ => False

section Generic
variable {𝕜 : Type} [RCLike 𝕜] {N p : ℕ}

/-- `la.norm` of a matrix: the Frobenius norm. -/
noncomputable def frob (A : Matrix (Fin p) (Fin p) 𝕜) : ℝ := Real.sqrt (∑ i, ∑ j, ‖A i j‖ ^ 2)

open Classical in
/-- covariance.py:40-80 `get_normalisation_function(normalisation)(covariance)`; `none` is NaN
(a fractional power of a negative number). `1/p` is real division. For 'element' and `p = 0`
Python raises; the callers have checked `p ≥ 1`. -/
noncomputable def normFn (normalisation : String) (C : Matrix (Fin p) (Fin p) 𝕜) : Option 𝕜 :=
  if normalisation = "trace" then some ((RCLike.re C.trace / p : ℝ) : 𝕜)
  else if normalisation = "determinant" then
    if RCLike.re C.det < 0 then none else some (((RCLike.re C.det) ^ (1 / (p : ℝ)) : ℝ) : 𝕜)
  else if normalisation = "element" then
    if h : 0 < p then some (C ⟨0, h⟩ ⟨0, h⟩) else none
  else if normalisation = "None" then some 1
  else some 1

open Classical in
/-- covariance.py:446, 1019 `sigma/S(sigma)`; division by zero gives infinite or NaN entries. -/
noncomputable def FMat.normalise (normalisation : String) : FMat p 𝕜 → FMat p 𝕜
  | .nan => .nan
  | .fin C =>
    match normFn normalisation C with
    | none => .nan
    | some s => if s = 0 then .nan else .fin (s⁻¹ • C)

open Classical in
/-- `delta = la.norm(sigma_new - sigma) / la.norm(sigma)` with numpy's division by zero,
e.g. covariance.py:430. -/
noncomputable def relErr : FMat p 𝕜 → FMat p 𝕜 → Delta
  | .fin new, .fin old =>
    if frob old = 0 then (if frob (new - old) = 0 then .nan else .inf)
    else .fin (frob (new - old) / frob old)
  | _, _ => .nan

/-- The variables of a fixed-point loop. -/
structure FPState (p : ℕ) (𝕜 : Type) where
  sigma : FMat p 𝕜
  delta : Delta
  iteration : ℕ

/-- The body of a loop applied to the current estimate; NaN entries propagate. -/
def stepSig (step : Matrix (Fin p) (Fin p) 𝕜 → Py (FMat p 𝕜)) : FMat p 𝕜 → Py (FMat p 𝕜)
  | .fin M => step M
  | .nan => .ok .nan

open Classical in
/-- The loop shared word for word by the six fixed-point functions, e.g. covariance.py:421-438:
`while (delta > tol) and (iteration < iter_max)`: new estimate, `delta`, `iteration += 1`. -/
noncomputable def fpLoop (step : Matrix (Fin p) (Fin p) 𝕜 → Py (FMat p 𝕜)) (tol : ℝ) (iterMax : ℤ)
    (s : FPState p 𝕜) : Py (FPState p 𝕜) :=
  if s.delta.gt tol ∧ (s.iteration : ℤ) < iterMax then
    match stepSig step s.sigma with
    | .error e => .error e
    | .ok new => fpLoop step tol iterMax ⟨new, relErr new s.sigma, s.iteration + 1⟩
  else .ok s
termination_by (iterMax - s.iteration).toNat
decreasing_by omega

/-- Result of a fixed-point function: the three returned values and whether
'Estimation algorithm did not converge' was logged. -/
structure FPOut (p : ℕ) (𝕜 : Type) where
  sigma : FMat p 𝕜
  delta : Delta
  iteration : ℕ
  warned : Bool

/-- Start of the loop (`delta = np.inf`, `iteration = 0`), the loop, and the warning test
`iteration == iter_max`, e.g. covariance.py:415-444. -/
noncomputable def runLoop (step : Matrix (Fin p) (Fin p) 𝕜 → Py (FMat p 𝕜)) (tol : ℝ) (iterMax : ℤ)
    (sigma : Matrix (Fin p) (Fin p) 𝕜) : Py (FPOut p 𝕜) := do
  let s ← fpLoop step tol iterMax ⟨.fin sigma, .inf, 0⟩
  return ⟨s.sigma, s.delta, s.iteration, (s.iteration : ℤ) == iterMax⟩

/-- The numerical environment: `eigh`, and what comes out of a loop body when the current
estimate has an eigenvalue `≤ 0` (numpy then computes with `inf` and NaN); that is left open. -/
structure NumEnv (N p : ℕ) (𝕜 : Type) where
  eigh : Eigh (Fin p) 𝕜
  degen : Matrix (Fin N) (Fin p) 𝕜 → Matrix (Fin p) (Fin p) 𝕜 → FMat p 𝕜

/-- All eigenvalues reported by `eigh` are positive, so that `invsqrtm` is finite. -/
def NumEnv.regular (env : NumEnv N p 𝕜) (sigma : Matrix (Fin p) (Fin p) 𝕜) : Prop :=
  ∀ i, 0 < (env.eigh sigma).vals i

open Classical in
/-- A loop body on an estimate with an eigenvalue `≤ 0`: a zero sample meets `0 * inf` and
makes everything NaN; otherwise left open. -/
noncomputable def NumEnv.degStep (env : NumEnv N p 𝕜) (X : Matrix (Fin N) (Fin p) 𝕜)
    (sigma : Matrix (Fin p) (Fin p) 𝕜) : FMat p 𝕜 :=
  if ∃ i, ∀ j, X i j = 0 then .nan else env.degen X sigma

end Generic

/-! ## Huber's weight function and parameters -/

/-- A float that is finite or `+inf`. -/
inductive PFloat where
  | fin (r : ℝ)
  | inf

open Classical in
/-- covariance.py:86-118 `_huber_m_estimator_function` at one entry of `x`: `lbda/0` is `inf`
and so is `1/0` (numpy floats). -/
noncomputable def huberFn (x lbda beta : ℝ) : Py PFloat :=
  if lbda ≤ 0 ∨ beta < 0 then .error .assertionError
  else
    let m := if x = 0 then 1 else min 1 (lbda / x)
    .ok (if beta = 0 then .inf else .fin ((1 / beta) * m))

/-- scipy's `chi2`. -/
structure Chi2 where
  ppf : ℝ → ℕ → ℝ
  cdf : ℝ → ℕ → ℝ

/-- What the properties use of it. -/
structure Chi2.Ok (c : Chi2) : Prop where
  ppf_zero : ∀ k, c.ppf 0 k = 0
  ppf_pos : ∀ q k, 0 < q → q < 1 → 0 < k → 0 < c.ppf q k
  cdf_nonneg : ∀ x k, 0 ≤ c.cdf x k

/-- Threshold and tuning parameter: finite, or `beta` NaN (`q = 1`: `inf * 0`; `q` outside
`[0, 1]`: `ppf` is NaN). -/
inductive HuberPar where
  | fin (lbda beta : ℝ)
  | nan

open Classical in
/-- covariance.py:161-162 `lbda = chi2.ppf(q, p)/2`, `beta = chi2.cdf(2*lbda, p+1) +
2*lbda*(1-q)/p`. -/
noncomputable def huberPar (c : Chi2) (q : ℝ) (p : ℕ) : HuberPar :=
  if 0 ≤ q ∧ q < 1 then
    let lbda := c.ppf q p / 2
    .fin lbda (c.cdf (2 * lbda) (p + 1) + 2 * lbda * (1 - q) / p)
  else .nan

open Classical in
/-- covariance.py:753-754 `lbda = chi2.ppf(q, 2*p)/2`, `beta = chi2.cdf(2*lbda, 2*p+2) +
lbda*(1-q)/p`. -/
noncomputable def complexHuberPar (c : Chi2) (q : ℝ) (p : ℕ) : HuberPar :=
  if 0 ≤ q ∧ q < 1 then
    let lbda := c.ppf q (2 * p) / 2
    .fin lbda (c.cdf (2 * lbda) (2 * p + 2) + lbda * (1 - q) / p)
  else .nan

/-- `x / np.sqrt(t)` for a weight `t` that may be infinite. -/
noncomputable def divSqrt {𝕜 : Type} [RCLike 𝕜] (x : 𝕜) : PFloat → 𝕜
  | .fin t => x / (Real.sqrt t : 𝕜)
  | .inf => 0

/-! ## Real-valued estimators -/

section Real
variable {N p : ℕ}

/-- sklearn's `empirical_covariance(X, assume_centered=True)`: `np.dot(X.T, X) / n`. -/
noncomputable def empiricalCovariance (X : Matrix (Fin N) (Fin p) ℝ) : Matrix (Fin p) (Fin p) ℝ :=
  (N : ℝ)⁻¹ • (Xᵀ * X)

/-- `tau = np.einsum('ij,ji->i', temp.T, temp)` with `temp = invsqrtm(sigma)@X.T`,
covariance.py:423-424. -/
noncomputable def tauReal (eigh : Eigh (Fin p) ℝ) (X : Matrix (Fin N) (Fin p) ℝ)
    (sigma : Matrix (Fin p) (Fin p) ℝ) (i : Fin N) : ℝ :=
  let temp := invsqrtm eigh sigma * Xᵀ
  ∑ j, tempᵀ i j * temp j i

open Classical in
/-- covariance.py:423-427 body of the Tyler loop. A zero `tau` gives `0/0`. -/
noncomputable def tylerStep (env : NumEnv N p ℝ) (X : Matrix (Fin N) (Fin p) ℝ)
    (sigma : Matrix (Fin p) (Fin p) ℝ) : FMat p ℝ :=
  if env.regular sigma then
    let tau i := (1 / (p : ℝ)) * tauReal env.eigh X sigma i
    if ∃ i, tau i = 0 then .nan
    else
      let temp : Matrix (Fin p) (Fin N) ℝ := of fun j i => Xᵀ j i / Real.sqrt (tau i)
      .fin (((1 / (N : ℝ)) • temp) * tempᵀ)
  else env.degStep X sigma

open Classical in
/-- covariance.py:247-251 body of the Student loop. -/
noncomputable def studentStep (env : NumEnv N p ℝ) (df : ℝ) (X : Matrix (Fin N) (Fin p) ℝ)
    (sigma : Matrix (Fin p) (Fin p) ℝ) : FMat p ℝ :=
  if env.regular sigma then
    let tau i := df / 2 + tauReal env.eigh X sigma i
    let temp : Matrix (Fin p) (Fin N) ℝ := of fun j i => Xᵀ j i / Real.sqrt (tau i)
    .fin ((((df / 2 + p) / (N : ℝ)) • temp) * tempᵀ)
  else env.degStep X sigma

open Classical in
/-- covariance.py:172-176 body of the Huber loop. With parameters that are NaN everything
becomes NaN. -/
noncomputable def huberStep (env : NumEnv N p ℝ) (par : HuberPar) (X : Matrix (Fin N) (Fin p) ℝ)
    (sigma : Matrix (Fin p) (Fin p) ℝ) : Py (FMat p ℝ) :=
  match par with
  | .nan => .ok .nan
  | .fin lbda beta =>
    if lbda ≤ 0 ∨ beta < 0 then .error .assertionError
    else if env.regular sigma then
      let tau i : PFloat := match huberFn (tauReal env.eigh X sigma i) lbda beta with
        | .ok t => t
        | .error _ => .inf
      let temp : Matrix (Fin p) (Fin N) ℝ := of fun j i => divSqrt (Xᵀ j i) (tau i)
      .ok (.fin (((1 / (N : ℝ)) • temp) * tempᵀ))
    else .ok (env.degStep X sigma)

/-- covariance.py:373-446 `tyler_shape_matrix_fixedpoint`. -/
noncomputable def tylerFixedPoint (env : NumEnv N p ℝ) (X : Matrix (Fin N) (Fin p) ℝ)
    (init : Option (Matrix (Fin p) (Fin p) ℝ)) (tol : ℝ) (iterMax : ℤ) (normalisation : String) :
    Py (FPOut p ℝ) := do
  let sigma := init.getD (empiricalCovariance X)
  let out ← runLoop (fun s => .ok (tylerStep env X s)) tol iterMax sigma
  return { out with sigma := out.sigma.normalise normalisation }

open Classical in
/-- covariance.py:199-271 `student_t_mle_fixed_point`. -/
noncomputable def studentFixedPoint (env : NumEnv N p ℝ) (X : Matrix (Fin N) (Fin p) ℝ) (df : ℝ)
    (init : Option (Matrix (Fin p) (Fin p) ℝ)) (tol : ℝ) (iterMax : ℤ) : Py (FPOut p ℝ) :=
  if df ≤ 0 then .error .attributeError
  else
    let sigma := init.getD (empiricalCovariance X)
    runLoop (fun s => .ok (studentStep env df X s)) tol iterMax sigma

/-- covariance.py:120-196 `huber_m_estimator_fixed_point`. -/
noncomputable def huberFixedPoint (env : NumEnv N p ℝ) (c : Chi2) (X : Matrix (Fin N) (Fin p) ℝ)
    (q : ℝ) (init : Option (Matrix (Fin p) (Fin p) ℝ)) (tol : ℝ) (iterMax : ℤ) :
    Py (FPOut p ℝ) :=
  let sigma := init.getD (empiricalCovariance X)
  runLoop (huberStep env (huberPar c q p) X) tol iterMax sigma

end Real

/-! ## Complex-valued estimators -/

section Complex
variable {N p : ℕ}

/-- `np.real(np.einsum('ij,ji->i', temp.conj().T, temp))` with `temp = invsqrtm(sigma)@X.T`,
covariance.py:995-997. -/
noncomputable def tauComplex (eigh : Eigh (Fin p) ℂ) (X : Matrix (Fin N) (Fin p) ℂ)
    (sigma : Matrix (Fin p) (Fin p) ℂ) (i : Fin N) : ℝ :=
  let temp := invsqrtm eigh sigma * Xᵀ
  (∑ j, tempᴴ i j * temp j i).re

open Classical in
/-- covariance.py:995-999 body of the complex Tyler loop. A zero `tau` gives `0/0`. -/
noncomputable def complexTylerStep (env : NumEnv N p ℂ) (X : Matrix (Fin N) (Fin p) ℂ)
    (sigma : Matrix (Fin p) (Fin p) ℂ) : FMat p ℂ :=
  if env.regular sigma then
    let tau i := (1 / (p : ℝ)) * tauComplex env.eigh X sigma i
    if ∃ i, tau i = 0 then .nan
    else
      let temp : Matrix (Fin p) (Fin N) ℂ := of fun j i => Xᵀ j i / (Real.sqrt (tau i) : ℂ)
      .fin (((1 / (N : ℂ)) • temp) * tempᴴ)
  else env.degStep X sigma

open Classical in
/-- covariance.py:851-855 body of the complex Student loop. -/
noncomputable def complexStudentStep (env : NumEnv N p ℂ) (df : ℝ) (X : Matrix (Fin N) (Fin p) ℂ)
    (sigma : Matrix (Fin p) (Fin p) ℂ) : FMat p ℂ :=
  if env.regular sigma then
    let tau i := df + tauComplex env.eigh X sigma i
    let temp : Matrix (Fin p) (Fin N) ℂ := of fun j i => Xᵀ j i / (Real.sqrt (tau i) : ℂ)
    .fin (((((df + p) / (N : ℝ) : ℝ) : ℂ) • temp) * tempᴴ)
  else env.degStep X sigma

open Classical in
/-- covariance.py:764-768 body of the complex Huber loop. -/
noncomputable def complexHuberStep (env : NumEnv N p ℂ) (par : HuberPar)
    (X : Matrix (Fin N) (Fin p) ℂ) (sigma : Matrix (Fin p) (Fin p) ℂ) : Py (FMat p ℂ) :=
  match par with
  | .nan => .ok .nan
  | .fin lbda beta =>
    if lbda ≤ 0 ∨ beta < 0 then .error .assertionError
    else if env.regular sigma then
      let tau i : PFloat := match huberFn (tauComplex env.eigh X sigma i) lbda beta with
        | .ok t => t
        | .error _ => .inf
      let temp : Matrix (Fin p) (Fin N) ℂ := of fun j i => divSqrt (Xᵀ j i) (tau i)
      .ok (.fin (((1 / (N : ℂ)) • temp) * tempᴴ))
    else .ok (env.degStep X sigma)

/-- covariance.py:945-1019 `complex_tyler_shape_matrix_fixedpoint`. -/
noncomputable def complexTylerFixedPoint (env : NumEnv N p ℂ) (X : Matrix (Fin N) (Fin p) ℂ)
    (init : Option (Matrix (Fin p) (Fin p) ℂ)) (tol : ℝ) (iterMax : ℤ) (normalisation : String) :
    Py (FPOut p ℂ) := do
  let sigma := init.getD (complexEmpiricalCovariance X true)
  let out ← runLoop (fun s => .ok (complexTylerStep env X s)) tol iterMax sigma
  return { out with sigma := out.sigma.normalise normalisation }

open Classical in
/-- covariance.py:804-875 `complex_student_t_mle_fixed_point`. -/
noncomputable def complexStudentFixedPoint (env : NumEnv N p ℂ) (X : Matrix (Fin N) (Fin p) ℂ)
    (df : ℝ) (init : Option (Matrix (Fin p) (Fin p) ℂ)) (tol : ℝ) (iterMax : ℤ) :
    Py (FPOut p ℂ) :=
  if df ≤ 0 then .error .attributeError
  else
    let sigma := init.getD (complexEmpiricalCovariance X true)
    runLoop (fun s => .ok (complexStudentStep env df X s)) tol iterMax sigma

/-- covariance.py:712-801 `complex_huber_m_estimator_fixed_point`. -/
noncomputable def complexHuberFixedPoint (env : NumEnv N p ℂ) (c : Chi2)
    (X : Matrix (Fin N) (Fin p) ℂ) (q : ℝ) (init : Option (Matrix (Fin p) (Fin p) ℂ)) (tol : ℝ)
    (iterMax : ℤ) : Py (FPOut p ℂ) :=
  let sigma := init.getD (complexEmpiricalCovariance X true)
  runLoop (complexHuberStep env (complexHuberPar c q p) X) tol iterMax sigma

end Complex
end RS
