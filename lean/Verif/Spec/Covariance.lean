import Verif.Model.Covariance
import Mathlib.LinearAlgebra.Matrix.NonsingularInverse
import Mathlib.Data.Matrix.Mul
import Mathlib.LinearAlgebra.Matrix.PosDef
import Mathlib.Analysis.Complex.Order

/-
Specifications for the fixed-point estimators, independent of how the code computes:
quadratic form, weighted scatter matrix, spanning data, and a run of the iteration.
-/
set_option autoImplicit false

namespace RS

open Matrix ComplexOrder

variable {𝕜 : Type} [RCLike 𝕜] {N p : ℕ}

/-- Sample `i` of a data set (row `i`). -/
def sample (X : Matrix (Fin N) (Fin p) 𝕜) (i : Fin N) : Fin p → 𝕜 := fun j => X i j

/-- `x^H S^{-1} x` (a real number for Hermitian `S`). -/
noncomputable def qf (S : Matrix (Fin p) (Fin p) 𝕜) (x : Fin p → 𝕜) : ℝ :=
  RCLike.re (star x ⬝ᵥ (S⁻¹ *ᵥ x))

/-- `(1/N) * sum_i w_i x_i x_i^H`. -/
noncomputable def scatter (w : Fin N → ℝ) (X : Matrix (Fin N) (Fin p) 𝕜) :
    Matrix (Fin p) (Fin p) 𝕜 :=
  (N : 𝕜)⁻¹ • ∑ i, (w i : 𝕜) • vecMulVec (sample X i) (star (sample X i))

/-- One iteration of an M-estimator with weight function `w`. -/
noncomputable def mStep (w : ℝ → ℝ) (X : Matrix (Fin N) (Fin p) 𝕜)
    (S : Matrix (Fin p) (Fin p) 𝕜) : Matrix (Fin p) (Fin p) 𝕜 :=
  scatter (fun i => w (qf S (sample X i))) X

/-- The samples span the whole feature space: only the zero vector is orthogonal to all. -/
def Spans (X : Matrix (Fin N) (Fin p) 𝕜) : Prop :=
  ∀ v : Fin p → 𝕜, (∀ i, star (sample X i) ⬝ᵥ v = 0) → v = 0

/-- No sample is zero. -/
def NonzeroSamples (X : Matrix (Fin N) (Fin p) 𝕜) : Prop := ∀ i, sample X i ≠ 0

/-- Tyler's weight. -/
noncomputable def wTyler (p : ℕ) (t : ℝ) : ℝ := p / t
/-- The Student weight with parameter `nu`. -/
noncomputable def wStudent (nu : ℝ) (p : ℕ) (t : ℝ) : ℝ := (nu + p) / (nu + t)
/-- The weight that the Huber loop applies. -/
noncomputable def wHuber (lbda beta : ℝ) (t : ℝ) : ℝ := beta * max 1 (t / lbda)

/-- `d` is the relative Frobenius change from `old` to `new`, division by zero being infinite or
undefined as for floats. -/
def RelChange (new old : FMat p 𝕜) (d : Delta) : Prop :=
  (∀ A B, new = .fin A → old = .fin B → B ≠ 0 →
    d = .fin (Real.sqrt (∑ i, ∑ j, ‖A i j - B i j‖ ^ 2) / Real.sqrt (∑ i, ∑ j, ‖B i j‖ ^ 2))) ∧
  (∀ A, new = .fin A → old = .fin 0 → A ≠ 0 → d = .inf) ∧
  (new = .fin 0 → old = .fin 0 → d = .nan) ∧
  (new = .nan ∨ old = .nan → d = .nan)

/-- Complete description of a run of a stopping-rule loop from `init`: `tr k` is the `k`-th
iterate, the reported error compares the last two iterates, iteration went on while the error
exceeded `tol` and fewer than `iterMax` iterations were done. -/
structure IsRun (step : Matrix (Fin p) (Fin p) 𝕜 → Py (FMat p 𝕜)) (tol : ℝ) (iterMax : ℤ)
    (init : Matrix (Fin p) (Fin p) 𝕜) (sigma : FMat p 𝕜) (delta : Delta) (iteration : ℕ)
    (tr : ℕ → FMat p 𝕜) : Prop where
  start : tr 0 = .fin init
  next : ∀ k < iteration, stepSig step (tr k) = .ok (tr (k + 1))
  result : sigma = tr iteration
  err_zero : iteration = 0 → delta = .inf
  err_succ : ∀ k, iteration = k + 1 → RelChange (tr (k + 1)) (tr k) delta
  continued : ∀ k, k + 1 < iteration → ∃ d, RelChange (tr (k + 1)) (tr k) d ∧ d.gt tol
  bound : (iteration : ℤ) ≤ max iterMax 0
  stopped : (iteration : ℤ) < iterMax → ¬ delta.gt tol

/-- The outputs of a fixed-point function `r` are exactly those of a documented run, followed
by the final transformation `final` of the estimate; the warning is logged when the iteration
count equals `iter_max`. -/
def StopsAsDocumented (step : Matrix (Fin p) (Fin p) 𝕜 → Py (FMat p 𝕜)) (tol : ℝ) (iterMax : ℤ)
    (init : Matrix (Fin p) (Fin p) 𝕜) (final : FMat p 𝕜 → FMat p 𝕜) (r : Py (FPOut p 𝕜)) : Prop :=
  ∀ out, r = .ok out → ∃ sigma tr,
    IsRun step tol iterMax init sigma out.delta out.iteration tr ∧ out.sigma = final sigma ∧
    (out.warned = true ↔ (out.iteration : ℤ) = iterMax)

/-- The `k`-th iterate of the M-estimation step from `init`. -/
noncomputable def mIter (w : ℝ → ℝ) (X : Matrix (Fin N) (Fin p) 𝕜)
    (init : Matrix (Fin p) (Fin p) 𝕜) : ℕ → Matrix (Fin p) (Fin p) 𝕜
  | 0 => init
  | k + 1 => mStep w X (mIter w X init k)

/-- Relative Frobenius distance between two successive iterates. -/
noncomputable def mErr (w : ℝ → ℝ) (X : Matrix (Fin N) (Fin p) 𝕜)
    (init : Matrix (Fin p) (Fin p) 𝕜) (k : ℕ) : ℝ :=
  Real.sqrt (∑ i, ∑ j, ‖(mIter w X init (k + 1) - mIter w X init k) i j‖ ^ 2) /
    Real.sqrt (∑ i, ∑ j, ‖(mIter w X init k) i j‖ ^ 2)

/-- A run of an M-estimation iteration through positive definite matrices: the estimate, the
reported error and the iteration count in terms of the data, the weight function, the starting
point and the stopping rule. -/
structure IsMRun (w : ℝ → ℝ) (X : Matrix (Fin N) (Fin p) 𝕜) (tol : ℝ) (iterMax : ℤ)
    (init : Matrix (Fin p) (Fin p) 𝕜) (sigma : Matrix (Fin p) (Fin p) 𝕜) (delta : Delta)
    (iteration : ℕ) : Prop where
  result : sigma = mIter w X init iteration
  posDef : ∀ k ≤ iteration, (mIter w X init k).PosDef
  err_zero : iteration = 0 → delta = .inf
  err_succ : ∀ k, iteration = k + 1 → delta = .fin (mErr w X init k)
  continued : ∀ k, k + 1 < iteration → mErr w X init k > tol
  bound : (iteration : ℤ) ≤ max iterMax 0
  stopped : (iteration : ℤ) < iterMax → ¬ delta.gt tol

/-! ## The estimators as one family

`RealEst` and `ComplexEst` only name the six functions together with their own parameters, so
that a statement can range over all of them. -/

/-- The three fixed-point functions for real data, with their own parameters. -/
inductive RealEst where
  | tyler (normalisation : String)
  | student (df : ℝ)
  | huber (q : ℝ)

/-- Call of the function. -/
noncomputable def RealEst.run (e : RealEst) (env : NumEnv N p ℝ) (c : Chi2)
    (X : Matrix (Fin N) (Fin p) ℝ) (init : Option (Matrix (Fin p) (Fin p) ℝ)) (tol : ℝ)
    (iterMax : ℤ) : Py (FPOut p ℝ) :=
  match e with
  | .tyler normalisation => tylerFixedPoint env X init tol iterMax normalisation
  | .student df => studentFixedPoint env X df init tol iterMax
  | .huber q => huberFixedPoint env c X q init tol iterMax

/-- The name of the normalisation applied at the end. -/
def RealEst.normalisation : RealEst → String
  | .tyler normalisation => normalisation
  | _ => "None"

/-- Meaningful parameters: `df > 0`, `0 < q < 1`; for Tyler's estimator no sample is zero. -/
def RealEst.Valid (e : RealEst) (X : Matrix (Fin N) (Fin p) ℝ) : Prop :=
  match e with
  | .tyler _ => NonzeroSamples X
  | .student df => 0 < df
  | .huber q => 0 < q ∧ q < 1

/-- Weight given to `x x^T` in terms of `x^T S^{-1} x`. -/
noncomputable def RealEst.weight (e : RealEst) (c : Chi2) (p : ℕ) : ℝ → ℝ :=
  match e with
  | .tyler _ => wTyler p
  | .student df => wStudent (df / 2) p
  | .huber q => wHuber (c.ppf q p / 2)
      (c.cdf (c.ppf q p) (p + 1) + c.ppf q p * (1 - q) / p)

/-- The three fixed-point functions for complex data, with their own parameters. -/
inductive ComplexEst where
  | tyler (normalisation : String)
  | student (df : ℝ)
  | huber (q : ℝ)

/-- Call of the function. -/
noncomputable def ComplexEst.run (e : ComplexEst) (env : NumEnv N p ℂ) (c : Chi2)
    (X : Matrix (Fin N) (Fin p) ℂ) (init : Option (Matrix (Fin p) (Fin p) ℂ)) (tol : ℝ)
    (iterMax : ℤ) : Py (FPOut p ℂ) :=
  match e with
  | .tyler normalisation => complexTylerFixedPoint env X init tol iterMax normalisation
  | .student df => complexStudentFixedPoint env X df init tol iterMax
  | .huber q => complexHuberFixedPoint env c X q init tol iterMax

/-- The name of the normalisation applied at the end. -/
def ComplexEst.normalisation : ComplexEst → String
  | .tyler normalisation => normalisation
  | _ => "None"

/-- Meaningful parameters: `df > 0`, `0 < q < 1`; for Tyler's estimator no sample is zero. -/
def ComplexEst.Valid (e : ComplexEst) (X : Matrix (Fin N) (Fin p) ℂ) : Prop :=
  match e with
  | .tyler _ => NonzeroSamples X
  | .student df => 0 < df
  | .huber q => 0 < q ∧ q < 1

/-- Weight given to `x x^H` in terms of `x^H S^{-1} x`. -/
noncomputable def ComplexEst.weight (e : ComplexEst) (c : Chi2) (p : ℕ) : ℝ → ℝ :=
  match e with
  | .tyler _ => wTyler p
  | .student df => wStudent df p
  | .huber q => wHuber (c.ppf q (2 * p) / 2)
      (c.cdf (c.ppf q (2 * p)) (2 * p + 2) + c.ppf q (2 * p) * (1 - q) / (2 * p))

/-- Default starting point: `(1/N) sum_i x_i x_i^H`. -/
noncomputable def secondMoment (X : Matrix (Fin N) (Fin p) 𝕜) : Matrix (Fin p) (Fin p) 𝕜 :=
  (N : 𝕜)⁻¹ • ∑ i, vecMulVec (sample X i) (star (sample X i))

end RS
