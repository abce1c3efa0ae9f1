import Mathlib.Analysis.Calculus.Deriv.Basic
import Mathlib.Data.Matrix.Basic
import Mathlib.LinearAlgebra.Matrix.PosDef
import Mathlib.Analysis.Complex.Basic
import Mathlib.LinearAlgebra.Dimension.Finrank

/-
Specifications for manifolds: what is meant by a Euclidean gradient and a Hessian along a
direction, stated through differentiable curves, and by a Riemannian gradient.
-/
set_option autoImplicit false

namespace RS
open Matrix ComplexOrder

/-- All entries positive. -/
def Positive {n k : ℕ} (x : Matrix (Fin n) (Fin k) ℝ) : Prop := ∀ i j, 0 < x i j

/-- `c'` is the derivative of the curve `c` at `t`, entry by entry. -/
def CurveDeriv {n k : ℕ} {𝕜 : Type} [NormedAddCommGroup 𝕜] [NormedSpace ℝ 𝕜]
    (c : ℝ → Matrix (Fin n) (Fin k) 𝕜) (c' : Matrix (Fin n) (Fin k) 𝕜) (t : ℝ) : Prop :=
  ∀ i j, HasDerivAt (fun s => c s i j) (c' i j) t

/-- `g` is the Euclidean gradient field of `f` on positive matrices: the chain rule holds for
every differentiable curve of positive matrices. -/
def IsEGradPos {n k : ℕ} (f : Matrix (Fin n) (Fin k) ℝ → ℝ)
    (g : Matrix (Fin n) (Fin k) ℝ → Matrix (Fin n) (Fin k) ℝ) : Prop :=
  ∀ (c : ℝ → Matrix (Fin n) (Fin k) ℝ) (c' : Matrix (Fin n) (Fin k) ℝ) (t : ℝ),
    (∀ s, Positive (c s)) → CurveDeriv c c' t →
    HasDerivAt (fun s => f (c s)) (∑ i, ∑ j, g (c t) i j * c' i j) t

/-- `h` is the Euclidean derivative of the gradient field `g` at `x` in direction `u`. -/
def IsEHessPos {n k : ℕ} (g : Matrix (Fin n) (Fin k) ℝ → Matrix (Fin n) (Fin k) ℝ)
    (x u h : Matrix (Fin n) (Fin k) ℝ) : Prop :=
  ∀ c : ℝ → Matrix (Fin n) (Fin k) ℝ, (∀ s, Positive (c s)) → c 0 = x → CurveDeriv c u 0 →
    CurveDeriv (fun s => g (c s)) h 0

/-- Tangent vectors at `x` of the stacks of unit-determinant matrices: Hermitian, `tr(x⁻¹ u) = 0`. -/
def ShpdTangent {n k : ℕ} (x u : Fin k → Matrix (Fin n) (Fin n) ℂ) : Prop :=
  ∀ i, (u i).IsHermitian ∧ ((x i)⁻¹ * u i).trace = 0

/-- `c'` is the derivative of the curve of stacks `c` at `t`. -/
def StackDeriv {n k : ℕ} (c : ℝ → Fin k → Matrix (Fin n) (Fin n) ℂ)
    (c' : Fin k → Matrix (Fin n) (Fin n) ℂ) (t : ℝ) : Prop :=
  ∀ i, CurveDeriv (fun s => c s i) (c' i) t

/-- The stacks of Hermitian positive definite matrices. -/
def HPDset (n k : ℕ) : Set (Fin k → Matrix (Fin n) (Fin n) ℂ) := {x | ∀ i, (x i).PosDef}

/-- The stacks of Hermitian positive definite matrices with determinant 1. -/
def SHPDset (n k : ℕ) : Set (Fin k → Matrix (Fin n) (Fin n) ℂ) :=
  {x | ∀ i, (x i).PosDef ∧ (x i).det = 1}

/-- `u` is the velocity at `x` of a curve that stays in `M`. -/
def Velocity {n k : ℕ} (M : Set (Fin k → Matrix (Fin n) (Fin n) ℂ))
    (x u : Fin k → Matrix (Fin n) (Fin n) ℂ) : Prop :=
  ∃ c : ℝ → Fin k → Matrix (Fin n) (Fin n) ℂ, (∀ t, c t ∈ M) ∧ c 0 = x ∧ StackDeriv c u 0

/-- The number of real parameters of `M` around `x`: the dimension of the space of velocities. -/
noncomputable def dimAt {n k : ℕ} (M : Set (Fin k → Matrix (Fin n) (Fin n) ℂ))
    (x : Fin k → Matrix (Fin n) (Fin n) ℂ) : ℕ :=
  Module.finrank ℝ (Submodule.span ℝ {u | Velocity M x u})

/-- The real Euclidean inner product of stacks: real and imaginary parts are coordinates. -/
noncomputable def euclid {n k : ℕ} (g v : Fin k → Matrix (Fin n) (Fin n) ℂ) : ℝ :=
  ∑ i, ∑ a, ∑ b, ((g i a b).re * (v i a b).re + (g i a b).im * (v i a b).im)

/-- `g` is the Euclidean gradient field of `f` on stacks of positive definite matrices. -/
def IsEGradHPD {n k : ℕ} (f : (Fin k → Matrix (Fin n) (Fin n) ℂ) → ℝ)
    (g : (Fin k → Matrix (Fin n) (Fin n) ℂ) → Fin k → Matrix (Fin n) (Fin n) ℂ) : Prop :=
  ∀ (c : ℝ → Fin k → Matrix (Fin n) (Fin n) ℂ) (c' : Fin k → Matrix (Fin n) (Fin n) ℂ) (t : ℝ),
    (∀ s, c s ∈ HPDset n k) → StackDeriv c c' t →
    HasDerivAt (fun s => f (c s)) (euclid (g (c t)) c') t

/-- `h` is the Euclidean derivative of the gradient field `g` at `x` in direction `u`. -/
def IsEHessHPD {n k : ℕ}
    (g : (Fin k → Matrix (Fin n) (Fin n) ℂ) → Fin k → Matrix (Fin n) (Fin n) ℂ)
    (x u h : Fin k → Matrix (Fin n) (Fin n) ℂ) : Prop :=
  ∀ c : ℝ → Fin k → Matrix (Fin n) (Fin n) ℂ, (∀ s, c s ∈ HPDset n k) → c 0 = x →
    StackDeriv c u 0 → StackDeriv (fun s => g (c s)) h 0

end RS
