import Verif.Spec.Exist
import Mathlib.Probability.IdentDistrib
import Mathlib.MeasureTheory.Constructions.BorelSpace.Complex
import Mathlib.MeasureTheory.Integral.Bochner.Basic

/-!
# Large samples

Vocabulary for statements about the estimates when the number of samples grows: an infinite sequence
of independent samples with one law, the matrix of the first `N` of them, and the equation that a
law must satisfy for a matrix to be its population M-estimate.
-/
set_option autoImplicit false
namespace RS
open Matrix MeasureTheory

variable {𝕜 : Type} [RCLike 𝕜] [MeasurableSpace 𝕜] {p : ℕ}

/-- Independent samples, each with the law `μ`. -/
structure IIDSamples {Ω : Type*} [MeasurableSpace Ω] (P : Measure Ω) (x : ℕ → Ω → Fin p → 𝕜)
    (μ : Measure (Fin p → 𝕜)) : Prop where
  meas : ∀ i, Measurable (x i)
  law : ∀ i, P.map (x i) = μ
  indep : ProbabilityTheory.iIndepFun x P

/-- The data matrix whose rows are the first `N` samples. -/
def firstSamples {Ω : Type*} (x : ℕ → Ω → Fin p → 𝕜) (ω : Ω) (N : ℕ) : Matrix (Fin N) (Fin p) 𝕜 :=
  Matrix.of fun i => x i ω

/-- Every proper linear subspace has probability zero. -/
def NullSubspaces (μ : Measure (Fin p → 𝕜)) : Prop :=
  ∀ V : Submodule 𝕜 (Fin p → 𝕜), V ≠ ⊤ → μ V = 0

/-- `S` solves the equation of the Student estimator for the law `μ`:
`E[(ν + p) x x^H / (ν + x^H S⁻¹ x)] = S`. With `ν = 0` it is Tyler's equation
`p E[x x^H / (x^H S⁻¹ x)] = S`. -/
def PopFixed (nu : ℝ) (μ : Measure (Fin p → 𝕜)) (S : Matrix (Fin p) (Fin p) 𝕜) : Prop :=
  ∀ a b, ∫ x, (((nu + p) / (nu + qf S x) : ℝ) : 𝕜) * (x a * star (x b)) ∂μ = S a b

/-- `S` solves the equation of the M-estimator with weight `w` for the law `μ`:
`E[w(x^H S⁻¹ x) x x^H] = S`, the expectation being finite. -/
def PopSolves (w : ℝ → ℝ) (μ : Measure (Fin p → 𝕜)) (S : Matrix (Fin p) (Fin p) 𝕜) : Prop :=
  ∀ a b, Integrable (fun x => ((w (qf S x) : ℝ) : 𝕜) * (x a * star (x b))) μ ∧
    ∫ x, ((w (qf S x) : ℝ) : 𝕜) * (x a * star (x b)) ∂μ = S a b

/-- The law has a finite fourth moment: `E ‖x‖⁴ < ∞`. -/
def FourthMoment (μ : Measure (Fin p → 𝕜)) : Prop :=
  Integrable (fun x => (∑ j, ‖x j‖ ^ 2) ^ 2) μ

/-- The law does not change under the linear maps which leave `S` unchanged: the density, if there
is one, only depends on `x^H S⁻¹ x`. -/
def EllipticalLaw (μ : Measure (Fin p → 𝕜)) (S : Matrix (Fin p) (Fin p) 𝕜) : Prop :=
  ∀ T : Matrix (Fin p) (Fin p) 𝕜, T * S * Tᴴ = S → μ.map (fun x => T *ᵥ x) = μ

/-- The law on `ℂ^p` has mean `m` and covariance `S` (and finite second moments). -/
structure MeanCov (μ : Measure (Fin p → ℂ)) (m : Fin p → ℂ) (S : Matrix (Fin p) (Fin p) ℂ) : Prop where
  mean : ∀ a, Integrable (fun z => z a) μ ∧ ∫ z, z a ∂μ = m a
  cov : ∀ a b, Integrable (fun z => (z a - m a) * star (z b - m b)) μ ∧
    ∫ z, (z a - m a) * star (z b - m b) ∂μ = S a b

end RS
