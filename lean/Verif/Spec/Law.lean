import Verif.Spec.Rvs
import Mathlib.MeasureTheory.Measure.WithDensity
import Mathlib.MeasureTheory.Measure.Lebesgue.Complex
import Mathlib.Probability.Independence.Basic

/-!
# Laws with a density

Densities on `ℝ^p` and `ℂ^p` are taken with respect to Lebesgue measure.
-/
set_option autoImplicit false
namespace RS
open Matrix MeasureTheory

/-- The measure with density `f`. -/
noncomputable def lawOf {E : Type*} [MeasureSpace E] (f : E → ℝ) : Measure E :=
  volume.withDensity fun x => ENNReal.ofReal (f x)

/-- The measure `μ` on `ℝ^p` has mean `m` and covariance `C` (and finite second moments). -/
structure RealMoments {p : ℕ} (μ : Measure (Fin p → ℝ)) (m : Fin p → ℝ)
    (C : Matrix (Fin p) (Fin p) ℝ) : Prop where
  mean : ∀ a, Integrable (fun x => x a) μ ∧ ∫ x, x a ∂μ = m a
  cov : ∀ a b, Integrable (fun x => (x a - m a) * (x b - m b)) μ ∧
    ∫ x, (x a - m a) * (x b - m b) ∂μ = C a b

/-- The measure `μ` on `ℂ^p` has mean `m`, covariance `S` and pseudo-covariance zero (and finite
second moments). -/
structure CplxMoments {p : ℕ} (μ : Measure (Fin p → ℂ)) (m : Fin p → ℂ)
    (S : Matrix (Fin p) (Fin p) ℂ) : Prop where
  mean : ∀ a, Integrable (fun z => z a) μ ∧ ∫ z, z a ∂μ = m a
  cov : ∀ a b, Integrable (fun z => (z a - m a) * star (z b - m b)) μ ∧
    ∫ z, (z a - m a) * star (z b - m b) ∂μ = S a b
  pseudo : ∀ a b, Integrable (fun z => (z a - m a) * (z b - m b)) μ ∧
    ∫ z, (z a - m a) * (z b - m b) ∂μ = 0

/-- The contract of a sampler: for every positive definite covariance the rows are independent and
each of them has the density `dens`. -/
structure IIDSampler {Ω : Type*} [MeasurableSpace Ω] (P0 : Measure Ω) {size : ℕ}
    (dens : (P : MvParams) → (Fin P.dim → ℝ) → ℝ)
    (sample : Ω → (P : MvParams) → Matrix (Fin size) (Fin P.dim) ℝ) : Prop where
  meas : ∀ P : MvParams, P.cov.PosDef → ∀ i, Measurable fun ω => sample ω P i
  law : ∀ P : MvParams, P.cov.PosDef → ∀ i, P0.map (fun ω => sample ω P i) = lawOf (dens P)
  indep : ∀ P : MvParams, P.cov.PosDef →
    ProbabilityTheory.iIndepFun (fun i ω => sample ω P i) P0

/-- The contract of scipy's integration routine: for every positive definite covariance the value is
within `ε` of the probability that a normal vector is at most `x`, component by component. -/
def MvnWithin (ε : ℝ) (mvn : MvnIntegral) : Prop :=
  ∀ P : MvParams, P.cov.PosDef → ∀ x : Fin P.dim → ℝ,
    |mvn P x - (lawOf (fun y => Real.exp (normalLogDensity P.mean P.cov y))).real
      {y | ∀ j, y j ≤ x j}| ≤ ε

end RS
