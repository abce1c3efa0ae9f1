import Verif.Model.GenData
import Verif.Spec.Rvs
import Mathlib.Probability.Distributions.Gamma
import Mathlib.Probability.Distributions.Gaussian.Real
import Mathlib.LinearAlgebra.Matrix.Charpoly.Basic

/-
Specifications for the generators of synthetic data, without the model's own helper functions.
-/
set_option autoImplicit false

namespace RS
open Matrix MeasureTheory ProbabilityTheory

/-- The textures of `N` samples: an array of shape `(N,)` or `(N, 1)`. -/
inductive TexturesAre : Arr ℝ → (N : ℕ) → (Fin N → ℝ) → Prop
  | vec (N : ℕ) (t : Fin N → ℝ) : TexturesAre (.d1 N t) N t
  | col (N : ℕ) (t : Fin N → ℝ) : TexturesAre (.d2 N 1 (Matrix.of fun i _ => t i)) N t

/-- The `j`-th sample: samples are columns. -/
def sampleOf {α : Type} {p N : ℕ} (X : Matrix (Fin p) (Fin N) α) (j : Fin N) : Fin p → α :=
  fun a => X a j

/-- The eigenvalues of `S`, with multiplicity, are the numbers `l i`. -/
def EigenvaluesAre {𝕜 : Type*} [RCLike 𝕜] {p : ℕ} (S : Matrix (Fin p) (Fin p) 𝕜) (l : Fin p → ℝ) :
    Prop :=
  S.charpoly = ∏ i, (Polynomial.X - Polynomial.C (l i : 𝕜))

/-- The law of the square of a standard normal variable. -/
noncomputable def chiSquareOne : Measure ℝ := (gaussianReal 0 1).map fun z => z ^ 2

/-- The contract of `random.gamma(k, θ, size=(N, 1))`. -/
def GammaOk {Ω : Type*} [MeasurableSpace Ω] (P0 : Measure Ω) {N : ℕ}
    (gamma : Ω → ℝ → ℝ → Matrix (Fin N) (Fin 1) ℝ) : Prop :=
  ∀ k θ, 0 < k → 0 < θ → ∀ i,
    AEMeasurable (fun ω => gamma ω k θ i 0) P0 ∧
    P0.map (fun ω => gamma ω k θ i 0) = gammaMeasure k (1 / θ)

/-- The contract of `lognorm.rvs(scale=scale, s=s, size=(N, 1))`: `scale * exp(s * Z)` with `Z`
standard normal. -/
def LognormOk {Ω : Type*} [MeasurableSpace Ω] (P0 : Measure Ω) {N : ℕ}
    (lognorm : Ω → ℝ → ℝ → Matrix (Fin N) (Fin 1) ℝ) : Prop :=
  ∀ scale s, 0 < scale → 0 < s → ∀ i,
    AEMeasurable (fun ω => lognorm ω scale s i 0) P0 ∧
    P0.map (fun ω => lognorm ω scale s i 0) =
      (gaussianReal 0 1).map fun z => scale * Real.exp (s * z)

end RS
