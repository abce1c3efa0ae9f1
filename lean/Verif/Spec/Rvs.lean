import Verif.Spec.Probability
import Mathlib.MeasureTheory.Integral.Bochner.Basic

/-!
# What the samplers have to satisfy

Written without the model's own helper functions.
-/
set_option autoImplicit false
namespace RS
open Matrix MeasureTheory

/-- The array of draws: one row per draw, squeezed for a single draw. -/
def packDraws {size p : ℕ} (Z : Matrix (Fin size) (Fin p) ℂ) : NDArr :=
  .cplx (if h : size = 1 then .d1 p (Z ⟨0, by omega⟩) else .d2 size p Z)

/-- The contract of scipy's samplers: for every positive definite covariance the draws have the
requested mean and `c` times the requested covariance (`c = 1` for the normal law, `df/(df-2)` for
the t law). -/
structure SamplerOk {Ω : Type*} [MeasurableSpace Ω] (P0 : Measure Ω) (c : ℝ) {size : ℕ}
    (sample : Ω → (P : MvParams) → Matrix (Fin size) (Fin P.dim) ℝ) : Prop where
  mean : ∀ P : MvParams, P.cov.PosDef → ∀ i a, Integrable (fun ω => sample ω P i a) P0 ∧
    ∫ ω, sample ω P i a ∂P0 = P.mean a
  cov : ∀ P : MvParams, P.cov.PosDef → ∀ i a b,
    Integrable (fun ω => (sample ω P i a - P.mean a) * (sample ω P i b - P.mean b)) P0 ∧
    ∫ ω, (sample ω P i a - P.mean a) * (sample ω P i b - P.mean b) ∂P0 = c * P.cov a b

/-- The row `x` is normal with mean `m` and covariance `C`: its characteristic function is the
normal one. -/
def NormalRow {Ω : Type*} [MeasurableSpace Ω] (P0 : Measure Ω) {d : ℕ} (x : Ω → Fin d → ℝ)
    (m : Fin d → ℝ) (C : Matrix (Fin d) (Fin d) ℝ) : Prop :=
  ∀ t : Fin d → ℝ, ∫ ω, Complex.exp (Complex.I * ((t ⬝ᵥ x ω : ℝ) : ℂ)) ∂P0 =
    Complex.exp (Complex.I * ((t ⬝ᵥ m : ℝ) : ℂ) - ((t ⬝ᵥ (C *ᵥ t) / 2 : ℝ) : ℂ))

/-- The row `z` is circular complex normal with mean `m` and covariance `S`: its characteristic
function is `s ↦ exp (i Re(sᴴ m) - sᴴ S s / 4)`. -/
def CNormalRow {Ω : Type*} [MeasurableSpace Ω] (P0 : Measure Ω) {p : ℕ} (z : Ω → Fin p → ℂ)
    (m : Fin p → ℂ) (S : Matrix (Fin p) (Fin p) ℂ) : Prop :=
  ∀ s : Fin p → ℂ, ∫ ω, Complex.exp (Complex.I * ((star s ⬝ᵥ z ω).re : ℂ)) ∂P0 =
    Complex.exp (Complex.I * ((star s ⬝ᵥ m).re : ℂ) - ((star s ⬝ᵥ (S *ᵥ s)).re / 4 : ℝ))

end RS
