import Verif.Spec.Covariance

/-
Vocabulary for the Huber estimators.
-/
set_option autoImplicit false

namespace RS
open Matrix ComplexOrder

variable {𝕜 : Type} [RCLike 𝕜] {N p : ℕ}

/-- The samples whose quadratic form is below the threshold span the space. -/
def InsideSpans (lbda : ℝ) (X : Matrix (Fin N) (Fin p) 𝕜) (S : Matrix (Fin p) (Fin p) 𝕜) : Prop :=
  ∀ v : Fin p → 𝕜, (∀ i, qf S (sample X i) < lbda → star (sample X i) ⬝ᵥ v = 0) → v = 0

/-- The unit vectors, followed by zero samples. -/
def unitSamples (𝕜 : Type) [RCLike 𝕜] (N p : ℕ) : Matrix (Fin N) (Fin p) 𝕜 :=
  of fun i j => if i.val = j.val then 1 else 0

end RS
