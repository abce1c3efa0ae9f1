import Mathlib.Analysis.Calculus.FDeriv.Basic
import Mathlib.Analysis.Complex.Basic
import Mathlib.Analysis.RCLike.Basic
import Mathlib.LinearAlgebra.Matrix.Hermitian
import Mathlib.LinearAlgebra.Matrix.Trace

/-! Specification of functions of a matrix: gradient and correlation. -/
set_option autoImplicit false

namespace RS
open Matrix

section
variable {𝕜 : Type} [RCLike 𝕜] {p : ℕ}

/-- `g` is differentiable at `S` and its derivative in every Hermitian direction `D` is `Re tr(H D)`. -/
def HasGrad (g : Matrix (Fin p) (Fin p) 𝕜 → ℝ) (S H : Matrix (Fin p) (Fin p) 𝕜) : Prop :=
  ∃ L : (Fin p → Fin p → 𝕜) →L[ℝ] ℝ, HasFDerivAt (fun a => g (of a)) L (fun i j => S i j) ∧
    ∀ D : Matrix (Fin p) (Fin p) 𝕜, D.IsHermitian → L (fun i j => D i j) = RCLike.re (H * D).trace

/-- The correlation of the variables `i` and `j`. -/
noncomputable def correlation (i j : Fin p) (T : Matrix (Fin p) (Fin p) ℝ) : ℝ :=
  T i j / √(T i i * T j j)

/-- The squared coherence of the channels `i` and `j`. -/
noncomputable def coherence2 (i j : Fin p) (T : Matrix (Fin p) (Fin p) ℂ) : ℝ :=
  ‖T i j‖ ^ 2 / ((T i i).re * (T j j).re)

end
end RS
