import Mathlib.Analysis.RCLike.Basic
import Mathlib.LinearAlgebra.Matrix.NonsingularInverse
import Mathlib.LinearAlgebra.Matrix.Trace

/-! Specification of the limit law of Tyler's estimates. -/
set_option autoImplicit false

namespace RS
open Matrix

section
variable {𝕜 : Type} [RCLike 𝕜] {p : ℕ}

open Classical in
/-- The direction `G` in which the normalisation fixes the matrix, to first order at `S`: `1 / p` for the
trace, `S⁻¹ / p` for the determinant, and the matrix that reads off the top-left entry. -/
noncomputable def scaleDir (name : String) (S : Matrix (Fin p) (Fin p) 𝕜) : Matrix (Fin p) (Fin p) 𝕜 :=
  if name = "trace" then ((1 / p : ℝ) : 𝕜) • 1
  else if name = "determinant" then ((1 / p : ℝ) : 𝕜) • S⁻¹
  else of fun i j => if (i : ℕ) = 0 ∧ (j : ℕ) = 0 then 1 else 0

/-- `H₀ = H - tr(H S) G`. -/
noncomputable def shapePart (name : String) (S H : Matrix (Fin p) (Fin p) 𝕜) : Matrix (Fin p) (Fin p) 𝕜 :=
  H - ((RCLike.re (H * S).trace : ℝ) : 𝕜) • scaleDir name S

/-- The variance of the limit, `b (p + b) / p · tr(H₀ S H₀ S)`; `b` is 2 for real and 1 for complex
data. -/
noncomputable def tylerVar (b : ℝ) (name : String) (S H : Matrix (Fin p) (Fin p) 𝕜) : ℝ :=
  b * (p + b) / p * RCLike.re (shapePart name S H * S * (shapePart name S H * S)).trace

end
end RS
