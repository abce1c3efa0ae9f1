import Mathlib.Analysis.RCLike.Basic
import Mathlib.LinearAlgebra.Matrix.NonsingularInverse
import Mathlib.LinearAlgebra.Matrix.Trace

/-! How far the shape of a matrix is from a given one. -/
set_option autoImplicit false

namespace RS
open Matrix

/-- `tr (R²)` for `R = p S⁻¹ T / tr(S⁻¹ T) - I`: zero if `T` is a multiple of `S`, and unchanged if `T` is
scaled. With `S = I` this is (up to the factor `p`) John's statistic for the test of sphericity. -/
noncomputable def shapeStat {𝕜 : Type} [RCLike 𝕜] {p : ℕ} (S T : Matrix (Fin p) (Fin p) 𝕜) : ℝ :=
  RCLike.re ((((p / RCLike.re (S⁻¹ * T).trace : ℝ) : 𝕜) • (S⁻¹ * T) - 1) *
    (((p / RCLike.re (S⁻¹ * T).trace : ℝ) : 𝕜) • (S⁻¹ * T) - 1)).trace

end RS
