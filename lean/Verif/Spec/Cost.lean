import Verif.Spec.Covariance
import Mathlib.Analysis.SpecialFunctions.Log.Basic
import Mathlib.Analysis.SpecialFunctions.Gamma.Basic

/-
Cost functions and log-likelihoods, written with the quadratic form `x^H S^{-1} x` and the
determinant only.
-/
set_option autoImplicit false

namespace RS
open Matrix ComplexOrder

variable {𝕜 : Type} [RCLike 𝕜] {N p : ℕ}

/-- `p sum_i log(x_i^H S^{-1} x_i) + N log det S`. -/
noncomputable def tylerCost (X : Matrix (Fin N) (Fin p) 𝕜) (S : Matrix (Fin p) (Fin p) 𝕜) : ℝ :=
  p * ∑ i, Real.log (qf S (sample X i)) + N * Real.log (RCLike.re S.det)

/-- `(nu+p) sum_i log(nu + x_i^H S^{-1} x_i) + N log det S`. -/
noncomputable def studentCost (nu : ℝ) (X : Matrix (Fin N) (Fin p) 𝕜)
    (S : Matrix (Fin p) (Fin p) 𝕜) : ℝ :=
  (nu + p) * ∑ i, Real.log (nu + qf S (sample X i)) + N * Real.log (RCLike.re S.det)

/-- Log-likelihood of centred samples under the real multivariate t law with shape `S` and `df`
degrees of freedom (the formula of scipy's `multivariate_t`). -/
noncomputable def tLogLik (df : ℝ) (X : Matrix (Fin N) (Fin p) ℝ) (S : Matrix (Fin p) (Fin p) ℝ) :
    ℝ :=
  ∑ i, (Real.log (Real.Gamma ((df + p) / 2)) - Real.log (Real.Gamma (df / 2))
    - p / 2 * Real.log (df * Real.pi) - 1 / 2 * Real.log S.det
    - (df + p) / 2 * Real.log (1 + 1 / df * qf S (sample X i)))

/-- Log-likelihood of centred samples under the circular complex multivariate t law with scatter
`S` and `df` degrees of freedom: the real t law of dimension `2p` of real and imaginary parts,
whose shape matrix has determinant `(det S)^2 / 4^p` and whose quadratic form is
`2 z^H S^{-1} z`. -/
noncomputable def complexTLogLik (df : ℝ) (X : Matrix (Fin N) (Fin p) ℂ)
    (S : Matrix (Fin p) (Fin p) ℂ) : ℝ :=
  ∑ i, (Real.log (Real.Gamma ((df + 2 * p) / 2)) - Real.log (Real.Gamma (df / 2))
    - (2 * p) / 2 * Real.log (df * Real.pi) - 1 / 2 * Real.log (S.det.re ^ 2 / 4 ^ p)
    - (df + 2 * p) / 2 * Real.log (1 + 1 / df * (2 * qf S (sample X i))))

end RS
