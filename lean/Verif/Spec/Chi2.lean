import Verif.Model.Covariance
import Mathlib.Probability.Distributions.Gamma

/-! The chi-square law: the law Gamma(k/2, rate 1/2). -/
set_option autoImplicit false
namespace RS
open MeasureTheory ProbabilityTheory

/-- `cdf` is the distribution function of the chi-square law and `ppf` its inverse. -/
structure Chi2.Exact (c : Chi2) : Prop where
  cdf : ∀ (x : ℝ) (k : ℕ), 0 < k → c.cdf x k = (gammaMeasure ((k : ℝ) / 2) (1 / 2)).real (Set.Iic x)
  ppf : ∀ (q : ℝ) (k : ℕ), 0 < q → q < 1 → 0 < k → c.cdf (c.ppf q k) k = q

end RS
