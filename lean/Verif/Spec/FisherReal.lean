import Verif.Spec.Probability
import Verif.Spec.Law
import Mathlib.Analysis.Calculus.Deriv.Basic
import Mathlib.MeasureTheory.Integral.Bochner.Basic

/-! Fisher information of the real t laws. -/
set_option autoImplicit false

namespace RS
open Matrix MeasureTheory
variable {p : ℕ}

/-- `v` is the Fisher information of the centred real t laws with `df` degrees of freedom at the
scatter matrix `c 0 = d 0`, in the directions of the curves `c` and `d` (see `FisherIs`). -/
structure RealFisherIs (df : ℝ) (c d : ℝ → Matrix (Fin p) (Fin p) ℝ) (v : ℝ) : Prop where
  point : c 0 = d 0
  diff_left : ∀ z, DifferentiableAt ℝ (fun t => tLogDensity df 0 (c t) z) 0
  diff_right : ∀ z, DifferentiableAt ℝ (fun t => tLogDensity df 0 (d t) z) 0
  integrable : Integrable (fun z => deriv (fun t => tLogDensity df 0 (c t) z) 0 *
    deriv (fun t => tLogDensity df 0 (d t) z) 0) (lawOf fun z => Real.exp (tLogDensity df 0 (c 0) z))
  value : ∫ z, deriv (fun t => tLogDensity df 0 (c t) z) 0 *
    deriv (fun t => tLogDensity df 0 (d t) z) 0 ∂lawOf (fun z => Real.exp (tLogDensity df 0 (c 0) z)) = v

end RS
