import Verif.Spec.Online
import Verif.Spec.Consist

/-
Specification of the gradient function of a Gaussian model for the online estimator.
-/
set_option autoImplicit false

namespace RS
open Matrix ComplexOrder MeasureTheory

variable {p : ℕ}

/-- Minus the logarithm of the density of the centred complex Gaussian law with covariance `S` at
`z`, without the constant `p log π`: `log det S + z^H S⁻¹ z`. -/
noncomputable def gaussNegLog (z : Fin p → ℂ) (S : Matrix (Fin p) (Fin p) ℂ) : ℝ :=
  Real.log S.det.re + qf S z

/-- The `1 × p` array with the sample `z`; the array is of a complex or of a real type. -/
inductive RowOf : NDArr → (Fin p → ℂ) → Prop
  | cplx (z : Fin p → ℂ) : RowOf (.cplx (.d2 1 p (Matrix.of fun _ j => z j))) z
  | real (z : Fin p → ℝ) : RowOf (.real (.d2 1 p (Matrix.of fun _ j => z j))) fun j => (z j : ℂ)

/-- `rgrad(X, estimate)` is the Riemannian gradient of the cost `gaussNegLog` of the sample: the
function `egrad2rgrad` of the manifold applied to the Euclidean gradient. -/
def GaussGrad (rgrad : NDArr → Matrix (Fin p) (Fin p) ℂ → Py (Matrix (Fin p) (Fin p) ℂ)) : Prop :=
  ∀ r z, RowOf r z → ∃ g, IsEGradHPD (k := 1) (fun S => gaussNegLog z (S 0)) g ∧
    ∀ e, e.PosDef → rgrad r e = .ok (HPD.egrad2rgrad (fun _ : Fin 1 => e) (g fun _ => e) 0)

/-- `E[x x^H] = S`, the expectations being finite. -/
def SecondMoment {𝕜 : Type} [RCLike 𝕜] [MeasurableSpace 𝕜] (μ : Measure (Fin p → 𝕜))
    (S : Matrix (Fin p) (Fin p) 𝕜) : Prop :=
  ∀ a b, Integrable (fun z => z a * star (z b)) μ ∧ ∫ z, z a * star (z b) ∂μ = S a b

/-- `fit(X, init)` returns, and `estimate_` and `covariance_` are then `e`. -/
def FitLeaves (P : OnlineParams (Matrix (Fin p) (Fin p) ℂ) (Matrix (Fin p) (Fin p) ℂ))
    (s : Online (Matrix (Fin p) (Fin p) ℂ)) (X : NDArr) (init : Matrix (Fin p) (Fin p) ℂ)
    (lrUpdate : String) (e : Matrix (Fin p) (Fin p) ℂ) : Prop :=
  (s.fit P X (some init) lrUpdate).2 = .ok () ∧
  (s.fit P X (some init) lrUpdate).1.estimate = some e ∧
  (s.fit P X (some init) lrUpdate).1.covariance = some (.cplx (.d2 p p e))

end RS
