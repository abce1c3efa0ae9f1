import Verif.Spec.NatGrad
import Verif.Spec.Manifolds

/-
Gradients of cost functions of positive definite matrices, and solvers that stop at a small gradient.
-/
set_option autoImplicit false

namespace RS
open Matrix ComplexOrder

variable {𝕜 : Type} [RCLike 𝕜] {p : ℕ}

/-- `G` is a Euclidean gradient of the cost at `S`: along every curve of positive definite matrices
through `S` the cost is finite and its derivative is the inner product of `G` with the velocity. -/
def IsGradientAt (cost : Matrix (Fin p) (Fin p) 𝕜 → Py CostVal) (S G : Matrix (Fin p) (Fin p) 𝕜) :
    Prop :=
  ∀ (c : ℝ → Matrix (Fin p) (Fin p) 𝕜) (D : Matrix (Fin p) (Fin p) 𝕜), (∀ t, (c t).PosDef) →
    c 0 = S → CurveDeriv c D 0 → ∃ f : ℝ → ℝ, (∀ t, cost (c t) = .ok (.fin (f t))) ∧
      HasDerivAt f (RCLike.re (Gᴴ * D).trace) 0

/-- The natural gradient that belongs to a Euclidean gradient `G`: `S (G + Gᴴ)/2 S`. -/
noncomputable def natGrad (S G : Matrix (Fin p) (Fin p) 𝕜) : Matrix (Fin p) (Fin p) 𝕜 :=
  S * ((1 / 2 : 𝕜) • (G + Gᴴ)) * S

/-- The length of a tangent vector `U` at `S` in the affine-invariant metric. -/
noncomputable def lengthAt (S U : Matrix (Fin p) (Fin p) 𝕜) : ℝ :=
  Real.sqrt (RCLike.re ((S⁻¹ * U) * (S⁻¹ * U)).trace)

/-- The contract of a solver with tolerance `ε` on the gradient: for a differentiable cost that has a
minimiser it returns a positive definite matrix where the natural gradient has length at most `ε`. -/
def SolverStops (L : Lib) (p : ℕ) (init : Option (Matrix (Fin p) (Fin p) ℝ)) (ε : ℝ) : Prop :=
  ∀ cost : Matrix (Fin p) (Fin p) ℝ → Py CostVal, (∃ S, Minimises cost S) →
    (∀ S : Matrix (Fin p) (Fin p) ℝ, S.PosDef → ∃ G, IsGradientAt cost S G) →
    ∃ S G : Matrix (Fin p) (Fin p) ℝ, S.PosDef ∧ L.solve p cost init = .ok (.fin S) ∧
      IsGradientAt cost S G ∧ lengthAt S (natGrad S G) ≤ ε

end RS
