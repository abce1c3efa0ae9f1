import Verif.Spec.Covariance

/-
Vocabulary for uniqueness of the estimates.
-/
set_option autoImplicit false

namespace RS
open Matrix ComplexOrder

variable {𝕜 : Type} [RCLike 𝕜] {N p : ℕ}

/-- The samples cannot be split between two complementary proper subspaces: a projector that
keeps or kills each sample is trivial. -/
def Indecomposable (X : Matrix (Fin N) (Fin p) 𝕜) : Prop :=
  ∀ P : Matrix (Fin p) (Fin p) 𝕜, P * P = P →
    (∀ i, P *ᵥ sample X i = sample X i ∨ P *ᵥ sample X i = 0) → P = 0 ∨ P = 1

/-- A call made with `iter_max = 1` gives the initial point back: `S` is a fixed point of the
iteration. -/
def Returns (r : Py (FPOut p 𝕜)) (S : Matrix (Fin p) (Fin p) 𝕜) : Prop :=
  ∃ d b, r = .ok ⟨.fin S, d, 1, b⟩

end RS
