import Verif.Spec.Covariance
import Mathlib.LinearAlgebra.Dimension.Finrank
import Mathlib.SetTheory.Cardinal.Finite

/-
Vocabulary for existence of the estimates: how many samples lie in a subspace.
-/
set_option autoImplicit false

namespace RS
open Matrix ComplexOrder

variable {𝕜 : Type} [RCLike 𝕜] {N p : ℕ}

/-- The number of samples (counted with repetition) that lie in the subspace `V`. -/
noncomputable def samplesIn (X : Matrix (Fin N) (Fin p) 𝕜) (V : Submodule 𝕜 (Fin p → 𝕜)) : ℕ :=
  Nat.card {i : Fin N // sample X i ∈ V}

/-- General position: a proper subspace of dimension `d` holds at most `d` samples. -/
def GeneralPosition (X : Matrix (Fin N) (Fin p) 𝕜) : Prop :=
  ∀ V : Submodule 𝕜 (Fin p → 𝕜), V ≠ ⊤ → samplesIn X V ≤ Module.finrank 𝕜 V

end RS
