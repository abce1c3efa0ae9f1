import Verif.Spec.Exist

/-!
# Resistance to wrong samples

Vocabulary: data sets that differ in a few samples, and bounds on the eigenvalues of an estimate.
-/
set_option autoImplicit false
namespace RS
open Matrix

variable {𝕜 : Type} [RCLike 𝕜] {N p : ℕ}

/-- At most `m` samples of `X` have been replaced, by anything. -/
def Contaminated (m : ℕ) (X X' : Matrix (Fin N) (Fin p) 𝕜) : Prop :=
  ∃ J : Finset (Fin N), J.card ≤ m ∧ ∀ i, i ∉ J → sample X' i = sample X i

/-- All eigenvalues of the Hermitian matrix `Q` are at least `a`: `v^H Q v ≥ a v^H v`. -/
def EigenGe (a : ℝ) (Q : Matrix (Fin p) (Fin p) 𝕜) : Prop :=
  ∀ v : Fin p → 𝕜, a * ∑ j, ‖v j‖ ^ 2 ≤ RCLike.re (star v ⬝ᵥ (Q *ᵥ v))

/-- All eigenvalues are at most `b`. -/
def EigenLe (b : ℝ) (Q : Matrix (Fin p) (Fin p) 𝕜) : Prop :=
  ∀ v : Fin p → 𝕜, RCLike.re (star v ⬝ᵥ (Q *ᵥ v)) ≤ b * ∑ j, ‖v j‖ ^ 2

end RS
