import Verif.Model.Estimators
import Verif.Spec.Exist

/-
Vocabulary for the natural-gradient method of Tyler's estimator: what its solver is asked to do,
and the data for which Tyler's estimate is unique.
-/
set_option autoImplicit false

namespace RS
open Matrix ComplexOrder

/-- `S` is a positive definite matrix at which the cost is finite and at most its value at any
other positive definite matrix. -/
def Minimises {𝕜 : Type} [RCLike 𝕜] {p : ℕ} (cost : Matrix (Fin p) (Fin p) 𝕜 → Py CostVal)
    (S : Matrix (Fin p) (Fin p) 𝕜) : Prop :=
  S.PosDef ∧ ∃ v : ℝ, cost S = .ok (.fin v) ∧
    ∀ S' : Matrix (Fin p) (Fin p) 𝕜, S'.PosDef → ∃ v' : ℝ, cost S' = .ok (.fin v') ∧ v ≤ v'

/-- The contract of an ideal solver started at `init`: it returns a minimiser of every cost that
has one. -/
def SolverFinds (L : Lib) (p : ℕ) (init : Option (Matrix (Fin p) (Fin p) ℝ)) : Prop :=
  ∀ cost : Matrix (Fin p) (Fin p) ℝ → Py CostVal, (∃ S, Minimises cost S) →
    ∃ S, Minimises cost S ∧ L.solve p cost init = .ok (.fin S)

/-- Every proper nonzero subspace holds less than its share of the samples. By C101 this is when
Tyler's estimate exists and is unique up to scale. -/
def FairShares {𝕜 : Type} [RCLike 𝕜] {N p : ℕ} (X : Matrix (Fin N) (Fin p) 𝕜) : Prop :=
  ∀ V : Submodule 𝕜 (Fin p → 𝕜), V ≠ ⊥ → V ≠ ⊤ → p * samplesIn X V < N * Module.finrank 𝕜 V

/-- Complex samples as real samples: real parts followed by imaginary parts. -/
def realForm {N p : ℕ} (X : Matrix (Fin N) (Fin p) ℂ) : Matrix (Fin N) (Fin (p + p)) ℝ :=
  of fun i => Fin.append (fun j => (X i j).re) (fun j => (X i j).im)

end RS
