import Verif.Lemmas.Steps

/-
Concrete data used in the examples that show the hypotheses of the theorems can be met.
-/
set_option autoImplicit false

namespace RS
open Matrix ComplexOrder

/-- Four samples of two features: `(5,0)`, `(0,5)`, `(3,4)`, `(4,-3)`. -/
def demoX (𝕜 : Type) [RCLike 𝕜] : Matrix (Fin 4) (Fin 2) 𝕜 := !![5, 0; 0, 5; 3, 4; 4, -3]

/-- The matrix `diag(1, 4)`. -/
def demoS (𝕜 : Type) [RCLike 𝕜] : Matrix (Fin 2) (Fin 2) 𝕜 := diagonal ![1, 4]

/-- A quarter turn. -/
def demoU (𝕜 : Type) [RCLike 𝕜] : Matrix (Fin 2) (Fin 2) 𝕜 := !![0, -1; 1, 0]

/-- An invertible matrix that is neither unitary nor symmetric. -/
def demoT (𝕜 : Type) [RCLike 𝕜] : Matrix (Fin 2) (Fin 2) 𝕜 := !![1, 1; 0, 2]

section
variable {𝕜 : Type} [RCLike 𝕜]

theorem demoX_spans : Spans (demoX 𝕜) := by
  intro v hv
  have h0 := hv 0
  have h1 := hv 1
  simp [sample, demoX, dotProduct, Fin.sum_univ_two] at h0 h1
  funext j
  fin_cases j <;> simp [h0, h1]

theorem demoX_nonzero : NonzeroSamples (demoX 𝕜) := by
  intro i h
  have h0 := congrFun h 0
  have h1 := congrFun h 1
  fin_cases i <;> simp [sample, demoX] at h0 h1

theorem demoS_posDef : (demoS 𝕜).PosDef := by
  refine PosDef.diagonal fun i => ?_
  fin_cases i
  · simp
  · simp

theorem demoU_unitary : (demoU 𝕜)ᴴ * demoU 𝕜 = 1 := by
  ext i j
  fin_cases i <;> fin_cases j <;> simp [demoU, mul_apply, Fin.sum_univ_two]

theorem demoU_orthogonal : (demoU ℝ)ᵀ * demoU ℝ = 1 := by
  rw [← conjTranspose_eq_transpose_of_trivial]; exact demoU_unitary

theorem demoT_isUnit : IsUnit (demoT 𝕜) := by
  rw [isUnit_iff_isUnit_det, demoT, det_fin_two_of]
  simp

end
end RS
