import Verif.Lemmas.MStep
import Verif.Lemmas.KronExist
import Verif.Lemmas.KronConsist
import Verif.Spec.Exist

/-
Linear changes of coordinates and the conditions on the data.
-/
set_option autoImplicit false

namespace RS
open Matrix ComplexOrder

section
variable {𝕜 : Type} [RCLike 𝕜] {N p : ℕ}

theorem toLin_finrank (T : Matrix (Fin p) (Fin p) 𝕜) (hT : IsUnit T)
    (V : Submodule 𝕜 (Fin p → 𝕜)) :
    Module.finrank 𝕜 (V.comap (Matrix.mulVecLin T)) = Module.finrank 𝕜 V := by
  have hd := (Matrix.isUnit_iff_isUnit_det T).1 hT
  have hinj : Function.Injective (Matrix.mulVecLin T) := Matrix.mulVec_injective_of_isUnit hT
  have hsur : Function.Surjective (Matrix.mulVecLin T) := fun v => ⟨T⁻¹ *ᵥ v, by
    rw [Matrix.mulVecLin_apply, mulVec_mulVec, Matrix.mul_nonsing_inv T hd, one_mulVec]⟩
  rw [← Submodule.map_comap_eq_of_surjective hsur V]
  rw [Submodule.comap_map_eq_of_injective hinj]
  exact (LinearEquiv.finrank_map_eq (LinearEquiv.ofBijective (Matrix.mulVecLin T) ⟨hinj, hsur⟩) _).symm

theorem samplesIn_mul (X : Matrix (Fin N) (Fin p) 𝕜) (T : Matrix (Fin p) (Fin p) 𝕜)
    (V : Submodule 𝕜 (Fin p → 𝕜)) :
    samplesIn (X * Tᵀ) V = samplesIn X (V.comap (Matrix.mulVecLin T)) := by
  unfold samplesIn
  simp only [sample_mul, Submodule.mem_comap, Matrix.mulVecLin_apply]

theorem comap_ne_top {T : Matrix (Fin p) (Fin p) 𝕜} (hT : IsUnit T) {V : Submodule 𝕜 (Fin p → 𝕜)}
    (h : V ≠ ⊤) : V.comap (Matrix.mulVecLin T) ≠ ⊤ := by
  intro h'
  apply h
  have := toLin_finrank T hT V
  rw [h', finrank_top] at this
  exact Submodule.eq_top_of_finrank_eq this.symm

theorem comap_ne_bot {T : Matrix (Fin p) (Fin p) 𝕜} (hT : IsUnit T) {V : Submodule 𝕜 (Fin p → 𝕜)}
    (h : V ≠ ⊥) : V.comap (Matrix.mulVecLin T) ≠ ⊥ := by
  intro h'
  apply h
  have := toLin_finrank T hT V
  rw [h', finrank_bot] at this
  exact Submodule.finrank_eq_zero.1 this.symm

/-- Tyler's condition does not depend on the coordinates, -/
theorem tyler_condition_mul (X : Matrix (Fin N) (Fin p) 𝕜)
    (H : ∀ V : Submodule 𝕜 (Fin p → 𝕜), V ≠ ⊥ → V ≠ ⊤ →
      p * samplesIn X V < N * Module.finrank 𝕜 V) (T : Matrix (Fin p) (Fin p) 𝕜) (hT : IsUnit T) :
    ∀ V : Submodule 𝕜 (Fin p → 𝕜), V ≠ ⊥ → V ≠ ⊤ →
      p * samplesIn (X * Tᵀ) V < N * Module.finrank 𝕜 V := by
  intro V h1 h2
  rw [samplesIn_mul, ← toLin_finrank T hT V]
  exact H _ (comap_ne_bot hT h1) (comap_ne_top hT h2)

end

section
variable {𝕜 : Type} [RCLike 𝕜] {N a b : ℕ}

theorem unstack_kron_mul (X : Matrix (Fin N) (Fin (a * b)) 𝕜) (V : Matrix (Fin a) (Fin a) 𝕜)
    (U : Matrix (Fin b) (Fin b) 𝕜) (i : Fin N) :
    (unstack ((X * (kron V U)ᵀ) i) : Matrix (Fin b) (Fin a) 𝕜) = U * unstack (X i) * Vᵀ := by
  ext r c
  simp only [unstack, of_apply, mul_apply, transpose_apply, kron, submatrix_apply,
    Equiv.symm_apply_apply, kroneckerMap_apply]
  rw [← finProdFinEquiv.sum_comp, Fintype.sum_prod_type]
  simp only [Equiv.symm_apply_apply, Finset.sum_mul]
  refine Finset.sum_congr rfl fun c' _ => Finset.sum_congr rfl fun r' _ => ?_
  ring

/-- Spread-out samples stay so. -/
theorem kronSpread_mul {M : Fin N → Matrix (Fin b) (Fin a) 𝕜} (h : KronSpread M)
    {V : Matrix (Fin a) (Fin a) 𝕜} {U : Matrix (Fin b) (Fin b) 𝕜} (hV : IsUnit V) (hU : IsUnit U) :
    KronSpread fun i => U * M i * V := by
  intro P Q x y m hP hQ hxy hm
  refine h (V * P) (Q * U) x y m (hV.mul hP) (hQ.mul hU) hxy fun i r c hne => hm i r c ?_
  simpa only [Matrix.mul_assoc] using hne

/-- The fixed-point equations in new coordinates. -/
theorem kronFixed_mul {M : Fin N → Matrix (Fin b) (Fin a) 𝕜} {A : Matrix (Fin a) (Fin a) 𝕜}
    {B : Matrix (Fin b) (Fin b) 𝕜} (h : KronFixed M A B) {V : Matrix (Fin a) (Fin a) 𝕜}
    {U : Matrix (Fin b) (Fin b) 𝕜} (hV : IsUnit V) (hU : IsUnit U) :
    KronFixed (fun i => U * M i * V) (Vᴴ * A * V) (U * B * Uᴴ) := by
  have dV := (Matrix.isUnit_iff_isUnit_det V).1 hV
  have dU := (Matrix.isUnit_iff_isUnit_det U).1 hU
  have dVh : IsUnit (Vᴴ).det := by rw [det_conjTranspose]; exact dV.star
  have dUh : IsUnit (Uᴴ).det := by rw [det_conjTranspose]; exact dU.star
  have dA := (Matrix.isUnit_iff_isUnit_det A).1 h.posA.isUnit
  have dB := (Matrix.isUnit_iff_isUnit_det B).1 h.posB.isUnit
  have iA : (Vᴴ * A * V)⁻¹ = V⁻¹ * A⁻¹ * (Vᴴ)⁻¹ := by
    rw [Matrix.mul_inv_rev, Matrix.mul_inv_rev, Matrix.mul_assoc]
  have iB : (U * B * Uᴴ)⁻¹ = (Uᴴ)⁻¹ * B⁻¹ * U⁻¹ := by
    rw [Matrix.mul_inv_rev, Matrix.mul_inv_rev, Matrix.mul_assoc]
  have num : ∀ i, (U * M i * V)ᴴ * ((Uᴴ)⁻¹ * B⁻¹ * U⁻¹) * (U * M i * V) =
      Vᴴ * ((M i)ᴴ * B⁻¹ * M i) * V := by
    intro i
    rw [conjTranspose_mul, conjTranspose_mul]
    calc Vᴴ * ((M i)ᴴ * Uᴴ) * ((Uᴴ)⁻¹ * B⁻¹ * U⁻¹) * (U * M i * V)
        = Vᴴ * (M i)ᴴ * (Uᴴ * (Uᴴ)⁻¹) * B⁻¹ * (U⁻¹ * U) * M i * V := by
          simp only [Matrix.mul_assoc]
      _ = _ := by
          rw [Matrix.mul_nonsing_inv _ dUh, Matrix.nonsing_inv_mul _ dU]
          simp only [Matrix.mul_assoc, Matrix.mul_one]
  have num' : ∀ i, U * M i * V * (V⁻¹ * A⁻¹ * (Vᴴ)⁻¹) * (U * M i * V)ᴴ =
      U * (M i * A⁻¹ * (M i)ᴴ) * Uᴴ := by
    intro i
    rw [conjTranspose_mul, conjTranspose_mul]
    calc U * M i * V * (V⁻¹ * A⁻¹ * (Vᴴ)⁻¹) * (Vᴴ * ((M i)ᴴ * Uᴴ))
        = U * M i * (V * V⁻¹) * A⁻¹ * ((Vᴴ)⁻¹ * Vᴴ) * (M i)ᴴ * Uᴴ := by
          simp only [Matrix.mul_assoc]
      _ = _ := by
          rw [Matrix.mul_nonsing_inv _ dV, Matrix.nonsing_inv_mul _ dVh]
          simp only [Matrix.mul_assoc, Matrix.mul_one]
  have den : ∀ i, trace (V⁻¹ * A⁻¹ * (Vᴴ)⁻¹ * (Vᴴ * ((M i)ᴴ * B⁻¹ * M i) * V)) =
      trace (A⁻¹ * ((M i)ᴴ * B⁻¹ * M i)) := by
    intro i
    calc trace (V⁻¹ * A⁻¹ * (Vᴴ)⁻¹ * (Vᴴ * ((M i)ᴴ * B⁻¹ * M i) * V))
        = trace (V⁻¹ * (A⁻¹ * ((Vᴴ)⁻¹ * Vᴴ) * ((M i)ᴴ * B⁻¹ * M i)) * V) := by
          simp only [Matrix.mul_assoc]
      _ = trace (V * (V⁻¹ * (A⁻¹ * ((Vᴴ)⁻¹ * Vᴴ) * ((M i)ᴴ * B⁻¹ * M i)))) := trace_mul_comm _ _
      _ = _ := by
          rw [← Matrix.mul_assoc V, Matrix.mul_nonsing_inv _ dV, Matrix.nonsing_inv_mul _ dVh,
            Matrix.one_mul, Matrix.mul_one]
  refine ⟨?_, ?_, ?_, ?_⟩
  · exact h.posA.conjTranspose_mul_mul_same (Matrix.mulVec_injective_of_isUnit hV)
  · exact h.posB.mul_mul_conjTranspose_same (Matrix.vecMul_injective_of_isUnit hU)
  · rw [iA, iB]
    simp only [num, den]
    conv_rhs => rw [← h.eqA]
    rw [Matrix.mul_smul, Matrix.smul_mul, Matrix.mul_sum, Matrix.sum_mul]
    simp only [Matrix.mul_smul, Matrix.smul_mul]
  · rw [iA, iB]
    simp only [num, num', den]
    conv_rhs => rw [← h.eqB]
    rw [Matrix.mul_smul, Matrix.smul_mul, Matrix.mul_sum, Matrix.sum_mul]
    simp only [Matrix.mul_smul, Matrix.smul_mul]

end
end RS
