import Verif.Spec.Covariance
import Verif.Lemmas.MatFun
import Verif.Props.Linalg
import Mathlib.Analysis.Matrix.Order

/-! Linear algebra of one M-estimation step. -/
set_option autoImplicit false

namespace RS
open Matrix ComplexOrder

section
variable {𝕜 : Type} [RCLike 𝕜] {N p : ℕ}

theorem invsqrtm_sq {eigh : Eigh (Fin p) 𝕜} (hs : eigh.Ok) {S : Matrix (Fin p) (Fin p) 𝕜}
    (hS : S.PosDef) : invsqrtm eigh S * invsqrtm eigh S = S⁻¹ := by
  have h := hs S hS.1
  have h2 : invsqrtm eigh S * invsqrtm eigh S * S = 1 := by
    have e : invsqrtm eigh S * invsqrtm eigh S * S =
        invsqrtm eigh S * invsqrtm eigh S * (eigh S).fn (fun x => x) := by rw [h.fn_id]
    rw [e, invsqrtm_fn, h.fn_mul, h.fn_mul, ← h.fn_one]
    apply h.fn_congr
    intro i
    have := h.vals_pos hS i
    have h3 : Real.sqrt ((eigh S).vals i) ≠ 0 := (Real.sqrt_pos.2 this).ne'
    have h4 := Real.mul_self_sqrt this.le
    field_simp
    rw [pow_two]; exact h4.symm
  exact (Matrix.inv_eq_left_inv h2).symm

theorem invsqrtm_herm {eigh : Eigh (Fin p) 𝕜} (hs : eigh.Ok) {S : Matrix (Fin p) (Fin p) 𝕜}
    (hS : S.PosDef) : (invsqrtm eigh S)ᴴ = invsqrtm eigh S := by
  rw [invsqrtm_fn]; exact (hs S hS.1).fn_isHermitian _

theorem regular_of_posDef {env : NumEnv N p 𝕜} (hs : env.eigh.Ok) {S : Matrix (Fin p) (Fin p) 𝕜}
    (hS : S.PosDef) : env.regular S := fun i => (hs S hS.1).vals_pos hS i

/-- The weights computed by the code are the quadratic forms. -/
theorem tau_eq {eigh : Eigh (Fin p) 𝕜} (hs : eigh.Ok) (X : Matrix (Fin N) (Fin p) 𝕜)
    {S : Matrix (Fin p) (Fin p) 𝕜} (hS : S.PosDef) (i : Fin N) :
    RCLike.re (∑ j, (invsqrtm eigh S * Xᵀ)ᴴ i j * (invsqrtm eigh S * Xᵀ) j i) =
      qf S (sample X i) := by
  have h1 : (∑ j, (invsqrtm eigh S * Xᵀ)ᴴ i j * (invsqrtm eigh S * Xᵀ) j i) =
      ((invsqrtm eigh S * Xᵀ)ᴴ * (invsqrtm eigh S * Xᵀ)) i i := by rw [Matrix.mul_apply]
  rw [h1, conjTranspose_mul, invsqrtm_herm hs hS, Matrix.mul_assoc, ← Matrix.mul_assoc _ _ Xᵀ,
    invsqrtm_sq hs hS, qf]
  rfl

theorem qf_nonneg {S : Matrix (Fin p) (Fin p) 𝕜} (hS : S.PosDef) (x : Fin p → 𝕜) : 0 ≤ qf S x := by
  have := (posSemidef_iff_dotProduct_mulVec.1 hS.inv.posSemidef).2 x
  exact (RCLike.nonneg_iff.1 this).1

theorem qf_pos {S : Matrix (Fin p) (Fin p) 𝕜} (hS : S.PosDef) {x : Fin p → 𝕜} (hx : x ≠ 0) :
    0 < qf S x := by
  have := (posDef_iff_dotProduct_mulVec.1 hS.inv).2 hx
  exact (RCLike.pos_iff.1 this).1

/-- The quadratic form is real. -/
theorem qf_coe {S : Matrix (Fin p) (Fin p) 𝕜} (hS : S.PosDef) (x : Fin p → 𝕜) :
    (qf S x : 𝕜) = star x ⬝ᵥ (S⁻¹ *ᵥ x) := by
  have := (posSemidef_iff_dotProduct_mulVec.1 hS.inv.posSemidef).2 x
  have h2 := (RCLike.nonneg_iff.1 this).2
  exact RCLike.ext (by simp [qf]) (by simp [qf, h2])

theorem scatter_apply (w : Fin N → ℝ) (X : Matrix (Fin N) (Fin p) 𝕜) (a b : Fin p) :
    scatter w X a b = (N : 𝕜)⁻¹ * ∑ i, (w i : 𝕜) * (X i a * star (X i b)) := by
  simp only [scatter, Matrix.smul_apply, Matrix.sum_apply, vecMulVec_apply, sample, smul_eq_mul,
    Pi.star_apply]

/-- What the code builds from the scaled samples. -/
theorem scatter_of_temp (c : 𝕜) (w t : Fin N → ℝ) (X : Matrix (Fin N) (Fin p) 𝕜)
    (ht : ∀ i, 0 < t i) (hc : ∀ i, c * ((t i : 𝕜))⁻¹ = (N : 𝕜)⁻¹ * (w i : 𝕜)) :
    (c • (of fun (j : Fin p) (i : Fin N) => Xᵀ j i / (Real.sqrt (t i) : 𝕜))) *
      (of fun (j : Fin p) (i : Fin N) => Xᵀ j i / (Real.sqrt (t i) : 𝕜))ᴴ = scatter w X := by
  ext a b
  rw [scatter_apply, Matrix.mul_apply, Finset.mul_sum]
  apply Finset.sum_congr rfl
  intro i _
  have h1 : ((Real.sqrt (t i) : ℝ) : 𝕜) * ((Real.sqrt (t i) : ℝ) : 𝕜) = (t i : 𝕜) := by
    rw [← RCLike.ofReal_mul, Real.mul_self_sqrt (ht i).le]
  have h2 : ((Real.sqrt (t i) : ℝ) : 𝕜) ≠ 0 := by
    rw [Ne, RCLike.ofReal_eq_zero]; exact (Real.sqrt_pos.2 (ht i)).ne'
  rw [← mul_assoc, ← hc i]
  simp only [Matrix.smul_apply, of_apply, transpose_apply, conjTranspose_apply, smul_eq_mul,
    star_div₀, RCLike.star_def, RCLike.conj_ofReal]
  rw [← h1]
  field_simp

theorem scatter_posSemidef (w : Fin N → ℝ) (hw : ∀ i, 0 ≤ w i) (X : Matrix (Fin N) (Fin p) 𝕜) :
    (scatter w X).PosSemidef := by
  unfold scatter
  refine PosSemidef.smul (posSemidef_sum _ fun i _ =>
    (posSemidef_vecMulVec_self_star _).smul (by simpa using hw i)) ?_
  rw [inv_nonneg]; exact_mod_cast Nat.zero_le N

theorem scatter_quad (w : Fin N → ℝ) (X : Matrix (Fin N) (Fin p) 𝕜) (v : Fin p → 𝕜) :
    star v ⬝ᵥ (scatter w X *ᵥ v) =
      (((N : ℝ)⁻¹ * ∑ i, w i * ‖star (sample X i) ⬝ᵥ v‖ ^ 2 : ℝ) : 𝕜) := by
  unfold scatter
  rw [Matrix.smul_mulVec, dotProduct_smul, Matrix.sum_mulVec, dotProduct_sum, smul_eq_mul]
  push_cast
  congr 1
  apply Finset.sum_congr rfl
  intro i _
  rw [Matrix.smul_mulVec, dotProduct_smul, smul_eq_mul, vecMulVec_mulVec, dotProduct_smul]
  congr 1
  rw [op_smul_eq_smul, smul_eq_mul, ← RCLike.mul_conj]
  congr 1
  rw [← RCLike.star_def, ← star_dotProduct]


theorem scatter_posDef (w : Fin N → ℝ) (hw : ∀ i, 0 < w i) (X : Matrix (Fin N) (Fin p) 𝕜)
    (hX : Spans X) : (scatter w X).PosDef := by
  have hpsd := scatter_posSemidef w (fun i => (hw i).le) X
  refine PosDef.of_dotProduct_mulVec_pos hpsd.1 fun v hv => ?_
  rw [scatter_quad, RCLike.ofReal_pos]
  have : ∃ i, star (sample X i) ⬝ᵥ v ≠ 0 := by
    by_contra h
    push Not at h
    exact hv (hX v h)
  obtain ⟨i, hi⟩ := this
  have hN : (0 : ℝ) < N := by exact_mod_cast i.pos
  apply mul_pos (inv_pos.2 hN)
  refine Finset.sum_pos' (fun j _ => mul_nonneg (hw j).le (sq_nonneg _)) ⟨i, Finset.mem_univ _, ?_⟩
  exact mul_pos (hw i) (pow_pos (norm_pos_iff.2 hi) 2)

theorem mStep_posDef (w : ℝ → ℝ) (X : Matrix (Fin N) (Fin p) 𝕜) (hX : Spans X)
    (S : Matrix (Fin p) (Fin p) 𝕜) (hw : ∀ i, 0 < w (qf S (sample X i))) :
    (mStep w X S).PosDef := scatter_posDef _ hw X hX

/-! ### Equivariance -/

theorem qf_congr (T : Matrix (Fin p) (Fin p) 𝕜) (hT : IsUnit T) (S : Matrix (Fin p) (Fin p) 𝕜)
    (x : Fin p → 𝕜) : qf (T * S * Tᴴ) (T *ᵥ x) = qf S x := by
  unfold qf
  congr 1
  have hT1 : T⁻¹ * T = 1 := Matrix.nonsing_inv_mul T ((Matrix.isUnit_iff_isUnit_det T).1 hT)
  have hT2 : Tᴴ * (Tᴴ)⁻¹ = 1 := by
    rw [← conjTranspose_nonsing_inv, ← conjTranspose_mul, hT1, conjTranspose_one]
  rw [Matrix.mul_inv_rev, Matrix.mul_inv_rev, star_mulVec, ← dotProduct_mulVec, mulVec_mulVec,
    mulVec_mulVec]
  congr 2
  rw [Matrix.mul_assoc, Matrix.mul_assoc, Matrix.mul_assoc, hT1, Matrix.mul_one,
    ← Matrix.mul_assoc, hT2, Matrix.one_mul]

/-- `X T^T` has the samples `T x`. -/
theorem sample_mul (X : Matrix (Fin N) (Fin p) 𝕜) (T : Matrix (Fin p) (Fin p) 𝕜) (i : Fin N) :
    sample (X * Tᵀ) i = T *ᵥ sample X i := by
  funext j
  simp [sample, Matrix.mul_apply, mulVec, dotProduct, mul_comm]

theorem scatter_mul (w : Fin N → ℝ) (X : Matrix (Fin N) (Fin p) 𝕜)
    (T : Matrix (Fin p) (Fin p) 𝕜) : scatter w (X * Tᵀ) = T * scatter w X * Tᴴ := by
  unfold scatter
  simp only [sample_mul, star_mulVec]
  rw [Matrix.mul_smul, Matrix.smul_mul, Matrix.mul_sum, Matrix.sum_mul]
  congr 1
  apply Finset.sum_congr rfl
  intro i _
  rw [Matrix.mul_smul, Matrix.smul_mul, Matrix.mul_vecMulVec, Matrix.vecMulVec_mul]

theorem mStep_equivariant (w : ℝ → ℝ) (X : Matrix (Fin N) (Fin p) 𝕜)
    (T : Matrix (Fin p) (Fin p) 𝕜) (hT : IsUnit T) (S : Matrix (Fin p) (Fin p) 𝕜) :
    mStep w (X * Tᵀ) (T * S * Tᴴ) = T * mStep w X S * Tᴴ := by
  unfold mStep
  simp only [sample_mul, qf_congr T hT]
  exact scatter_mul _ X T

theorem mStep_perm (w : ℝ → ℝ) (X : Matrix (Fin N) (Fin p) 𝕜) (π : Equiv.Perm (Fin N))
    (S : Matrix (Fin p) (Fin p) 𝕜) : mStep w (X.submatrix π id) S = mStep w X S := by
  unfold mStep scatter
  congr 1
  exact Equiv.sum_comp π (fun i => ((w (qf S (sample X i)) : ℝ) : 𝕜) •
    vecMulVec (sample X i) (star (sample X i)))

theorem spans_mul (X : Matrix (Fin N) (Fin p) 𝕜) (hX : Spans X) (T : Matrix (Fin p) (Fin p) 𝕜)
    (hT : IsUnit T) : Spans (X * Tᵀ) := by
  intro v hv
  have hT1 : T⁻¹ * T = 1 := Matrix.nonsing_inv_mul T ((Matrix.isUnit_iff_isUnit_det T).1 hT)
  have h2 : Tᴴ *ᵥ v = 0 := hX _ fun i => by
    have := hv i
    rw [sample_mul, star_mulVec, ← dotProduct_mulVec] at this
    exact this
  have : (T⁻¹)ᴴ *ᵥ (Tᴴ *ᵥ v) = v := by
    rw [mulVec_mulVec, ← conjTranspose_mul, Matrix.mul_nonsing_inv T
      ((Matrix.isUnit_iff_isUnit_det T).1 hT), conjTranspose_one, one_mulVec]
  rw [← this, h2, mulVec_zero]

theorem nonzero_mul (X : Matrix (Fin N) (Fin p) 𝕜) (hX : NonzeroSamples X)
    (T : Matrix (Fin p) (Fin p) 𝕜) (hT : IsUnit T) : NonzeroSamples (X * Tᵀ) := by
  intro i h
  apply hX i
  have hT1 : T⁻¹ * T = 1 := Matrix.nonsing_inv_mul T ((Matrix.isUnit_iff_isUnit_det T).1 hT)
  rw [sample_mul] at h
  rw [← one_mulVec (sample X i), ← hT1, ← mulVec_mulVec, h, mulVec_zero]

theorem frob_sq (A : Matrix (Fin p) (Fin p) 𝕜) : frob A ^ 2 = RCLike.re (trace (Aᴴ * A)) := by
  unfold frob
  rw [Real.sq_sqrt (Finset.sum_nonneg fun i _ => Finset.sum_nonneg fun j _ => sq_nonneg _)]
  rw [Finset.sum_comm]
  simp only [trace, diag_apply, Matrix.mul_apply, conjTranspose_apply, map_sum]
  apply Finset.sum_congr rfl; intro i _
  apply Finset.sum_congr rfl; intro j _
  rw [RCLike.star_def, RCLike.conj_mul, ← RCLike.ofReal_pow, RCLike.ofReal_re]

theorem frob_nonneg (A : Matrix (Fin p) (Fin p) 𝕜) : 0 ≤ frob A := Real.sqrt_nonneg _

theorem frob_unitary (U A : Matrix (Fin p) (Fin p) 𝕜) (hU : Uᴴ * U = 1) :
    frob (U * A * Uᴴ) = frob A := by
  have h : frob (U * A * Uᴴ) ^ 2 = frob A ^ 2 := by
    rw [frob_sq, frob_sq]
    congr 1
    have h1 : (U * A * Uᴴ)ᴴ * (U * A * Uᴴ) = U * (Aᴴ * A) * Uᴴ := by
      simp only [conjTranspose_mul, conjTranspose_conjTranspose, Matrix.mul_assoc]
      rw [← Matrix.mul_assoc Uᴴ U, hU, Matrix.one_mul]
    rw [h1, trace_mul_comm, ← Matrix.mul_assoc, hU, Matrix.one_mul]
  exact (sq_eq_sq₀ (frob_nonneg _) (frob_nonneg _)).1 h

theorem relErr_unitary (U a a' : Matrix (Fin p) (Fin p) 𝕜) (hU : Uᴴ * U = 1) :
    relErr (.fin (U * a' * Uᴴ)) (.fin (U * a * Uᴴ)) = relErr (.fin a') (.fin a) := by
  have : U * a' * Uᴴ - U * a * Uᴴ = U * (a' - a) * Uᴴ := by
    rw [Matrix.mul_sub, Matrix.sub_mul]
  unfold relErr
  simp only [this, frob_unitary U _ hU]

end
end RS
