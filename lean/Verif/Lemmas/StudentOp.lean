import Verif.Lemmas.StudentClt
import Mathlib.LinearAlgebra.FiniteDimensional.Lemmas
import Mathlib.LinearAlgebra.Matrix.FiniteDimensional

/-! The derivative of the population equation of the Student estimator is invertible. -/
set_option autoImplicit false

namespace RS
open Matrix ComplexOrder Filter Topology MeasureTheory ProbabilityTheory

section
set_option linter.unusedSectionVars false
variable {𝕜 : Type} [RCLike 𝕜] [MeasurableSpace 𝕜] [BorelSpace 𝕜] {N p : ℕ}
  {μ : Measure (Fin p → 𝕜)} {κ : ℝ} {S : Matrix (Fin p) (Fin p) 𝕜}

/-- `(κ + p) / (κ + q)² · Re x^H K x` -/
noncomputable def dWeight (κ : ℝ) (S K : Matrix (Fin p) (Fin p) 𝕜) (x : Fin p → 𝕜) : ℝ :=
  (κ + p) / (κ + qf S x) ^ 2 * hfm K x

/-- `Re x^H K x` with the weight of the estimator. -/
noncomputable def wScore (κ : ℝ) (S K : Matrix (Fin p) (Fin p) 𝕜) (x : Fin p → 𝕜) : ℝ :=
  (κ + p) / (κ + qf S x) * hfm K x

theorem measurable_hfm (K : Matrix (Fin p) (Fin p) 𝕜) : Measurable (hfm K) :=
  (continuous_hfm K).measurable

theorem measurable_qf (S : Matrix (Fin p) (Fin p) 𝕜) : Measurable (qf S) :=
  (continuous_qf S).measurable

theorem measurable_dWeight (κ : ℝ) (S K : Matrix (Fin p) (Fin p) 𝕜) : Measurable (dWeight κ S K) :=
  (((measurable_qf S).const_add κ).pow_const 2).const_div _ |>.mul (measurable_hfm K)

theorem measurable_score (κ : ℝ) (S K : Matrix (Fin p) (Fin p) 𝕜) : Measurable (wScore κ S K) :=
  ((measurable_qf S).const_add κ).const_div _ |>.mul (measurable_hfm K)

theorem sumsq_nonneg (x : Fin p → 𝕜) : 0 ≤ ∑ j, ‖x j‖ ^ 2 := Finset.sum_nonneg fun _ _ => sq_nonneg _

theorem outer_le_nsq (x : Fin p → 𝕜) (a b : Fin p) : ‖x a * star (x b)‖ ≤ ∑ j, ‖x j‖ ^ 2 := by
  have h1 : ∀ a, ‖x a‖ ^ 2 ≤ ∑ j, ‖x j‖ ^ 2 := fun a =>
    Finset.single_le_sum (f := fun j => ‖x j‖ ^ 2) (fun _ _ => sq_nonneg _) (Finset.mem_univ a)
  rw [norm_mul, norm_star]
  nlinarith [h1 a, h1 b, sq_nonneg (‖x a‖ - ‖x b‖)]

theorem score_bounded (hκ : 0 ≤ κ) (hS : S.PosDef) (K : Matrix (Fin p) (Fin p) 𝕜) :
    ∃ C, ∀ x, ‖wScore κ S K x‖ ≤ C := by
  obtain ⟨c, hc, h⟩ := qf_ge_nsq hS
  refine ⟨(κ + p) * (en K / c), fun x => ?_⟩
  have h0 := qf_nonneg hS x
  have hkp : 0 ≤ κ + (p : ℝ) := by positivity
  unfold wScore
  rcases (add_nonneg hκ h0).eq_or_lt with hz | hq
  · rw [← hz, div_zero, zero_mul, norm_zero]
    have := en_nonneg K
    positivity
  rw [Real.norm_eq_abs, abs_mul, abs_of_nonneg (div_nonneg hkp hq.le), div_mul_eq_mul_div, mul_div_assoc]
  refine mul_le_mul_of_nonneg_left ?_ hkp
  rw [div_le_div_iff₀ hq hc]
  have h1 := hfm_le K x
  have h2 := h x
  have h3 : en K * (c * ∑ j, ‖x j‖ ^ 2) ≤ en K * (κ + qf S x) :=
    mul_le_mul_of_nonneg_left (by linarith) (en_nonneg K)
  nlinarith

theorem dWeight_bounded (hκ : 0 ≤ κ) (hS : S.PosDef) (K : Matrix (Fin p) (Fin p) 𝕜) :
    ∃ C, ∀ x, |dWeight κ S K x| * ∑ j, ‖x j‖ ^ 2 ≤ C := by
  obtain ⟨c, hc, h⟩ := qf_ge_nsq hS
  obtain ⟨C, hC⟩ := score_bounded hκ hS K
  refine ⟨C / c, fun x => ?_⟩
  have h0 := qf_nonneg hS x
  rcases (add_nonneg hκ h0).eq_or_lt with hz | hq
  · have hC0 : 0 ≤ C := (norm_nonneg _).trans (hC x)
    rw [dWeight, ← hz, zero_pow two_ne_zero, div_zero, zero_mul, abs_zero, zero_mul]
    positivity
  have e : dWeight κ S K x = wScore κ S K x / (κ + qf S x) := by
    unfold dWeight wScore
    field_simp
  rw [e, abs_div, abs_of_pos hq, div_mul_eq_mul_div, div_le_div_iff₀ hq hc]
  have h2 := h x
  have h3 := hC x
  rw [Real.norm_eq_abs] at h3
  have h4 := abs_nonneg (wScore κ S K x)
  calc |wScore κ S K x| * (∑ j, ‖x j‖ ^ 2) * c = |wScore κ S K x| * (c * ∑ j, ‖x j‖ ^ 2) := by ring
    _ ≤ C * (κ + qf S x) := mul_le_mul h3 (by linarith)
      (mul_nonneg hc.le (sumsq_nonneg x)) (h4.trans h3)

theorem dWeight_int [IsProbabilityMeasure μ] (hκ : 0 ≤ κ) (hS : S.PosDef)
    (K : Matrix (Fin p) (Fin p) 𝕜) : WInt (dWeight κ S K) μ := fun a b => by
  obtain ⟨C, hC⟩ := dWeight_bounded hκ hS K
  refine (integrable_const C).mono' ((RCLike.continuous_ofReal.measurable.comp
    (measurable_dWeight κ S K)).mul (raw_measurable' a b)).aestronglyMeasurable
    (Eventually.of_forall fun x => ?_)
  rw [norm_mul, RCLike.norm_ofReal]
  exact (mul_le_mul_of_nonneg_left (outer_le_nsq x a b) (abs_nonneg _)).trans (hC x)

theorem score_memLp [IsProbabilityMeasure μ] (hκ : 0 ≤ κ) (hS : S.PosDef)
    (K : Matrix (Fin p) (Fin p) 𝕜) : MemLp (wScore κ S K) 2 μ := by
  obtain ⟨C, hC⟩ := score_bounded hκ hS K
  exact MemLp.of_bound (measurable_score κ S K).aestronglyMeasurable C (Eventually.of_forall hC)

theorem weight_int [IsProbabilityMeasure μ] (hκ : 0 ≤ κ) (hS : S.PosDef) :
    WInt (fun x => (κ + p) / (κ + qf S x)) μ := fun a b => by
  obtain ⟨c, hc, h⟩ := qf_ge_nsq hS
  refine (integrable_const ((κ + p) / c)).mono' ((RCLike.continuous_ofReal.measurable.comp
    (((measurable_qf S).const_add κ).const_div _)).mul (raw_measurable' a b)).aestronglyMeasurable
    (Eventually.of_forall fun x => ?_)
  have h0 := qf_nonneg hS x
  have hkp : 0 ≤ κ + (p : ℝ) := by positivity
  change ‖(((κ + p) / (κ + qf S x) : ℝ) : 𝕜) * (x a * star (x b))‖ ≤ _
  rcases (add_nonneg hκ h0).eq_or_lt with hz | hq
  · rw [← hz, div_zero, RCLike.ofReal_zero, zero_mul, norm_zero]
    positivity
  rw [norm_mul, RCLike.norm_ofReal, abs_of_nonneg (div_nonneg hkp hq.le)]
  refine (mul_le_mul_of_nonneg_left (outer_le_nsq x a b) (div_nonneg hkp hq.le)).trans ?_
  rw [div_mul_eq_mul_div, div_le_div_iff₀ hq hc, mul_assoc]
  have := h x
  exact mul_le_mul_of_nonneg_left (by linarith) hkp

theorem mip_wMoment {g : (Fin p → 𝕜) → ℝ} (hg : WInt g μ) (D : Matrix (Fin p) (Fin p) 𝕜) :
    Integrable (fun x => g x * hfm D x) μ ∧ mip D (wMoment g μ) = ∫ x, g x * hfm D x ∂μ := by
  have e : ∀ x : Fin p → 𝕜, g x * hfm D x =
      ∑ i, ∑ j, RCLike.re (star (D j i) * ((g x : 𝕜) * (x j * star (x i)))) := fun x => by
    rw [← mip_outer, mip_apply, Finset.mul_sum]
    refine Finset.sum_congr rfl fun i _ => ?_
    rw [Finset.mul_sum]
    refine Finset.sum_congr rfl fun j _ => ?_
    rw [← RCLike.re_ofReal_mul, vecMulVec_apply, Pi.star_apply, mul_left_comm]
  have hi : ∀ i j, Integrable (fun x => star (D j i) * ((g x : 𝕜) * (x j * star (x i)))) μ :=
    fun i j => (hg j i).const_mul _
  have hr : ∀ i j, Integrable (fun x => RCLike.re (star (D j i) * ((g x : 𝕜) * (x j * star (x i))))) μ :=
    fun i j => (hi i j).re
  simp only [e]
  refine ⟨integrable_finsetSum _ fun i _ => integrable_finsetSum _ fun j _ => hr i j, ?_⟩
  rw [mip_apply, integral_finsetSum _ fun i _ => integrable_finsetSum _ fun j _ => hr i j]
  refine Finset.sum_congr rfl fun i _ => ?_
  rw [integral_finsetSum _ fun j _ => hr i j]
  refine Finset.sum_congr rfl fun j _ => ?_
  have h1 := integral_re (hi i j)
  refine Eq.trans ?_ h1.symm
  rw [integral_const_mul]
  rfl

theorem PopFixed.wMoment_eq (hf : PopFixed κ μ S) : wMoment (fun x => (κ + p) / (κ + qf S x)) μ = S := by
  ext a b
  exact hf a b

/-- The derivative of the population equation, in the coordinates of the inverse. -/
noncomputable def jac (κ : ℝ) (μ : Measure (Fin p → 𝕜)) (S K : Matrix (Fin p) (Fin p) 𝕜) :
    Matrix (Fin p) (Fin p) 𝕜 := S * K * S - wMoment (dWeight κ S K) μ

variable [IsProbabilityMeasure μ]

theorem score_mean (hκ : 0 ≤ κ) (hS : S.PosDef) (hf : PopFixed κ μ S) (K : Matrix (Fin p) (Fin p) 𝕜) :
    ∫ x, wScore κ S K x ∂μ = mip K S := by
  have := (mip_wMoment (weight_int (μ := μ) hκ hS) K).2
  rw [hf.wMoment_eq] at this
  exact this.symm

theorem jac_pos (hμ : NullSubspaces μ) (hκ : 0 < κ) (hS : S.PosDef) (hf : PopFixed κ μ S)
    (K : Matrix (Fin p) (Fin p) 𝕜) (h0 : jac κ μ S K = 0) : K = 0 := by
  have h1 : mip K (jac κ μ S K) = 0 := by rw [h0]; simp [mip]
  obtain ⟨i1, e1⟩ := mip_wMoment (dWeight_int (μ := μ) hκ.le hS K) K
  obtain ⟨i2, e2⟩ := mip_wMoment (weight_int (μ := μ) hκ.le hS) (Kᴴ * S * K)
  rw [hf.wMoment_eq] at e2
  have e3 : mip (Kᴴ * S * K) S = mip K (S * K * S) := by
    unfold mip
    rw [conjTranspose_mul, conjTranspose_mul, conjTranspose_conjTranspose, hS.isHermitian.eq]
    simp only [Matrix.mul_assoc]
  rw [jac, mip_sub, ← e3, e1, e2, ← integral_sub i2 i1] at h1
  have key : ∀ x : Fin p → 𝕜, κ * (κ + p) / (κ + qf S x) ^ 2 * hfm (Kᴴ * S * K) x ≤
      (κ + p) / (κ + qf S x) * hfm (Kᴴ * S * K) x - dWeight κ S K x * hfm K x := fun x => by
    have hq : 0 < κ + qf S x := by linarith [qf_nonneg hS x]
    have hkp : 0 ≤ κ + (p : ℝ) := by positivity
    have := mul_le_mul_of_nonneg_left (hfm_sq_le hS K x) (div_nonneg hkp (sq_nonneg (κ + qf S x)))
    have e : (κ + p) / (κ + qf S x) * hfm (Kᴴ * S * K) x = κ * (κ + p) / (κ + qf S x) ^ 2 *
        hfm (Kᴴ * S * K) x + (κ + p) / (κ + qf S x) ^ 2 * (qf S x * hfm (Kᴴ * S * K) x) := by
      field_simp
    rw [e]
    unfold dWeight
    nlinarith
  have hm0 : ∀ x, 0 ≤ hfm (Kᴴ * S * K) x := fun x => by
    have := hS.posSemidef.re_dotProduct_nonneg (K *ᵥ x)
    rw [hfm, ← mulVec_mulVec, ← mulVec_mulVec, dotProduct_mulVec, ← star_mulVec]
    exact this
  have hnn : ∀ x : Fin p → 𝕜, 0 ≤ κ * (κ + p) / (κ + qf S x) ^ 2 * hfm (Kᴴ * S * K) x := fun x =>
    mul_nonneg (by positivity) (hm0 x)
  have h2 := (integral_eq_zero_iff_of_nonneg (fun x => (hnn x).trans (key x)) (i2.sub i1)).1 h1
  by_contra hK
  let V : Submodule 𝕜 (Fin p → 𝕜) := LinearMap.ker K.mulVecLin
  have hV : V ≠ ⊤ := fun h => hK (by
    have h5 : K.mulVecLin = 0 := LinearMap.ker_eq_top.1 h
    ext i j
    have := congrFun (LinearMap.congr_fun h5 (Pi.single j 1)) i
    simpa using this)
  have h3 : ∀ᵐ x ∂μ, x ∉ (V : Set (Fin p → 𝕜)) := by
    rw [ae_iff]
    simpa using hμ V hV
  have hp : 0 < p := by
    rcases Nat.eq_zero_or_pos p with rfl | hp
    · exact absurd (Subsingleton.elim K 0) hK
    · exact hp
  obtain ⟨x, hx1, hx2⟩ := (h2.and h3).exists
  have h4 := (hnn x).antisymm ((key x).trans hx1.le)
  have hq : 0 < κ + qf S x := by linarith [qf_nonneg hS x]
  have hp' : (0 : ℝ) < p := by exact_mod_cast hp
  have h5 : hfm (Kᴴ * S * K) x = 0 := by
    rcases mul_eq_zero.1 h4.symm with h | h
    · exact absurd h (by positivity)
    · exact h
  apply hx2
  change K *ᵥ x = 0
  by_contra hne
  have := hS.re_dotProduct_pos hne
  rw [hfm, ← mulVec_mulVec, ← mulVec_mulVec, dotProduct_mulVec, ← star_mulVec] at h5
  exact this.ne' h5

theorem jac_add (hκ : 0 ≤ κ) (hS : S.PosDef) (K L : Matrix (Fin p) (Fin p) 𝕜) :
    jac κ μ S (K + L) = jac κ μ S K + jac κ μ S L := by
  have e : wMoment (dWeight κ S (K + L)) μ = wMoment (dWeight κ S K) μ + wMoment (dWeight κ S L) μ := by
    ext a b
    simp only [wMoment, of_apply, Matrix.add_apply]
    rw [← integral_add (dWeight_int hκ hS K a b) (dWeight_int hκ hS L a b)]
    refine integral_congr_ae (Eventually.of_forall fun x => ?_)
    simp only [dWeight, hfm_add]
    push_cast
    ring
  rw [jac, e, jac, jac, Matrix.mul_add, Matrix.add_mul]
  abel

theorem jac_smul (c : ℝ) (K : Matrix (Fin p) (Fin p) 𝕜) : jac κ μ S (c • K) = c • jac κ μ S K := by
  have e : wMoment (dWeight κ S (c • K)) μ = c • wMoment (dWeight κ S K) μ := by
    ext a b
    simp only [wMoment, of_apply, Matrix.smul_apply]
    rw [← integral_smul]
    refine integral_congr_ae (Eventually.of_forall fun x => ?_)
    simp only [dWeight, hfm_smul, RCLike.real_smul_eq_coe_mul]
    push_cast
    ring
  rw [jac, e, jac, Matrix.mul_smul, Matrix.smul_mul, smul_sub]

theorem jac_bij (hμ : NullSubspaces μ) (hκ : 0 < κ) (hS : S.PosDef) (hf : PopFixed κ μ S) :
    Function.Bijective (jac κ μ S) := by
  let J : Matrix (Fin p) (Fin p) 𝕜 →ₗ[ℝ] Matrix (Fin p) (Fin p) 𝕜 :=
    { toFun := jac κ μ S, map_add' := jac_add hκ.le hS, map_smul' := jac_smul }
  have hi : Function.Injective J := by
    rw [← LinearMap.ker_eq_bot, LinearMap.ker_eq_bot']
    exact fun K hK => jac_pos hμ hκ hS hf K hK
  exact ⟨hi, LinearMap.injective_iff_surjective.1 hi⟩

theorem jac_symm (hS : S.PosDef) (K D : Matrix (Fin p) (Fin p) 𝕜) :
    mip D (jac κ μ S K) = mip K (S * D * S) - mip D (wMoment (dWeight κ S K) μ) := by
  rw [jac, mip_sub, mip_sandwich hS.isHermitian K D, mip_comm D]

end
end RS
