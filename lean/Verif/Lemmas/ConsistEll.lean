import Verif.Lemmas.Consist
import Verif.Lemmas.Law
import Mathlib.MeasureTheory.Measure.Lebesgue.EqHaar
import Mathlib.RingTheory.Complex
import Mathlib.RingTheory.Norm.Transitivity

/-! Elliptical laws: their population equation, and the densities which define them. -/
set_option autoImplicit false

namespace RS
open Matrix ComplexOrder Filter Topology MeasureTheory ProbabilityTheory

section
set_option linter.unusedSectionVars false
variable {𝕜 : Type} [RCLike 𝕜] [MeasurableSpace 𝕜] [BorelSpace 𝕜] {p : ℕ}
  {μ : Measure (Fin p → 𝕜)}

omit [MeasurableSpace 𝕜] [BorelSpace 𝕜] in
theorem root_exists {S : Matrix (Fin p) (Fin p) 𝕜} (hS : S.PosDef) :
    ∃ R : Matrix (Fin p) (Fin p) 𝕜, IsUnit R ∧ S = R * Rᴴ := by
  obtain ⟨V, l, hV, hl, hSe⟩ := spectral_exists S hS
  have hRS : S = V * diagonal (fun j => ((Real.sqrt (l j) : ℝ) : 𝕜)) *
      (V * diagonal (fun j => ((Real.sqrt (l j) : ℝ) : 𝕜)))ᴴ := by
    rw [hSe, conjTranspose_mul, diagonal_conjTranspose, Matrix.mul_assoc, Matrix.mul_assoc V,
      ← Matrix.mul_assoc (diagonal _) (diagonal _), diagonal_mul_diagonal]
    congr 3
    funext j
    simp only [Pi.star_apply, RCLike.star_def, RCLike.conj_ofReal]
    rw [← RCLike.ofReal_mul, Real.mul_self_sqrt (hl j).le]
  refine ⟨_, ?_, hRS⟩
  rw [Matrix.isUnit_iff_isUnit_det, isUnit_iff_ne_zero]
  intro h0
  have := (posDef_det_pos hS).1
  rw [hRS, det_mul, h0, zero_mul, map_zero] at this
  exact lt_irrefl _ this

/-- For an elliptical law the population equation is one equation for the scale. -/
theorem elliptical_popFixed [IsProbabilityMeasure μ] {nu : ℝ} (hnu : 0 ≤ nu)
    {S : Matrix (Fin p) (Fin p) 𝕜} (hS : S.PosDef) (hE : EllipticalLaw μ S)
    (hsc : ∫ x, (nu + p) / (nu + qf S x) * qf S x ∂μ = p) : PopFixed nu μ S := by
  classical
  obtain ⟨R, hR, rfl⟩ := root_exists hS
  have hRd := (Matrix.isUnit_iff_isUnit_det R).1 hR
  obtain ⟨Γ, hlin⟩ := pop_lin μ hnu R
  have hinv : ∀ V : Matrix (Fin p) (Fin p) 𝕜, Vᴴ * V = 1 → V * Γ * Vᴴ = Γ := by
    intro V hV
    have hV' := mul_eq_one_comm.1 hV
    have hi1 : R⁻¹ * R = 1 := Matrix.nonsing_inv_mul R hRd
    have hT := hE (R * V * R⁻¹) (by
      have h2 : Rᴴ * R⁻¹ᴴ = 1 := by rw [← conjTranspose_mul, hi1, conjTranspose_one]
      rw [conjTranspose_mul, conjTranspose_mul]
      calc R * V * R⁻¹ * (R * Rᴴ) * (R⁻¹ᴴ * (Vᴴ * Rᴴ))
          = R * V * (R⁻¹ * R) * (Rᴴ * R⁻¹ᴴ) * (Vᴴ * Rᴴ) := by simp only [Matrix.mul_assoc]
        _ = R * (V * Vᴴ) * Rᴴ := by
          rw [hi1, h2, Matrix.mul_one, Matrix.mul_one]; simp only [Matrix.mul_assoc]
        _ = R * Rᴴ := by rw [hV', Matrix.mul_one])
    ext a b
    have h1 := (hlin 1 a b)
    rw [Matrix.one_mul, conjTranspose_one, Matrix.mul_one] at h1
    simp only [one_mulVec] at h1
    rw [← (hlin V a b).2, ← h1.2]
    have hm : Measurable fun x : Fin p → 𝕜 => (R * V * R⁻¹) *ᵥ x :=
      (Continuous.matrix_mulVec continuous_const continuous_id).measurable
    have h3 := integral_map (μ := μ) hm.aemeasurable (by rw [hT]; exact h1.1.aestronglyMeasurable)
    rw [hT] at h3
    rw [h3]
    refine integral_congr_ae (Eventually.of_forall fun x => ?_)
    have e : R⁻¹ *ᵥ ((R * V * R⁻¹) *ᵥ x) = V *ᵥ (R⁻¹ *ᵥ x) := by
      rw [mulVec_mulVec, mulVec_mulVec, ← Matrix.mul_assoc, ← Matrix.mul_assoc, hi1, Matrix.one_mul]
    have en : ∑ k, ‖(V *ᵥ (R⁻¹ *ᵥ x)) k‖ ^ 2 = ∑ k, ‖(R⁻¹ *ᵥ x) k‖ ^ 2 := by
      have := unitary_nsq (U := Vᴴ) (by rwa [conjTranspose_conjTranspose]) (R⁻¹ *ᵥ x)
      rwa [conjTranspose_conjTranspose] at this
    simp only [e, en]
  have hoff : ∀ a b, a ≠ b → Γ a b = 0 := by
    intro a b hab
    let s : Fin p → 𝕜 := fun j => if j = a then -1 else 1
    have hss : ∀ j, star (s j) * s j = 1 := fun j => by
      simp only [s]; split_ifs <;> simp
    have h1 := hinv (diagonal s) (by
      rw [diagonal_conjTranspose, diagonal_mul_diagonal, ← diagonal_one]
      congr 1; funext j; exact hss j)
    have h2 := congrFun (congrFun h1 a) b
    rw [diagonal_conjTranspose, mul_diagonal, diagonal_mul] at h2
    simp only [s, if_true, Pi.star_apply, if_neg hab.symm, star_one, mul_one, neg_one_mul] at h2
    have h3 : (2 : 𝕜) * Γ a b = 0 := by linear_combination -h2
    rcases mul_eq_zero.1 h3 with h | h
    · exact absurd h two_ne_zero
    · exact h
  have hdiag : ∀ a b, Γ a a = Γ b b := by
    intro a b
    have h1 := hinv ((1 : Matrix (Fin p) (Fin p) 𝕜).submatrix (Equiv.swap a b) id) (by
      rw [conjTranspose_submatrix, conjTranspose_one,
        submatrix_mul_equiv (e₂ := Equiv.swap a b) (M := (1 : Matrix (Fin p) (Fin p) 𝕜)) (N := 1)
          (e₁ := id) (e₃ := id)]
      simp)
    have h2 := congrFun (congrFun h1 a) a
    rw [conjTranspose_submatrix, conjTranspose_one] at h2
    rw [Matrix.mul_apply] at h2
    simp only [Matrix.mul_apply, submatrix_apply, id_eq, Equiv.swap_apply_left, one_apply, ite_mul,
      one_mul, zero_mul, Finset.sum_ite_eq, Finset.sum_ite_eq', Finset.mem_univ, if_true, mul_ite,
      mul_one, mul_zero] at h2
    exact h2.symm
  have htr : ∑ a, Γ a a = (p : 𝕜) := by
    have h1 : ∀ a, Γ a a = ∫ x, (((nu + p) / (nu + ∑ k, ‖(R⁻¹ *ᵥ x) k‖ ^ 2) : ℝ) : 𝕜) *
        ((R⁻¹ *ᵥ x) a * star ((R⁻¹ *ᵥ x) a)) ∂μ := fun a => by
      have := (hlin 1 a a).2
      rw [Matrix.one_mul, conjTranspose_one, Matrix.mul_one] at this
      simp only [one_mulVec] at this
      exact this.symm
    have h2 : ∀ a, Integrable (fun x => (((nu + p) / (nu + ∑ k, ‖(R⁻¹ *ᵥ x) k‖ ^ 2) : ℝ) : 𝕜) *
        ((R⁻¹ *ᵥ x) a * star ((R⁻¹ *ᵥ x) a))) μ := fun a => by
      have := (hlin 1 a a).1
      simp only [one_mulVec] at this
      exact this
    simp only [h1]
    rw [← integral_finsetSum _ fun a _ => h2 a]
    have e : ∀ x, ∑ a, (((nu + p) / (nu + ∑ k, ‖(R⁻¹ *ᵥ x) k‖ ^ 2) : ℝ) : 𝕜) *
        ((R⁻¹ *ᵥ x) a * star ((R⁻¹ *ᵥ x) a)) =
        (((nu + p) / (nu + qf (R * Rᴴ) x) * qf (R * Rᴴ) x : ℝ) : 𝕜) := fun x => by
      rw [qf_factor hR, ← Finset.mul_sum]
      push_cast
      congr 1
      refine Finset.sum_congr rfl fun a _ => ?_
      rw [RCLike.star_def, RCLike.mul_conj]
    rw [integral_congr_ae (Eventually.of_forall e), integral_ofReal, hsc]
    simp
  have hG1 : Γ = 1 := by
    ext a b
    by_cases hab : a = b
    · subst hab
      rw [one_apply_eq]
      have h1 : ∑ b, Γ b b = (p : 𝕜) * Γ a a := by
        rw [Finset.sum_congr rfl fun b _ => hdiag b a, Finset.sum_const, Finset.card_univ,
          Fintype.card_fin, nsmul_eq_mul]
      rw [htr] at h1
      have hp0 : (p : 𝕜) ≠ 0 := by
        have : 0 < p := lt_of_le_of_lt (Nat.zero_le _) a.2
        exact_mod_cast this.ne'
      have h2 : (p : 𝕜) * (Γ a a - 1) = 0 := by linear_combination -h1
      rcases mul_eq_zero.1 h2 with h | h
      · exact absurd h hp0
      · linear_combination h
    · rw [hoff a b hab, one_apply_ne hab]
  intro a b
  have h1 := (hlin R a b).2
  rw [hG1, Matrix.mul_one] at h1
  rw [← h1]
  refine integral_congr_ae (Eventually.of_forall fun x => ?_)
  simp only
  rw [mulVec_mulVec, Matrix.mul_nonsing_inv R hRd, one_mulVec, qf_factor hR]

/-- Tyler's population equation holds for the shape of every elliptical law. -/
theorem elliptical_tyler [IsProbabilityMeasure μ] (hμ : NullSubspaces μ) (hp : 0 < p)
    {S : Matrix (Fin p) (Fin p) 𝕜} (hS : S.PosDef) (hE : EllipticalLaw μ S) : PopFixed 0 μ S := by
  refine elliptical_popFixed le_rfl hS hE ?_
  have : ∀ᵐ x ∂μ, (0 + p) / (0 + qf S x) * qf S x = (p : ℝ) := by
    filter_upwards [ne_zero_ae hμ hp] with x hx
    have := (qf_pos hS hx).ne'
    rw [zero_add, zero_add]
    field_simp
  rw [integral_congr_ae this]
  simp

theorem elliptical_smul {S : Matrix (Fin p) (Fin p) 𝕜} (hE : EllipticalLaw μ S) {c : ℝ} (hc : 0 < c) :
    EllipticalLaw μ ((c : 𝕜) • S) := by
  intro T hT
  apply hE
  have hc0 : (c : 𝕜) ≠ 0 := by exact_mod_cast hc.ne'
  rw [Matrix.mul_smul, Matrix.smul_mul] at hT
  exact smul_right_injective _ hc0 hT

/-! ## The scale of the Student estimate -/

omit [MeasurableSpace 𝕜] [BorelSpace 𝕜] in
theorem scale_term {nu : ℝ} {S : Matrix (Fin p) (Fin p) 𝕜} (hS : S.PosDef) {κ : ℝ}
    (hκ : 0 < κ) (x : Fin p → 𝕜) :
    (nu + p) / (nu + qf ((κ : 𝕜) • S) x) * qf ((κ : 𝕜) • S) x =
      (nu + p) * (qf S x / (nu * κ + qf S x)) := by
  rw [qf_smul hS hκ]
  have e : nu + qf S x / κ = (nu * κ + qf S x) / κ := by field_simp
  rcases eq_or_ne (nu * κ + qf S x) 0 with h | h
  · rw [e, h]; simp
  · rw [e]; field_simp

theorem scale_measurable (S : Matrix (Fin p) (Fin p) 𝕜) (c : ℝ) :
    Measurable fun x : Fin p → 𝕜 => qf S x / (c + qf S x) := by
  have := (continuous_qf S).measurable
  fun_prop

omit [MeasurableSpace 𝕜] [BorelSpace 𝕜] in
theorem scale_bound {S : Matrix (Fin p) (Fin p) 𝕜} (hS : S.PosDef) {c : ℝ} (hc : 0 ≤ c)
    (x : Fin p → 𝕜) : 0 ≤ qf S x / (c + qf S x) ∧ qf S x / (c + qf S x) ≤ 1 := by
  have h := qf_nonneg hS x
  exact ⟨by positivity, div_le_one_of_le₀ (by linarith) (by positivity)⟩

theorem scale_integrable [IsProbabilityMeasure μ] {S : Matrix (Fin p) (Fin p) 𝕜} (hS : S.PosDef)
    {c : ℝ} (hc : 0 ≤ c) : Integrable (fun x => qf S x / (c + qf S x)) μ := by
  refine (integrable_const (1 : ℝ)).mono' (scale_measurable S c).aestronglyMeasurable
    (Eventually.of_forall fun x => ?_)
  rw [Real.norm_of_nonneg (scale_bound hS hc x).1]
  exact (scale_bound hS hc x).2

/-- There is a scale for which the equation of the Student estimator holds. -/
theorem student_scale [IsProbabilityMeasure μ] (hμ : NullSubspaces μ) (hp : 0 < p) {nu : ℝ}
    (hnu : 0 < nu) {S : Matrix (Fin p) (Fin p) 𝕜} (hS : S.PosDef) :
    ∃ κ : ℝ, 0 < κ ∧ ∫ x, (nu + p) * (qf S x / (nu * κ + qf S x)) ∂μ = p := by
  have hp' : (0 : ℝ) < p := by exact_mod_cast hp
  set h : ℝ → ℝ := fun κ => ∫ x, (nu + p) * (qf S x / (nu * κ + qf S x)) ∂μ with hh
  have hb : ∀ κ, 0 ≤ κ → ∀ x, ‖(nu + p) * (qf S x / (nu * κ + qf S x))‖ ≤ nu + p := fun κ hκ x => by
    obtain ⟨h1, h2⟩ := scale_bound hS (mul_nonneg hnu.le hκ) x
    rw [Real.norm_of_nonneg (mul_nonneg (by positivity) h1)]
    exact mul_le_of_le_one_right (by positivity) h2
  have hmeas : ∀ κ, AEStronglyMeasurable (fun x => (nu + p) * (qf S x / (nu * κ + qf S x))) μ :=
    fun κ => ((scale_measurable S _).const_mul _).aestronglyMeasurable
  have hcont : ContinuousOn h (Set.Ioi 0) := by
    intro κ hκ
    refine ContinuousAt.continuousWithinAt ?_
    refine continuousAt_of_dominated (bound := fun _ => nu + p) (Eventually.of_forall hmeas) ?_
      (integrable_const _) (Eventually.of_forall fun x => ?_)
    · filter_upwards [lt_mem_nhds hκ] with k hk
      exact Eventually.of_forall (hb k hk.le)
    · have h0 : nu * κ + qf S x ≠ 0 := by
        have := qf_nonneg hS x
        have : 0 < nu * κ := mul_pos hnu hκ
        linarith
      exact ContinuousAt.mul continuousAt_const
        (ContinuousAt.div continuousAt_const (by fun_prop) h0)
  have hsmall : ∃ a, 0 < a ∧ (p : ℝ) < h a := by
    have hlim : Tendsto (fun n : ℕ => h (1 / ((n : ℝ) + 1))) atTop (𝓝 (∫ _, (nu + p) ∂μ)) := by
      refine tendsto_integral_of_dominated_convergence (fun _ => nu + p) (fun n => hmeas _)
        (integrable_const _) (fun n => Eventually.of_forall (hb _ (by positivity))) ?_
      filter_upwards [ne_zero_ae hμ hp] with x hx
      have hq := qf_pos hS hx
      have h1 : Tendsto (fun n : ℕ => nu * (1 / ((n : ℝ) + 1)) + qf S x) atTop (𝓝 (nu * 0 + qf S x)) :=
        (tendsto_one_div_add_atTop_nhds_zero_nat.const_mul nu).add_const _
      rw [mul_zero, zero_add] at h1
      have h2 := (tendsto_const_nhds (x := qf S x)).div h1 hq.ne'
      rw [div_self hq.ne'] at h2
      have h3 := h2.const_mul (nu + p)
      rw [mul_one] at h3
      exact h3
    rw [integral_const, probReal_univ, one_smul] at hlim
    obtain ⟨n, hn⟩ := (hlim.eventually (lt_mem_nhds (by linarith : (p : ℝ) < nu + p))).exists
    exact ⟨_, by positivity, hn⟩
  have hlarge : ∃ b, 0 < b ∧ h b < p := by
    have hlim : Tendsto (fun n : ℕ => h ((n : ℝ) + 1)) atTop (𝓝 (∫ _, (0 : ℝ) ∂μ)) := by
      refine tendsto_integral_of_dominated_convergence (fun _ => nu + p) (fun n => hmeas _)
        (integrable_const _) (fun n => Eventually.of_forall (hb _ (by positivity))) ?_
      refine Eventually.of_forall fun x => ?_
      have h1 : Tendsto (fun n : ℕ => nu * ((n : ℝ) + 1) + qf S x) atTop atTop :=
        tendsto_atTop_add_const_right _ _ ((tendsto_atTop_add_const_right _ _
          tendsto_natCast_atTop_atTop).const_mul_atTop hnu)
      have h2 := (h1.const_div_atTop (qf S x)).const_mul (nu + p)
      rw [mul_zero] at h2
      exact h2
    rw [integral_zero] at hlim
    obtain ⟨n, hn⟩ := (hlim.eventually (gt_mem_nhds hp')).exists
    exact ⟨_, by positivity, hn⟩
  obtain ⟨a, ha, hpa⟩ := hsmall
  obtain ⟨b, hb', hpb⟩ := hlarge
  obtain ⟨κ, hκ, he⟩ := isPreconnected_Ioi.intermediate_value hb' ha hcont ⟨hpb.le, hpa.le⟩
  exact ⟨κ, hκ, he⟩

/-- The Student estimate of an elliptical law: the shape is right up to a scale. -/
theorem elliptical_student [IsProbabilityMeasure μ] (hμ : NullSubspaces μ) (hp : 0 < p) {nu : ℝ}
    (hnu : 0 < nu) {S : Matrix (Fin p) (Fin p) 𝕜} (hS : S.PosDef) (hE : EllipticalLaw μ S) :
    ∃ κ : ℝ, 0 < κ ∧ PopFixed nu μ ((κ : 𝕜) • S) ∧
      ∫ x, (nu + p) * (qf S x / (nu * κ + qf S x)) ∂μ = p := by
  obtain ⟨κ, hκ, he⟩ := student_scale hμ hp hnu hS
  refine ⟨κ, hκ, elliptical_popFixed hnu.le (hS.smul (by exact_mod_cast hκ)) (elliptical_smul hE hκ) ?_,
    he⟩
  simp only [scale_term hS hκ]
  exact he

/-- The scale is on the side of one where the equation says it is. -/
theorem scale_mono [IsProbabilityMeasure μ] {nu κ κ' : ℝ} (hnu : 0 ≤ nu) (hκ : 0 ≤ κ)
    (h : κ ≤ κ') {S : Matrix (Fin p) (Fin p) 𝕜} (hS : S.PosDef) :
    ∫ x, (nu + p) * (qf S x / (nu * κ' + qf S x)) ∂μ ≤
      ∫ x, (nu + p) * (qf S x / (nu * κ + qf S x)) ∂μ := by
  have hc : 0 ≤ nu * κ := mul_nonneg hnu hκ
  have hc' : nu * κ ≤ nu * κ' := mul_le_mul_of_nonneg_left h hnu
  refine integral_mono ((scale_integrable hS (hc.trans hc')).const_mul _)
    ((scale_integrable hS hc).const_mul _) fun x => ?_
  refine mul_le_mul_of_nonneg_left ?_ (by positivity)
  have hq := qf_nonneg hS x
  rcases hq.eq_or_lt with h0 | h0
  · rw [← h0]; simp
  · exact div_le_div_of_nonneg_left h0.le (by linarith) (by linarith)

/-- Weights for the wrong number of degrees of freedom. -/
theorem wrong_nu [IsProbabilityMeasure μ] (hp : 0 < p) {nu nu' : ℝ} (hnu : 0 < nu) (hnu' : 0 < nu')
    {S : Matrix (Fin p) (Fin p) 𝕜} (hS : S.PosDef)
    (hu : ∫ x, qf S x / (nu + qf S x) ∂μ = p / (nu + p))
    (hne : ¬ ∀ᵐ x ∂μ, qf S x / (nu + qf S x) = p / (nu + p)) :
    ∃ e : ℝ, 0 < e ∧ ∫ x, (nu' + p) * (qf S x / (nu' * 1 + qf S x)) ∂μ = p - (nu - nu') * e := by
  have hp' : (0 : ℝ) < p := by exact_mod_cast hp
  set c1 : ℝ := nu' * (nu + p) ^ 2 / (nu * (nu' + p) ^ 2) with hc1
  set c2 : ℝ := nu' * (nu + p) ^ 2 / (nu ^ 2 * (nu' + p) ^ 2) with hc2
  have c2pos : 0 < c2 := by positivity
  let r : (Fin p → 𝕜) → ℝ := fun x =>
    (qf S x / (nu + qf S x) - p / (nu + p)) ^ 2 * ((nu + qf S x) / (nu' + qf S x))
  have hpt : ∀ x, qf S x / (nu' * 1 + qf S x) = p / (nu' + p) +
      (c1 * (qf S x / (nu + qf S x) - p / (nu + p)) - (nu - nu') * (c2 * r x)) := fun x => by
    have hq := qf_nonneg hS x
    have h1 : nu + qf S x ≠ 0 := by positivity
    have h2 : nu' + qf S x ≠ 0 := by positivity
    have h3 : nu + (p : ℝ) ≠ 0 := by positivity
    have h4 : nu' + (p : ℝ) ≠ 0 := by positivity
    simp only [r, hc1, hc2, mul_one]
    field_simp
    ring
  have hu1 := scale_integrable (μ := μ) hS hnu.le
  have hu2 := scale_integrable (μ := μ) hS hnu'.le
  have hru : Integrable r μ := by
    have hm : Measurable r := by
      have := (continuous_qf S).measurable
      simp only [r]
      fun_prop
    refine (integrable_const (max 1 (nu / nu'))).mono' hm.aestronglyMeasurable
      (Eventually.of_forall fun x => ?_)
    have hq := qf_nonneg hS x
    obtain ⟨b1, b2⟩ := scale_bound hS hnu.le x
    have b3 : (p : ℝ) / (nu + p) ≤ 1 := div_le_one_of_le₀ (by linarith) (by positivity)
    have b4 : 0 ≤ (p : ℝ) / (nu + p) := by positivity
    have hs : (qf S x / (nu + qf S x) - p / (nu + p)) ^ 2 ≤ 1 := by
      rw [sq_le_one_iff_abs_le_one, abs_le]; constructor <;> linarith
    have hd : (nu + qf S x) / (nu' + qf S x) ≤ max 1 (nu / nu') := by
      rw [div_le_iff₀ (by positivity)]
      have m1 := le_max_left 1 (nu / nu')
      have m2 := le_max_right 1 (nu / nu')
      rw [div_le_iff₀ hnu'] at m2
      nlinarith
    have hd0 : 0 ≤ (nu + qf S x) / (nu' + qf S x) := by positivity
    simp only [r]
    rw [Real.norm_of_nonneg (mul_nonneg (sq_nonneg _) hd0)]
    calc _ ≤ 1 * ((nu + qf S x) / (nu' + qf S x)) := mul_le_mul_of_nonneg_right hs hd0
      _ ≤ _ := by rw [one_mul]; exact hd
  have hr0 : ∀ x, 0 ≤ r x := fun x => by
    have hq := qf_nonneg hS x
    exact mul_nonneg (sq_nonneg _) (by positivity)
  have hrpos : 0 < ∫ x, r x ∂μ := by
    refine lt_of_le_of_ne (integral_nonneg hr0) fun h => hne ?_
    have := (integral_eq_zero_iff_of_nonneg hr0 hru).1 h.symm
    filter_upwards [this] with x hx
    have hq := qf_nonneg hS x
    have h3 : (nu + qf S x) / (nu' + qf S x) ≠ 0 := by positivity
    have h4 : (qf S x / (nu + qf S x) - p / (nu + p)) ^ 2 = 0 :=
      (mul_eq_zero.1 hx).resolve_right h3
    have := pow_eq_zero_iff (two_ne_zero) |>.1 h4
    linarith
  refine ⟨(nu' + p) * (c2 * ∫ x, r x ∂μ), by positivity, ?_⟩
  simp only [hpt]
  have i1 : Integrable (fun x => c1 * (qf S x / (nu + qf S x) - p / (nu + p))) μ :=
    (hu1.sub (integrable_const _)).const_mul _
  have i2 : Integrable (fun x => (nu - nu') * (c2 * r x)) μ := (hru.const_mul _).const_mul _
  have i3 : Integrable (fun x => c1 * (qf S x / (nu + qf S x) - p / (nu + p)) -
      (nu - nu') * (c2 * r x)) μ := i1.sub i2
  rw [integral_const_mul, integral_add (integrable_const _) i3, integral_sub i1 i2,
    integral_const_mul, integral_sub hu1 (integrable_const _), hu, integral_const_mul,
    integral_const_mul]
  simp only [integral_const, probReal_univ, one_smul, sub_self, mul_zero, zero_sub]
  have h4 : nu' + (p : ℝ) ≠ 0 := by positivity
  field_simp
  ring

end
end RS
