import Verif.Lemmas.ConsistHuber

/-! The equation of the Huber estimator for elliptical laws. -/
set_option autoImplicit false

namespace RS
open Matrix ComplexOrder Filter Topology MeasureTheory ProbabilityTheory

section
set_option linter.unusedSectionVars false
variable {𝕜 : Type} [RCLike 𝕜] [MeasurableSpace 𝕜] [BorelSpace 𝕜] {p : ℕ}
  {μ : Measure (Fin p → 𝕜)}

omit [BorelSpace 𝕜] in
/-- The weighted second moment of `T x`. -/
theorem wMoment_conj {g : (Fin p → 𝕜) → ℝ} (hi : WInt g μ) (T : Matrix (Fin p) (Fin p) 𝕜)
    (a b : Fin p) :
    Integrable (fun x => ((g x : ℝ) : 𝕜) * ((T *ᵥ x) a * star ((T *ᵥ x) b))) μ ∧
      ∫ x, ((g x : ℝ) : 𝕜) * ((T *ᵥ x) a * star ((T *ᵥ x) b)) ∂μ =
        (T * wMoment g μ * Tᴴ) a b := by
  have e : ∀ x : Fin p → 𝕜, ((g x : ℝ) : 𝕜) * ((T *ᵥ x) a * star ((T *ᵥ x) b)) =
      ∑ k, ∑ l, (T a l * star (T b k)) * (((g x : ℝ) : 𝕜) * (x l * star (x k))) := fun x => by
    simp only [mulVec, dotProduct, star_sum, star_mul']
    rw [Finset.sum_mul_sum, Finset.mul_sum, Finset.sum_comm]
    refine Finset.sum_congr rfl fun k _ => ?_
    rw [Finset.mul_sum]
    refine Finset.sum_congr rfl fun l _ => ?_
    ring
  have h1 : ∀ k l, Integrable
      (fun x : Fin p → 𝕜 => (T a l * star (T b k)) * (((g x : ℝ) : 𝕜) * (x l * star (x k)))) μ :=
    fun k l => (hi l k).const_mul _
  simp only [e]
  refine ⟨integrable_finsetSum _ fun k _ => integrable_finsetSum _ fun l _ => h1 k l, ?_⟩
  rw [integral_finsetSum _ fun k _ => integrable_finsetSum _ fun l _ => h1 k l, Matrix.mul_apply]
  refine Finset.sum_congr rfl fun k _ => ?_
  rw [integral_finsetSum _ fun l _ => h1 k l, Matrix.mul_apply, Finset.sum_mul]
  refine Finset.sum_congr rfl fun l _ => ?_
  rw [integral_const_mul, conjTranspose_apply]
  have : wMoment g μ l k = ∫ x, ((g x : ℝ) : 𝕜) * (x l * star (x k)) ∂μ := rfl
  rw [this]
  ring

omit [MeasurableSpace 𝕜] [BorelSpace 𝕜] in
/-- A matrix which all unitary matrices leave unchanged is a multiple of the identity. -/
theorem unitary_scalar {Γ : Matrix (Fin p) (Fin p) 𝕜}
    (hinv : ∀ V : Matrix (Fin p) (Fin p) 𝕜, Vᴴ * V = 1 → V * Γ * Vᴴ = Γ) {c : 𝕜}
    (htr : Γ.trace = p * c) : Γ = c • 1 := by
  classical
  have hoff : ∀ a b, a ≠ b → Γ a b = 0 := by
    intro a b hab
    let s : Fin p → 𝕜 := fun j => if j = a then -1 else 1
    have hss : ∀ j, star (s j) * s j = 1 := fun j => by
      simp only [s]; split_ifs <;> simp
    have h1 := hinv (diagonal s) (by
      rw [diagonal_conjTranspose, diagonal_mul_diagonal, ← diagonal_one]
      congr 1; funext j; exact hss j)
    have h2 := congrFun (congrFun h1 a) b
    rw [diagonal_conjTranspose, mul_diagonal, diagonal_mul] at h2
    simp only [s, if_true, Pi.star_apply, if_neg hab.symm, star_one, mul_one, neg_one_mul] at h2
    have h3 : (2 : 𝕜) * Γ a b = 0 := by linear_combination -h2
    rcases mul_eq_zero.1 h3 with h | h
    · exact absurd h two_ne_zero
    · exact h
  have hdiag : ∀ a b, Γ a a = Γ b b := by
    intro a b
    have h1 := hinv ((1 : Matrix (Fin p) (Fin p) 𝕜).submatrix (Equiv.swap a b) id) (by
      rw [conjTranspose_submatrix, conjTranspose_one,
        submatrix_mul_equiv (e₂ := Equiv.swap a b) (M := (1 : Matrix (Fin p) (Fin p) 𝕜)) (N := 1)
          (e₁ := id) (e₃ := id)]
      simp)
    have h2 := congrFun (congrFun h1 a) a
    rw [conjTranspose_submatrix, conjTranspose_one] at h2
    rw [Matrix.mul_apply] at h2
    simp only [Matrix.mul_apply, submatrix_apply, id_eq, Equiv.swap_apply_left, one_apply, ite_mul,
      one_mul, zero_mul, Finset.sum_ite_eq, Finset.sum_ite_eq', Finset.mem_univ, if_true, mul_ite,
      mul_one, mul_zero] at h2
    exact h2.symm
  ext a b
  by_cases hab : a = b
  · subst hab
    rw [Matrix.smul_apply, one_apply_eq, smul_eq_mul, mul_one]
    have h1 : Γ.trace = (p : 𝕜) * Γ a a := by
      change ∑ b, Γ b b = _
      rw [Finset.sum_congr rfl fun b _ => hdiag b a, Finset.sum_const, Finset.card_univ, Fintype.card_fin, nsmul_eq_mul]
    rw [htr] at h1
    have hp0 : (p : 𝕜) ≠ 0 := by
      have : 0 < p := lt_of_le_of_lt (Nat.zero_le _) a.2
      exact_mod_cast this.ne'
    exact (mul_left_cancel₀ hp0 h1).symm
  · rw [hoff a b hab, Matrix.smul_apply, one_apply_ne hab, smul_zero]

omit [MeasurableSpace 𝕜] [BorelSpace 𝕜] in
theorem coords_le_qf {S : Matrix (Fin p) (Fin p) 𝕜} (hS : S.PosDef) :
    ∃ c : ℝ, 0 < c ∧ ∀ (x : Fin p → 𝕜) (a b : Fin p), ‖x a‖ * ‖x b‖ ≤ c * qf S x := by
  obtain ⟨R, hR, rfl⟩ := root_exists hS
  have hRd := (Matrix.isUnit_iff_isUnit_det R).1 hR
  refine ⟨(∑ i, ∑ j, ‖R i j‖) ^ 2 + 1, by positivity, fun x a b => ?_⟩
  rw [qf_factor hR]
  set y := R⁻¹ *ᵥ x with hy
  have hx : x = R *ᵥ y := by rw [hy, mulVec_mulVec, Matrix.mul_nonsing_inv R hRd, one_mulVec]
  have hs : 0 ≤ ∑ k, ‖y k‖ ^ 2 := Finset.sum_nonneg fun k _ => sq_nonneg _
  have hb : ∀ a, ‖x a‖ ≤ (∑ i, ∑ j, ‖R i j‖) * √(∑ k, ‖y k‖ ^ 2) := fun a => by
    rw [hx]
    simp only [mulVec, dotProduct]
    refine (norm_sum_le _ _).trans ?_
    have h1 : ∀ j, ‖R a j * y j‖ ≤ ‖R a j‖ * √(∑ k, ‖y k‖ ^ 2) := fun j => by
      rw [norm_mul]
      refine mul_le_mul_of_nonneg_left (Real.le_sqrt_of_sq_le ?_) (norm_nonneg _)
      exact Finset.single_le_sum (f := fun k => ‖y k‖ ^ 2) (fun k _ => sq_nonneg _)
        (Finset.mem_univ j)
    refine (Finset.sum_le_sum fun j _ => h1 j).trans ?_
    rw [← Finset.sum_mul]
    refine mul_le_mul_of_nonneg_right ?_ (Real.sqrt_nonneg _)
    exact Finset.single_le_sum (f := fun i => ∑ j, ‖R i j‖)
      (fun i _ => Finset.sum_nonneg fun j _ => norm_nonneg _) (Finset.mem_univ a)
  have h2 := mul_le_mul (hb a) (hb b) (norm_nonneg _)
    (mul_nonneg (Finset.sum_nonneg fun i _ => Finset.sum_nonneg fun j _ => norm_nonneg _)
      (Real.sqrt_nonneg _))
  refine h2.trans ?_
  have h3 := Real.mul_self_sqrt hs
  nlinarith

/-- For an elliptical law the weighted second moment is a multiple of the scatter matrix. -/
theorem elliptical_moment (hp : 0 < p) {w : ℝ → ℝ} (hw : Measurable w) {S : Matrix (Fin p) (Fin p) 𝕜}
    (hS : S.PosDef) (hE : EllipticalLaw μ S) (hi : Integrable (fun x => w (qf S x) * qf S x) μ) :
    WInt (fun x => w (qf S x)) μ ∧
      wMoment (fun x => w (qf S x)) μ =
        (((∫ x, w (qf S x) * qf S x ∂μ) / p : ℝ) : 𝕜) • S := by
  have hgm : Measurable fun x : Fin p → 𝕜 => w (qf S x) := hw.comp (continuous_qf S).measurable
  obtain ⟨c, hc, hcb⟩ := coords_le_qf hS
  have hW : WInt (fun x => w (qf S x)) μ := fun a b => by
    have hm : Measurable fun z : Fin p → 𝕜 => ((w (qf S z) : ℝ) : 𝕜) * (z a * star (z b)) :=
      (RCLike.continuous_ofReal.measurable.comp hgm).mul (raw_measurable' a b)
    refine (hi.norm.const_mul c).mono' hm.aestronglyMeasurable (Eventually.of_forall fun z => ?_)
    rw [norm_mul, norm_mul, norm_star, RCLike.norm_ofReal, norm_mul, Real.norm_eq_abs,
      Real.norm_of_nonneg (qf_nonneg hS z)]
    calc |w (qf S z)| * (‖z a‖ * ‖z b‖) ≤ |w (qf S z)| * (c * qf S z) :=
          mul_le_mul_of_nonneg_left (hcb z a b) (abs_nonneg _)
      _ = _ := by ring
  refine ⟨hW, ?_⟩
  obtain ⟨R, hR, rfl⟩ := root_exists hS
  have hRd := (Matrix.isUnit_iff_isUnit_det R).1 hR
  have hi1 : R⁻¹ * R = 1 := Matrix.nonsing_inv_mul R hRd
  have hi2 : R * R⁻¹ = 1 := Matrix.mul_nonsing_inv R hRd
  set M := wMoment (fun x => w (qf (R * Rᴴ) x)) μ with hM
  have hfix : ∀ T : Matrix (Fin p) (Fin p) 𝕜, T * (R * Rᴴ) * Tᴴ = R * Rᴴ → T * M * Tᴴ = M := by
    intro T hT
    have hmap := hE T hT
    have hm : Measurable fun x : Fin p → 𝕜 => T *ᵥ x :=
      (Continuous.matrix_mulVec continuous_const continuous_id).measurable
    ext a b
    rw [← (wMoment_conj hW T a b).2]
    have h3 := integral_map (μ := μ) hm.aemeasurable
      (by rw [hmap]; exact (hW a b).aestronglyMeasurable)
    rw [hmap] at h3
    have h4 : M a b = ∫ x, ((w (qf (R * Rᴴ) x) : ℝ) : 𝕜) * (x a * star (x b)) ∂μ := rfl
    rw [h4, h3]
    refine integral_congr_ae (Eventually.of_forall fun x => ?_)
    simp only [fixing_qf hS hT]
  have hΓ : R⁻¹ * M * R⁻¹ᴴ = (((∫ x, w (qf (R * Rᴴ) x) * qf (R * Rᴴ) x ∂μ) / p : ℝ) : 𝕜) • 1 := by
    refine unitary_scalar (fun V hV => ?_) ?_
    · have hV' := mul_eq_one_comm.1 hV
      have h2 : Rᴴ * R⁻¹ᴴ = 1 := by rw [← conjTranspose_mul, hi1, conjTranspose_one]
      have hT := hfix (R * V * R⁻¹) (by
        rw [conjTranspose_mul, conjTranspose_mul]
        calc R * V * R⁻¹ * (R * Rᴴ) * (R⁻¹ᴴ * (Vᴴ * Rᴴ))
            = R * V * (R⁻¹ * R) * (Rᴴ * R⁻¹ᴴ) * (Vᴴ * Rᴴ) := by simp only [Matrix.mul_assoc]
          _ = R * (V * Vᴴ) * Rᴴ := by
            rw [hi1, h2, Matrix.mul_one, Matrix.mul_one]; simp only [Matrix.mul_assoc]
          _ = R * Rᴴ := by rw [hV', Matrix.mul_one])
      rw [conjTranspose_mul, conjTranspose_mul] at hT
      calc V * (R⁻¹ * M * R⁻¹ᴴ) * Vᴴ
          = (R⁻¹ * R) * (V * R⁻¹ * M * (R⁻¹ᴴ * Vᴴ)) * (Rᴴ * R⁻¹ᴴ) := by
            rw [hi1, h2, Matrix.one_mul, Matrix.mul_one]; simp only [Matrix.mul_assoc]
        _ = R⁻¹ * (R * V * R⁻¹ * M * (R⁻¹ᴴ * (Vᴴ * Rᴴ))) * R⁻¹ᴴ := by simp only [Matrix.mul_assoc]
        _ = _ := by rw [hT]
    · have h1 := fun a => wMoment_conj hW R⁻¹ a a
      have h2 : (R⁻¹ * M * R⁻¹ᴴ).trace =
          ∑ a, ∫ x, ((w (qf (R * Rᴴ) x) : ℝ) : 𝕜) * ((R⁻¹ *ᵥ x) a * star ((R⁻¹ *ᵥ x) a)) ∂μ :=
        Finset.sum_congr rfl fun a _ => (h1 a).2.symm
      rw [h2, ← integral_finsetSum _ fun a _ => (h1 a).1]
      have e : ∀ x, ∑ a, ((w (qf (R * Rᴴ) x) : ℝ) : 𝕜) * ((R⁻¹ *ᵥ x) a * star ((R⁻¹ *ᵥ x) a)) =
          ((w (qf (R * Rᴴ) x) * qf (R * Rᴴ) x : ℝ) : 𝕜) := fun x => by
        have := qf_factor hR x
        rw [← Finset.mul_sum, RCLike.ofReal_mul]
        congr 1
        rw [this]
        push_cast
        refine Finset.sum_congr rfl fun a _ => ?_
        rw [RCLike.star_def, RCLike.mul_conj]
      rw [integral_congr_ae (Eventually.of_forall e), integral_ofReal]
      have hp0 : (p : 𝕜) ≠ 0 := by exact_mod_cast hp.ne'
      push_cast
      field_simp
  have h2 : R⁻¹ᴴ * Rᴴ = 1 := by rw [← conjTranspose_mul, hi2, conjTranspose_one]
  calc M = (R * R⁻¹) * M * (R⁻¹ᴴ * Rᴴ) := by rw [hi2, h2, Matrix.one_mul, Matrix.mul_one]
    _ = R * (R⁻¹ * M * R⁻¹ᴴ) * Rᴴ := by simp only [Matrix.mul_assoc]
    _ = _ := by rw [hΓ, Matrix.mul_smul, Matrix.mul_one, Matrix.smul_mul]

/-! ## The scale of the Huber estimate -/

omit [MeasurableSpace 𝕜] [BorelSpace 𝕜] in
theorem huber_term_bound {S : Matrix (Fin p) (Fin p) 𝕜} (hS : S.PosDef) {c : ℝ} (hc : 0 < c)
    (x : Fin p → 𝕜) : 0 ≤ max 1 (qf S x / c) * qf S x ∧
      max 1 (qf S x / c) * qf S x ≤ qf S x + qf S x ^ 2 / c := by
  have hq := qf_nonneg hS x
  refine ⟨mul_nonneg (zero_le_one.trans (le_max_left _ _)) hq, ?_⟩
  have h1 : max 1 (qf S x / c) ≤ 1 + qf S x / c :=
    max_le (by have : 0 ≤ qf S x / c := by positivity
               linarith) (by linarith)
  calc max 1 (qf S x / c) * qf S x ≤ (1 + qf S x / c) * qf S x := mul_le_mul_of_nonneg_right h1 hq
    _ = _ := by ring

theorem huber_term_measurable (S : Matrix (Fin p) (Fin p) 𝕜) (c : ℝ) :
    Measurable fun x : Fin p → 𝕜 => max 1 (qf S x / c) * qf S x := by
  have := (continuous_qf S).measurable
  fun_prop

theorem qf_integrable_of_sq [IsProbabilityMeasure μ] {S : Matrix (Fin p) (Fin p) 𝕜} (hS : S.PosDef)
    (h2 : Integrable (fun x => qf S x ^ 2) μ) : Integrable (qf S) μ := by
  refine ((integrable_const (1 : ℝ)).add h2).mono' (continuous_qf S).measurable.aestronglyMeasurable
    (Eventually.of_forall fun x => ?_)
  rw [Real.norm_of_nonneg (qf_nonneg hS x), Pi.add_apply]
  nlinarith [sq_nonneg (qf S x - 1)]

theorem huber_term_integrable [IsProbabilityMeasure μ] {S : Matrix (Fin p) (Fin p) 𝕜}
    (hS : S.PosDef) (h2 : Integrable (fun x => qf S x ^ 2) μ) {c : ℝ} (hc : 0 < c) :
    Integrable (fun x => max 1 (qf S x / c) * qf S x) μ := by
  refine ((qf_integrable_of_sq hS h2).add (h2.div_const c)).mono'
    (huber_term_measurable S c).aestronglyMeasurable (Eventually.of_forall fun x => ?_)
  rw [Real.norm_of_nonneg (huber_term_bound hS hc x).1]
  exact (huber_term_bound hS hc x).2

theorem qf_mean_pos [IsProbabilityMeasure μ] (hμ : NullSubspaces μ) (hp : 0 < p)
    {S : Matrix (Fin p) (Fin p) 𝕜} (hS : S.PosDef) (hi : Integrable (qf S) μ) :
    0 < ∫ x, qf S x ∂μ := by
  rw [integral_pos_iff_support_of_nonneg (fun x => qf_nonneg hS x) hi]
  have h1 : ∀ᵐ x ∂μ, x ∈ Function.support (qf S) := by
    filter_upwards [ne_zero_ae hμ hp] with x hx
    exact (qf_pos hS hx).ne'
  rw [pos_iff_ne_zero]
  intro h0
  have h2 : ∀ᵐ x ∂μ, x ∉ Function.support (qf S) := measure_eq_zero_iff_ae_notMem.1 h0
  have h3 : ∀ᵐ x ∂μ, False := by filter_upwards [h1, h2] with x a b using b a
  rw [eventually_false_iff_eq_bot, ae_eq_bot] at h3
  exact IsProbabilityMeasure.ne_zero μ h3

/-- The mean weighted distance decreases with the scale. -/
theorem huber_scale_anti [IsProbabilityMeasure μ] {S : Matrix (Fin p) (Fin p) 𝕜} (hS : S.PosDef)
    (h2 : Integrable (fun x => qf S x ^ 2) μ) {c c' : ℝ} (hc : 0 < c) (h : c ≤ c') :
    ∫ x, max 1 (qf S x / c') * qf S x ∂μ ≤ ∫ x, max 1 (qf S x / c) * qf S x ∂μ := by
  refine integral_mono (huber_term_integrable hS h2 (hc.trans_le h)) (huber_term_integrable hS h2 hc)
    fun x => ?_
  refine mul_le_mul_of_nonneg_right (max_le_max le_rfl ?_) (qf_nonneg hS x)
  exact div_le_div_of_nonneg_left (qf_nonneg hS x) hc h

/-- There is a scale for which the equation of the Huber estimator holds. -/
theorem huber_scale [IsProbabilityMeasure μ] (hμ : NullSubspaces μ) (hp : 0 < p) {lbda beta : ℝ}
    (hl : 0 < lbda) (hb : 0 < beta) {S : Matrix (Fin p) (Fin p) 𝕜} (hS : S.PosDef)
    (h2 : Integrable (fun x => qf S x ^ 2) μ) :
    ∃ κ : ℝ, 0 < κ ∧ beta * ∫ x, max 1 (qf S x / (κ * lbda)) * qf S x ∂μ = p * κ := by
  have hp' : (0 : ℝ) < p := by exact_mod_cast hp
  have h1 := qf_integrable_of_sq hS h2
  set m := ∫ x, qf S x ∂μ with hm
  have hm0 : 0 < m := qf_mean_pos hμ hp hS h1
  set v := ∫ x, qf S x ^ 2 ∂μ with hv
  have hv0 : 0 ≤ v := integral_nonneg fun x => sq_nonneg _
  set h : ℝ → ℝ := fun κ => beta * ∫ x, max 1 (qf S x / (κ * lbda)) * qf S x ∂μ - p * κ with hh
  have hcont : ContinuousOn h (Set.Ioi 0) := by
    intro κ hκ
    have hκ0 : 0 < κ := hκ
    refine ContinuousAt.continuousWithinAt ?_
    refine ContinuousAt.sub (ContinuousAt.mul continuousAt_const ?_) (by fun_prop)
    refine continuousAt_of_dominated (bound := fun x => qf S x + qf S x ^ 2 / (κ / 2 * lbda))
      (Eventually.of_forall fun k => (huber_term_measurable S (k * lbda)).aestronglyMeasurable) ?_
      (h1.add (h2.div_const _)) (Eventually.of_forall fun x => ?_)
    · filter_upwards [lt_mem_nhds (half_lt_self hκ0)] with k hk
      refine Eventually.of_forall fun x => ?_
      have hk0 : 0 < k := (half_pos hκ0).trans hk
      rw [Real.norm_of_nonneg (huber_term_bound hS (mul_pos hk0 hl) x).1]
      refine (huber_term_bound hS (mul_pos hk0 hl) x).2.trans ?_
      have : qf S x ^ 2 / (k * lbda) ≤ qf S x ^ 2 / (κ / 2 * lbda) :=
        div_le_div_of_nonneg_left (sq_nonneg _) (by positivity)
          (mul_le_mul_of_nonneg_right hk.le hl.le)
      linarith
    · refine ContinuousAt.mul (Filter.Tendsto.max continuousAt_const ?_) continuousAt_const
      exact ContinuousAt.div continuousAt_const (by fun_prop) (mul_pos hκ0 hl).ne'
  -- a scale which is too small
  set a := beta * m / (2 * p) with ha
  have ha0 : 0 < a := by positivity
  have hA : 0 ≤ h a := by
    have h3 : m ≤ ∫ x, max 1 (qf S x / (a * lbda)) * qf S x ∂μ :=
      integral_mono h1 (huber_term_integrable hS h2 (mul_pos ha0 hl)) fun x =>
        le_mul_of_one_le_left (qf_nonneg hS x) (le_max_left _ _)
    have h4 : (p : ℝ) * a = beta * m / 2 := by rw [ha]; field_simp
    simp only [hh]
    rw [h4]
    nlinarith [mul_le_mul_of_nonneg_left h3 hb.le]
  -- a scale which is too large
  set b := 1 + beta * (m + v / lbda) / p with hbdef
  have hb1 : 1 ≤ b := by
    have : 0 ≤ beta * (m + v / lbda) / p := by positivity
    linarith
  have hb0 : 0 < b := by linarith
  have hB : h b ≤ 0 := by
    have h3 : ∫ x, max 1 (qf S x / (b * lbda)) * qf S x ∂μ ≤ m + v / lbda := by
      rw [hm, hv, ← integral_div, ← integral_add h1 (h2.div_const _)]
      refine integral_mono (huber_term_integrable hS h2 (mul_pos hb0 hl)) (h1.add (h2.div_const _))
        fun x => ?_
      refine (huber_term_bound hS (mul_pos hb0 hl) x).2.trans ?_
      have : qf S x ^ 2 / (b * lbda) ≤ qf S x ^ 2 / lbda :=
        div_le_div_of_nonneg_left (sq_nonneg _) hl (le_mul_of_one_le_left hl.le hb1)
      linarith
    have h4 : (p : ℝ) * b = p + beta * (m + v / lbda) := by rw [hbdef]; field_simp
    simp only [hh]
    rw [h4]
    nlinarith [mul_le_mul_of_nonneg_left h3 hb.le]
  obtain ⟨κ, hκ, he⟩ := isPreconnected_Ioi.intermediate_value hb0 ha0 hcont ⟨hB, hA⟩
  exact ⟨κ, hκ, sub_eq_zero.1 he⟩

/-- The Huber estimate of an elliptical law with a finite fourth moment: the shape is right up to a
scale. -/
theorem elliptical_huber [IsProbabilityMeasure μ] (hp : 0 < p) {lbda beta : ℝ}
    {S : Matrix (Fin p) (Fin p) 𝕜} (hS : S.PosDef)
    (hE : EllipticalLaw μ S) (h2 : Integrable (fun x => qf S x ^ 2) μ) {κ : ℝ} (hκ : 0 < κ)
    (hl : 0 < lbda) (he : beta * ∫ x, max 1 (qf S x / (κ * lbda)) * qf S x ∂μ = p * κ) :
    PopSolves (wHuber lbda beta) μ ((κ : 𝕜) • S) := by
  have hp' : (p : ℝ) ≠ 0 := by exact_mod_cast hp.ne'
  have hκS : ((κ : 𝕜) • S).PosDef := hS.smul (by exact_mod_cast hκ)
  have e : ∀ x, wHuber lbda beta (qf ((κ : 𝕜) • S) x) * qf ((κ : 𝕜) • S) x =
      beta / κ * (max 1 (qf S x / (κ * lbda)) * qf S x) := fun x => by
    rw [qf_smul hS hκ, wHuber, div_div]
    ring
  obtain ⟨h3, h4⟩ := elliptical_moment hp (wHuber_measurable lbda beta) hκS (elliptical_smul hE hκ)
    (by simp only [e]; exact (huber_term_integrable hS h2 (mul_pos hκ hl)).const_mul _)
  have h5 : (∫ x, wHuber lbda beta (qf ((κ : 𝕜) • S) x) * qf ((κ : 𝕜) • S) x ∂μ) / p = 1 := by
    simp only [e]
    rw [integral_const_mul, div_mul_eq_mul_div, he]
    field_simp
  rw [h5, RCLike.ofReal_one, one_smul] at h4
  exact fun a b => ⟨h3 a b, congrFun (congrFun h4 a) b⟩

end
end RS
