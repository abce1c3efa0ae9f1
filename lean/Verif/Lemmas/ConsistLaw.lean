import Verif.Lemmas.ConsistEll

/-! Laws with a density that is a function of the Mahalanobis distance are elliptical, and give
probability zero to subspaces; the normal and t laws. -/
set_option autoImplicit false

namespace RS
open Matrix ComplexOrder Filter Topology MeasureTheory ProbabilityTheory

section
set_option linter.unusedSectionVars false
variable {𝕜 : Type} [RCLike 𝕜] [MeasurableSpace 𝕜] [BorelSpace 𝕜] {p : ℕ}

omit [MeasurableSpace 𝕜] [BorelSpace 𝕜] in
theorem fixing_isUnit {S T : Matrix (Fin p) (Fin p) 𝕜} (hS : S.PosDef) (hT : T * S * Tᴴ = S) :
    IsUnit T := by
  rw [Matrix.isUnit_iff_isUnit_det, isUnit_iff_ne_zero]
  intro h0
  have h1 := (posDef_det_pos hS).1
  rw [← hT, det_mul, det_mul, h0, zero_mul, zero_mul, map_zero] at h1
  exact lt_irrefl _ h1

omit [MeasurableSpace 𝕜] [BorelSpace 𝕜] in
theorem fixing_qf {S T : Matrix (Fin p) (Fin p) 𝕜} (hS : S.PosDef) (hT : T * S * Tᴴ = S)
    (x : Fin p → 𝕜) : qf S (T *ᵥ x) = qf S x := by
  have := qf_congr T (fixing_isUnit hS hT) S x
  rwa [hT] at this

omit [MeasurableSpace 𝕜] [BorelSpace 𝕜] in
theorem ellipsoid_compact {S : Matrix (Fin p) (Fin p) 𝕜} (hS : S.PosDef) :
    IsCompact {x : Fin p → 𝕜 | qf S x ≤ 1} := by
  obtain ⟨R, hR, rfl⟩ := root_exists hS
  have hRd := (Matrix.isUnit_iff_isUnit_det R).1 hR
  have hball : IsCompact {w : Fin p → 𝕜 | ∑ j, ‖w j‖ ^ 2 ≤ 1} := by
    refine (isCompact_closedBall (0 : Fin p → 𝕜) 1).of_isClosed_subset
      (isClosed_le (by fun_prop) continuous_const) fun w hw => ?_
    rw [mem_closedBall_zero_iff, pi_norm_le_iff_of_nonneg zero_le_one]
    intro j
    have h1 : ‖w j‖ ^ 2 ≤ 1 := le_trans
      (Finset.single_le_sum (f := fun j => ‖w j‖ ^ 2) (fun i _ => sq_nonneg _) (Finset.mem_univ j)) hw
    nlinarith [norm_nonneg (w j)]
  have himg : {x : Fin p → 𝕜 | qf (R * Rᴴ) x ≤ 1} =
      (fun w => R *ᵥ w) '' {w : Fin p → 𝕜 | ∑ j, ‖w j‖ ^ 2 ≤ 1} := by
    ext x
    simp only [Set.mem_ofPred_eq, Set.mem_image, qf_factor hR]
    constructor
    · intro h
      exact ⟨_, h, by rw [mulVec_mulVec, mul_nonsing_inv _ hRd, one_mulVec]⟩
    · rintro ⟨w, hw, rfl⟩
      rwa [mulVec_mulVec, nonsing_inv_mul _ hRd, one_mulVec]
  rw [himg]
  exact hball.image (by fun_prop)

/-- The linear maps which leave `S` unchanged preserve volume. -/
theorem fixing_preserves (V : Measure (Fin p → 𝕜)) [V.IsAddHaarMeasure]
    {S T : Matrix (Fin p) (Fin p) 𝕜} (hS : S.PosDef) (hT : T * S * Tᴴ = S) :
    MeasurePreserving (fun x => T *ᵥ x) V V := by
  have hm : Measurable fun x : Fin p → 𝕜 => T *ᵥ x := by
    have : Continuous fun x : Fin p → 𝕜 => T *ᵥ x := by fun_prop
    exact this.measurable
  refine ⟨hm, ?_⟩
  have hTd := (Matrix.isUnit_iff_isUnit_det T).1 (fixing_isUnit hS hT)
  let f : (Fin p → 𝕜) →ₗ[ℝ] (Fin p → 𝕜) := (Matrix.mulVecLin T).restrictScalars ℝ
  have hf : ∀ x, f x = T *ᵥ x := fun x => rfl
  have hu : IsUnit f := by
    rw [Module.End.isUnit_iff]
    refine ⟨fun x y hxy => ?_, fun y => ⟨T⁻¹ *ᵥ y, ?_⟩⟩
    · rw [hf, hf] at hxy
      have := congrArg (fun z => T⁻¹ *ᵥ z) hxy
      simpa only [mulVec_mulVec, nonsing_inv_mul _ hTd, one_mulVec] using this
    · rw [hf, mulVec_mulVec, mul_nonsing_inv _ hTd, one_mulVec]
  have hdet : LinearMap.det f ≠ 0 := (LinearMap.isUnit_det f hu).ne_zero
  have hmap := Measure.map_linearMap_addHaar_eq_smul_addHaar V hdet
  have hB := ellipsoid_compact hS
  have hpre : f ⁻¹' {x | qf S x ≤ 1} = {x | qf S x ≤ 1} := by
    ext x
    simp only [Set.mem_preimage, Set.mem_ofPred_eq, hf, fixing_qf hS hT]
  have hpos : V {x | qf S x ≤ 1} ≠ 0 := by
    have hopen : IsOpen {x : Fin p → 𝕜 | qf S x < 1} :=
      isOpen_lt (continuous_qf S) continuous_const
    have h0 : (0 : Fin p → 𝕜) ∈ {x : Fin p → 𝕜 | qf S x < 1} := by
      simp [qf]
    have := hopen.measure_pos V ⟨0, h0⟩
    exact (this.trans_le (measure_mono fun x (hx : qf S x < 1) => hx.le)).ne'
  have hfin := hB.measure_lt_top (μ := V)
  have hval := congrArg (fun ν : Measure (Fin p → 𝕜) => ν {x | qf S x ≤ 1}) hmap
  simp only [Measure.smul_apply, smul_eq_mul] at hval
  have hmf : Measurable (⇑f) := hm
  rw [Measure.map_apply hmf hB.measurableSet, hpre] at hval
  have hone : ENNReal.ofReal |(LinearMap.det f)⁻¹| = 1 := by
    have := (ENNReal.mul_eq_right hpos hfin.ne).1 hval.symm
    exact this
  rw [hone, one_smul] at hmap
  exact hmap

theorem withDensity_map {E : Type*} [MeasurableSpace E] {V : Measure E} {T : E → E}
    (hT : MeasurePreserving T V V) {F : E → ENNReal} (hF : Measurable F) (h : ∀ x, F (T x) = F x) :
    (V.withDensity F).map T = V.withDensity F := by
  ext s hs
  rw [Measure.map_apply hT.measurable hs, withDensity_apply _ hs,
    withDensity_apply _ (hT.measurable hs)]
  have := hT.setLIntegral_comp_preimage hs hF
  simp only [h] at this
  exact this

theorem withDensity_null (V : Measure (Fin p → 𝕜)) [V.IsAddHaarMeasure]
    (F : (Fin p → 𝕜) → ENNReal) : NullSubspaces (V.withDensity F) := by
  intro W hW
  refine withDensity_absolutelyContinuous V F ?_
  have := Measure.addHaar_submodule V (W.restrictScalars ℝ) (by
    rw [Ne, Submodule.restrictScalars_eq_top_iff]; exact hW)
  exact this

end

section
variable {p : ℕ}

theorem lawOf_null_real (f : (Fin p → ℝ) → ℝ) : NullSubspaces (𝕜 := ℝ) (lawOf f) :=
  withDensity_null (𝕜 := ℝ) volume _

theorem lawOf_null_cplx (f : (Fin p → ℂ) → ℝ) : NullSubspaces (𝕜 := ℂ) (lawOf f) :=
  withDensity_null (𝕜 := ℂ) volume _

theorem lawOf_elliptical_real {f : (Fin p → ℝ) → ℝ} (hf : Measurable f)
    {S : Matrix (Fin p) (Fin p) ℝ} (hS : S.PosDef)
    (h : ∀ x y, qf S x = qf S y → f x = f y) : EllipticalLaw (lawOf f) S := by
  intro T hT
  have hmp := fixing_preserves volume hS hT
  have hi : ∀ x, ENNReal.ofReal (f (T *ᵥ x)) = ENNReal.ofReal (f x) := fun x =>
    congrArg _ (h _ _ (fixing_qf hS hT x))
  exact withDensity_map hmp hf.ennreal_ofReal hi

theorem lawOf_elliptical_cplx {f : (Fin p → ℂ) → ℝ} (hf : Measurable f)
    {S : Matrix (Fin p) (Fin p) ℂ} (hS : S.PosDef)
    (h : ∀ x y, qf S x = qf S y → f x = f y) : EllipticalLaw (lawOf f) S := by
  intro T hT
  have hmp := fixing_preserves volume hS hT
  have hi : ∀ x, ENNReal.ofReal (f (T *ᵥ x)) = ENNReal.ofReal (f x) := fun x =>
    congrArg _ (h _ _ (fixing_qf hS hT x))
  exact withDensity_map hmp hf.ennreal_ofReal hi

/-! ## The normal and t laws -/

theorem qf_real (S : Matrix (Fin p) (Fin p) ℝ) (x : Fin p → ℝ) : qf S x = x ⬝ᵥ S⁻¹ *ᵥ x := by
  simp [qf]

theorem qf_cplx (S : Matrix (Fin p) (Fin p) ℂ) (x : Fin p → ℂ) :
    qf S x = (star x ⬝ᵥ S⁻¹ *ᵥ x).re := rfl

theorem t_u {ν : ℝ} (hν : 0 < ν) (d : ℕ) :
    Integrable (fun w : Fin d → ℝ => gT ν d (w ⬝ᵥ w) * ((w ⬝ᵥ w) / (ν + w ⬝ᵥ w))) ∧
    ∫ w : Fin d → ℝ, gT ν d (w ⬝ᵥ w) * ((w ⬝ᵥ w) / (ν + w ⬝ᵥ w)) = d / (ν + d) := by
  have hα : 0 < (ν + d) / 2 := by positivity
  have hmix : ∀ a : Fin d, _ := fun a => mixture (d := d) (φ := fun w => w a ^ 2)
    (C := √Real.pi ^ d / 2) (β := (d : ℝ) / 2 + 1) (α := (ν + d) / 2 + 1)
    (fun _ => sq_nonneg _) (by fun_prop) hν (by linarith) (by linarith) (fun b hb => by
      refine ⟨kernel_sq_integrable hb a, ?_⟩
      rw [kernel_sq_integral hb, sqrt_div_pow hb, neg_add, Real.rpow_add hb, Real.rpow_neg_one]
      field_simp)
  set K : ℝ := Real.Gamma ((ν + d) / 2) / (Real.Gamma (ν / 2) * √(Real.pi * ν) ^ d) with hK
  have e : ∀ w : Fin d → ℝ, gT ν d (w ⬝ᵥ w) * ((w ⬝ᵥ w) / (ν + w ⬝ᵥ w)) =
      ∑ a, K / ν * (w a ^ 2 * (1 + (w ⬝ᵥ w) / ν) ^ (-((ν + d) / 2 + 1))) := fun w => by
    rw [← Finset.mul_sum, ← Finset.sum_mul]
    have hs : ∑ a, w a ^ 2 = w ⬝ᵥ w := by
      simp only [dotProduct, sq]
    have h0 := dot_self_nonneg' w
    have h1 : 0 < 1 + (w ⬝ᵥ w) / ν := by positivity
    rw [hs, neg_add, Real.rpow_add h1, Real.rpow_neg_one, gT]
    have h2 : ν + w ⬝ᵥ w = ν * (1 + (w ⬝ᵥ w) / ν) := by field_simp
    rw [h2, ← hK]
    field_simp
  have hi : ∀ a : Fin d, Integrable fun w : Fin d → ℝ =>
      K / ν * (w a ^ 2 * (1 + (w ⬝ᵥ w) / ν) ^ (-((ν + d) / 2 + 1))) := fun a => (hmix a).1.const_mul _
  simp only [e]
  refine ⟨integrable_finsetSum _ fun a _ => hi a, ?_⟩
  rw [integral_finsetSum _ fun a _ => hi a]
  simp only [integral_const_mul, (hmix _).2, Finset.sum_const, Finset.card_univ, Fintype.card_fin,
    nsmul_eq_mul]
  have e2 : (ν + d) / 2 + 1 - ((d : ℝ) / 2 + 1) = ν / 2 := by ring
  rw [e2, Real.Gamma_add_one hα.ne', Real.rpow_add hν, Real.rpow_one, hK, sqrt_mul_pow hν]
  have := Real.Gamma_pos_of_pos hα
  have := Real.Gamma_pos_of_pos (half_pos hν)
  have := Real.rpow_pos_of_pos hν ((d : ℝ) / 2)
  have : 0 < √Real.pi ^ d := by positivity
  field_simp

/-- The mean of `q / (ν + q)` under the t law with `ν` degrees of freedom. -/
theorem t_mean_u {ν : ℝ} (hν : 0 < ν) {d : ℕ} {S : Matrix (Fin d) (Fin d) ℝ} (hS : S.PosDef) :
    ∫ x, (x ⬝ᵥ S⁻¹ *ᵥ x) / (ν + x ⬝ᵥ S⁻¹ *ᵥ x) ∂lawOf (ell (gT ν d) 0 S) = d / (ν + d) := by
  obtain ⟨A, hA, hI⟩ := ell_integral (F := ℝ) (m := 0) (gT_mass hν d) hS
  rw [(hI _).2, ← (t_u hν d).2]
  have hd : IsUnit A.det := by
    rw [isUnit_iff_ne_zero]; intro h
    have := hS.det_pos
    rw [← hA, det_mul, h, zero_mul] at this
    exact lt_irrefl _ this
  have hut : IsUnit Aᵀ.det := by rwa [det_transpose]
  refine integral_congr_ae (Eventually.of_forall fun w => ?_)
  have hq : (A *ᵥ w) ⬝ᵥ S⁻¹ *ᵥ (A *ᵥ w) = w ⬝ᵥ w := by
    rw [← hA, Matrix.mul_inv_rev, mulVec_mulVec, Matrix.mul_assoc, nonsing_inv_mul _ hd, mul_one,
      ← vecMul_transpose, ← dotProduct_mulVec, mulVec_mulVec, mul_nonsing_inv _ hut, one_mulVec]
  simp only [zero_add, hq, smul_eq_mul]

/-- Under a positive density a continuous function is not almost surely one of its non-values. -/
theorem lawOf_not_ae {E : Type*} [TopologicalSpace E] [MeasureSpace E] [BorelSpace E]
    [(volume : Measure E).IsOpenPosMeasure] {f : E → ℝ} (hf : Measurable f) (hpos : ∀ x, 0 < f x)
    {g : E → ℝ} (hg : Continuous g) {c : ℝ} {x0 : E} (hx : g x0 ≠ c) :
    ¬ ∀ᵐ x ∂lawOf f, g x = c := by
  intro h
  rw [lawOf, ae_withDensity_iff hf.ennreal_ofReal] at h
  have h2 : ∀ᵐ x ∂(volume : Measure E), g x = c := by
    filter_upwards [h] with x hx
    exact hx (by rw [Ne, ENNReal.ofReal_eq_zero, not_le]; exact hpos x)
  have hopen : IsOpen {x | g x ≠ c} := isOpen_ne_fun hg continuous_const
  exact (hopen.measure_pos volume ⟨x0, hx⟩).ne' h2

theorem realT_law {df : ℝ} (hdf : 0 < df) {S : Matrix (Fin p) (Fin p) ℝ} (hS : S.PosDef) :
    (fun x => Real.exp (tLogDensity df 0 S x)) = ell (gT df p) 0 S :=
  funext fun x => exp_tLogDensity hdf 0 hS x

theorem realT_u {df : ℝ} (hdf : 0 < df) {S : Matrix (Fin p) (Fin p) ℝ} (hS : S.PosDef) :
    ∫ x, qf S x / (df + qf S x) ∂lawOf (fun x => Real.exp (tLogDensity df 0 S x)) =
      p / (df + p) := by
  rw [realT_law hdf hS, ← t_mean_u hdf hS]
  simp only [qf_real]

theorem realT_measurable {df : ℝ} (hdf : 0 < df) {S : Matrix (Fin p) (Fin p) ℝ} (hS : S.PosDef) :
    Measurable fun x => Real.exp (tLogDensity df 0 S x) := by
  rw [realT_law hdf hS]; exact ell_measurable (gT_mass hdf p)

theorem realT_elliptical {df : ℝ} (hdf : 0 < df) {S : Matrix (Fin p) (Fin p) ℝ} (hS : S.PosDef) :
    EllipticalLaw (lawOf fun x => Real.exp (tLogDensity df 0 S x)) S :=
  lawOf_elliptical_real (realT_measurable hdf hS) hS fun x y h => by
    rw [qf_real, qf_real] at h
    simp only [tLogDensity, sub_zero, h]

theorem realN_elliptical {S : Matrix (Fin p) (Fin p) ℝ} (hS : S.PosDef) :
    EllipticalLaw (lawOf fun x => Real.exp (normalLogDensity 0 S x)) S :=
  lawOf_elliptical_real (Real.measurable_exp.comp (normal_measurable 0 S)) hS fun x y h => by
    rw [qf_real, qf_real] at h
    simp only [Function.comp_apply, normalLogDensity, sub_zero, h]

theorem cplxN_elliptical {S : Matrix (Fin p) (Fin p) ℂ} (hS : S.PosDef) :
    EllipticalLaw (lawOf fun x => Real.exp (cnormalLogDensity 0 S x)) S :=
  lawOf_elliptical_cplx (Real.measurable_exp.comp (cnormal_measurable 0 S)) hS fun x y h => by
    rw [qf_cplx, qf_cplx] at h
    simp only [Function.comp_apply, cnormalLogDensity, sub_zero, h]

theorem cplxT_measurable (df : ℝ) (S : Matrix (Fin p) (Fin p) ℂ) :
    Measurable fun x => Real.exp (ctLogDensity df 0 S x) := by
  have h := (continuous_qf S).measurable
  refine Real.measurable_exp.comp ?_
  unfold ctLogDensity
  simp only [sub_zero, ← qf_cplx]
  fun_prop

theorem cplxT_elliptical (df : ℝ) {S : Matrix (Fin p) (Fin p) ℂ} (hS : S.PosDef) :
    EllipticalLaw (lawOf fun x => Real.exp (ctLogDensity df 0 S x)) S :=
  lawOf_elliptical_cplx (cplxT_measurable df S) hS fun x y h => by
    rw [qf_cplx, qf_cplx] at h
    simp only [ctLogDensity, sub_zero, h]

theorem cplxT_u {df : ℝ} (hdf : 0 < df) {S : Matrix (Fin p) (Fin p) ℂ} (hS : S.PosDef) :
    ∫ x, qf S x / (df / 2 + qf S x) ∂lawOf (fun x => Real.exp (ctLogDensity df 0 S x)) =
      p / (df / 2 + p) := by
  have hz : halves (0 : Fin p → ℂ) = 0 := by
    refine (zEquiv p).injective ?_
    change zOf (halves 0) = zOf 0
    rw [zOf_halves]
    funext j
    simp [zOf]
    rfl
  rw [← lawOf_zOf, exp_ct_zOf hdf 0 hS, hz,
    integral_map (zOf_preserving p).measurable.aemeasurable
      (scale_measurable S (df / 2)).aestronglyMeasurable]
  have := t_mean_u hdf ((realify_posDef S).2 hS)
  have e : ((p + p : ℕ) : ℝ) / (df + (p + p : ℕ)) = p / (df / 2 + p) := by
    push_cast
    have : df + ((p : ℝ) + p) = 2 * (df / 2 + p) := by ring
    rw [this, ← two_mul, mul_div_mul_left _ _ two_ne_zero]
  rw [e] at this
  rw [← this]
  refine integral_congr_ae (Eventually.of_forall fun w => ?_)
  simp only [quad_realify_inv hS, qf_cplx]
  have : df + 2 * (star (zOf w) ⬝ᵥ S⁻¹ *ᵥ zOf w).re =
    2 * (df / 2 + (star (zOf w) ⬝ᵥ S⁻¹ *ᵥ zOf w).re) := by ring
  rw [this, mul_div_mul_left _ _ two_ne_zero]

theorem cplxT_prob {df : ℝ} (hdf : 0 < df) {S : Matrix (Fin p) (Fin p) ℂ} (hS : S.PosDef) :
    IsProbabilityMeasure (lawOf fun x => Real.exp (ctLogDensity df 0 S x)) := by
  refine prob_of_real ?_
  rw [exp_ct_zOf hdf 0 hS]
  exact ell_prob (gT_mass hdf _) ((realify_posDef S).2 hS)

theorem realT_prob {df : ℝ} (hdf : 0 < df) {S : Matrix (Fin p) (Fin p) ℝ} (hS : S.PosDef) :
    IsProbabilityMeasure (lawOf fun x => Real.exp (tLogDensity df 0 S x)) := by
  rw [realT_law hdf hS]
  exact ell_prob (gT_mass hdf _) hS

end
end RS
