import Mathlib.MeasureTheory.Measure.LevyConvergence
import Mathlib.Analysis.SpecialFunctions.PolarCoord
import Mathlib.Analysis.SpecialFunctions.Gaussian.FourierTransform
import Mathlib.MeasureTheory.Integral.IntegralEqImproper
import Mathlib.MeasureTheory.Function.ConvergenceInDistribution
import Mathlib.MeasureTheory.Measure.Portmanteau
import Mathlib.Probability.Distributions.Gaussian.Real
import Mathlib.LinearAlgebra.Complex.FiniteDimensional

/-! Complex limits from the limits of all real projections; the law of the squared modulus. -/
set_option autoImplicit false

namespace RS
open Filter Topology MeasureTheory ProbabilityTheory

/-- The circular complex normal law with `E|z|² = c`. -/
noncomputable def cgauss (c : ℝ) : Measure ℂ :=
  volume.withDensity fun z => ENNReal.ofReal ((Real.pi * c)⁻¹ * Real.exp (-‖z‖ ^ 2 / c))

theorem cgauss_tail {c : ℝ} (hc : 0 < c) {t : ℝ} (ht : 0 ≤ t) :
    cgauss c {z | t ≤ ‖z‖ ^ 2} = ENNReal.ofReal (Real.exp (-t / c)) := by
  have hm : MeasurableSet {z : ℂ | t ≤ ‖z‖ ^ 2} :=
    measurableSet_le measurable_const (measurable_norm.pow_const 2)
  have hpi := Real.pi_pos
  rw [cgauss, withDensity_apply _ hm, ← lintegral_indicator hm, ← Complex.lintegral_comp_polarCoord_symm]
  set G : ℝ → ENNReal := fun r => ENNReal.ofReal r *
    ({r : ℝ | t ≤ r ^ 2}.indicator (fun r => ENNReal.ofReal ((Real.pi * c)⁻¹ * Real.exp (-r ^ 2 / c))) r) with hG
  have e1 : ∀ q : ℝ × ℝ, ENNReal.ofReal q.1 • {z : ℂ | t ≤ ‖z‖ ^ 2}.indicator
      (fun z => ENNReal.ofReal ((Real.pi * c)⁻¹ * Real.exp (-‖z‖ ^ 2 / c))) (Complex.polarCoord.symm q) =
      G q.1 * 1 := fun q => by
    rw [mul_one, hG, smul_eq_mul]
    simp only [Set.indicator_apply, Set.mem_ofPred_eq, Complex.norm_polarCoord_symm, sq_abs]
  simp only [e1]
  have hset : MeasurableSet {r : ℝ | t ≤ r ^ 2} := measurableSet_le measurable_const (by fun_prop)
  have hGm : Measurable G := by
    refine ENNReal.measurable_ofReal.mul (Measurable.indicator ?_ hset)
    fun_prop
  rw [polarCoord_target, Measure.volume_eq_prod, ← Measure.prod_restrict,
    lintegral_prod_mul hGm.aemeasurable aemeasurable_const, lintegral_one, Measure.restrict_apply_univ,
    Real.volume_Ioo]
  set f : ℝ → ℝ := fun r => r * ((Real.pi * c)⁻¹ * Real.exp (-r ^ 2 / c)) with hf
  have e2 : ∫⁻ r in Set.Ioi 0, G r = ∫⁻ r in Set.Ioi √t, ENNReal.ofReal (f r) := by
    rw [← lintegral_indicator measurableSet_Ioi, ← lintegral_indicator measurableSet_Ioi]
    refine lintegral_congr_ae ?_
    have : ∀ᵐ r : ℝ, r ≠ √t := by
      rw [ae_iff]
      simp
    filter_upwards [this] with r hr
    simp only [Set.indicator_apply, Set.mem_Ioi, hG, Set.mem_ofPred_eq, hf]
    by_cases h0 : 0 < r
    · rw [if_pos h0]
      by_cases h1 : t ≤ r ^ 2
      · have : √t < r := lt_of_le_of_ne ((Real.sqrt_le_left h0.le).2 h1) hr.symm
        rw [if_pos h1, if_pos this, ENNReal.ofReal_mul h0.le]
      · have : ¬ √t < r := fun h => h1 ((Real.sqrt_le_left h0.le).1 h.le)
        rw [if_neg h1, if_neg this, mul_zero]
    · have : ¬ √t < r := fun h => h0 (lt_of_le_of_lt (Real.sqrt_nonneg t) h)
      rw [if_neg h0, if_neg this]
  set F : ℝ → ℝ := fun r => -((2 * Real.pi)⁻¹ * Real.exp (-r ^ 2 / c)) with hF
  have hd : ∀ r, HasDerivAt F (f r) r := fun r => by
    have d1 : HasDerivAt (fun r : ℝ => -r ^ 2 / c) (-(2 * r) / c) r := by
      have := ((hasDerivAt_pow 2 r).neg).div_const c
      simpa using this
    have d2 := (d1.exp.const_mul (2 * Real.pi)⁻¹).neg
    refine d2.congr_deriv ?_
    simp only [hf]
    field_simp
  have hlim : Tendsto F atTop (𝓝 0) := by
    have h1 : Tendsto (fun r : ℝ => -r ^ 2 / c) atTop atBot := by
      have : Tendsto (fun r : ℝ => r ^ 2 / c) atTop atTop := (tendsto_pow_atTop two_ne_zero).atTop_div_const hc
      refine (tendsto_neg_atTop_atBot.comp this).congr fun r => ?_
      simp [neg_div]
    have := ((Real.tendsto_exp_atBot.comp h1).const_mul (2 * Real.pi)⁻¹).neg
    simpa [hF] using this
  have hpos : ∀ r ∈ Set.Ioi √t, 0 ≤ f r := fun r hr => by
    have : 0 < r := lt_of_le_of_lt (Real.sqrt_nonneg t) hr
    simp only [hf]
    positivity
  have hint := integrableOn_Ioi_deriv_of_nonneg' (fun r _ => hd r) hpos hlim
  have hval := integral_Ioi_of_hasDerivAt_of_nonneg' (fun r _ => hd r) hpos hlim
  rw [e2, ← ofReal_integral_eq_lintegral_ofReal hint ((ae_restrict_iff' measurableSet_Ioi).2
    (Eventually.of_forall hpos)), hval, ← ENNReal.ofReal_mul]
  · congr 1
    simp only [hF, Real.sq_sqrt ht]
    field_simp
    ring
  · simp only [hF]
    have : 0 ≤ (2 * Real.pi)⁻¹ * Real.exp (-√t ^ 2 / c) := by positivity
    linarith

theorem cgauss_prob {c : ℝ} (hc : 0 < c) : IsProbabilityMeasure (cgauss c) := by
  constructor
  have := cgauss_tail hc le_rfl
  have e : {z : ℂ | (0 : ℝ) ≤ ‖z‖ ^ 2} = Set.univ := by
    ext z
    simp
  rw [e] at this
  simpa using this

theorem cgauss_charFun {c : ℝ} (hc : 0 < c) (u : ℂ) :
    charFun (cgauss c) u = Complex.exp (-(c * ‖u‖ ^ 2 / 4 : ℝ)) := by
  have hpi := Real.pi_pos
  rw [charFun_apply, cgauss, integral_withDensity_eq_integral_toReal_smul (by fun_prop) (by simp)]
  have hb : 0 < (((c⁻¹ : ℝ)) : ℂ).re := by
    rw [Complex.ofReal_re]
    exact inv_pos.2 hc
  have key := GaussianFourier.integral_cexp_neg_mul_sq_norm_add hb Complex.I u
  have e : ∀ z : ℂ, (ENNReal.ofReal ((Real.pi * c)⁻¹ * Real.exp (-‖z‖ ^ 2 / c))).toReal •
      Complex.exp (inner ℝ z u * Complex.I) =
      ((Real.pi * c : ℝ) : ℂ)⁻¹ * Complex.exp (-((c⁻¹ : ℝ) : ℂ) * ‖z‖ ^ 2 + Complex.I * (inner ℝ u z : ℝ)) := fun z => by
    rw [ENNReal.toReal_ofReal (by positivity), Complex.exp_add, real_inner_comm z u, Complex.real_smul]
    push_cast
    rw [mul_assoc]
    congr 2
    · congr 1
      field_simp
    · rw [mul_comm]
  simp only [e]
  rw [integral_const_mul, key, Complex.finrank_real_complex]
  have h2 : ((2 : ℕ) / 2 : ℂ) = 1 := by norm_num
  rw [h2, Complex.cpow_one, ← mul_assoc]
  have hc' : (c : ℂ) ≠ 0 := by exact_mod_cast hc.ne'
  have hp' : (Real.pi : ℂ) ≠ 0 := by exact_mod_cast hpi.ne'
  rw [show ((Real.pi * c : ℝ) : ℂ)⁻¹ * (Real.pi / ((c⁻¹ : ℝ) : ℂ)) = 1 by push_cast; field_simp, one_mul]
  congr 1
  rw [Complex.I_sq]
  push_cast
  field_simp

section
variable {Ω : Type*} [MeasurableSpace Ω] {P : Measure Ω} [IsProbabilityMeasure P]

/-- If all real projections `Re (ū W_N)` tend to the centred normal law with variance `c |u|² / 2`, then the
squared modulus of `W_N` tends to the exponential law with mean `c`. -/
theorem tail_of_projections {W : ℕ → Ω → ℂ} (hW : ∀ N, AEMeasurable (W N) P) {c : ℝ} (hc : 0 < c)
    (h : ∀ u : ℂ, TendstoInDistribution (fun N ω => (star u * W N ω).re) atTop id (fun _ => P)
      (gaussianReal 0 (c * ‖u‖ ^ 2 / 2).toNNReal)) {t : ℝ} (ht : 0 ≤ t) :
    Tendsto (fun N => P {ω | t ≤ ‖W N ω‖ ^ 2}) atTop (𝓝 (ENNReal.ofReal (Real.exp (-t / c)))) := by
  have hpr := cgauss_prob hc
  have hprN : ∀ N, IsProbabilityMeasure (P.map (W N)) := fun N => Measure.isProbabilityMeasure_map (hW N)
  let μs : ℕ → ProbabilityMeasure ℂ := fun N => ⟨P.map (W N), hprN N⟩
  have hlim : Tendsto μs atTop (𝓝 ⟨cgauss c, hpr⟩) := by
    refine ProbabilityMeasure.tendsto_of_tendsto_charFun fun u => ?_
    have h1 := (ProbabilityMeasure.tendsto_iff_tendsto_charFun.1 (h u).tendsto) 1
    simp only [ProbabilityMeasure.coe_mk, Measure.map_id, charFun_gaussianReal] at h1
    change Tendsto (fun N => charFun (P.map (W N)) u) atTop (𝓝 (charFun (cgauss c) u))
    rw [cgauss_charFun hc]
    have e0 : ∀ N, charFun (P.map fun ω => (star u * W N ω).re) 1 = charFun (P.map (W N)) u := fun N => by
      rw [charFun_apply, charFun_apply, integral_map ((h u).forall_aemeasurable N) (by fun_prop),
        integral_map (hW N) (by fun_prop)]
      refine integral_congr_ae (Eventually.of_forall fun ω => ?_)
      simp only
      congr 2
      rw [real_inner_comm, Complex.inner]
      simp
    refine (h1.congr e0).trans (le_of_eq ?_)
    congr 2
    rw [Real.coe_toNNReal _ (by positivity)]
    push_cast
    ring
  have hcl : MeasurableSet {z : ℂ | t ≤ ‖z‖ ^ 2} := measurableSet_le measurable_const (measurable_norm.pow_const 2)
  have hfr : cgauss c (frontier {z : ℂ | t ≤ ‖z‖ ^ 2}) = 0 := by
    have hs : frontier {z : ℂ | t ≤ ‖z‖ ^ 2} ⊆ Metric.sphere 0 √t := by
      intro z hz
      have := frontier_le_subset_eq continuous_const (continuous_norm.pow 2) hz
      simp only [Set.mem_ofPred_eq] at this
      rw [mem_sphere_zero_iff_norm, this, Pi.pow_apply, Real.sqrt_sq (norm_nonneg z)]
    refine measure_mono_null hs (withDensity_absolutelyContinuous _ _ ?_)
    exact Measure.addHaar_sphere _ _ _
  have h2 := ProbabilityMeasure.tendsto_measure_of_null_frontier_of_tendsto' hlim hfr
  change Tendsto (fun N => P.map (W N) _) atTop (𝓝 (cgauss c _)) at h2
  rw [cgauss_tail hc ht] at h2
  refine h2.congr fun N => ?_
  rw [Measure.map_apply_of_aemeasurable (hW N) hcl]
  rfl

end
end RS
