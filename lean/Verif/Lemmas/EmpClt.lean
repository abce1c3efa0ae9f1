import Verif.Props.EmpConsist
import Verif.Lemmas.Fisher
import Verif.Lemmas.HuberHeavy
import Mathlib.Probability.CentralLimitTheorem

/-! Averages of independent samples: mean squared error and central limit theorem. -/
set_option autoImplicit false

namespace RS
open Matrix ComplexOrder Filter Topology MeasureTheory ProbabilityTheory

section
set_option linter.unusedSectionVars false
variable {𝕜 : Type} [RCLike 𝕜] [MeasurableSpace 𝕜] {p : ℕ} {Ω : Type*} [MeasurableSpace Ω]
  {P : Measure Ω} [IsProbabilityMeasure P] {x : ℕ → Ω → Fin p → 𝕜} {μ : Measure (Fin p → 𝕜)}
  [IsProbabilityMeasure μ]

/-! ## A real function of the samples -/

theorem IIDSamples.identD (h : IIDSamples P x μ) (i : ℕ) {f : (Fin p → 𝕜) → ℝ} (hf : Measurable f) :
    IdentDistrib (fun ω => f (x i ω)) f P μ :=
  (show IdentDistrib (x i) id P μ from ⟨(h.meas i).aemeasurable, aemeasurable_id, by
    rw [h.law i, Measure.map_id]⟩).comp hf

theorem IIDSamples.memLp (h : IIDSamples P x μ) (i : ℕ) {f : (Fin p → 𝕜) → ℝ} (hf : Measurable f)
    (h2 : MemLp f 2 μ) : MemLp (fun ω => f (x i ω)) 2 P :=
  (h.identD i hf).memLp_iff.2 h2

theorem IIDSamples.real_mse (h : IIDSamples P x μ) {f : (Fin p → 𝕜) → ℝ} (hf : Measurable f)
    (h2 : MemLp f 2 μ) {N : ℕ} (hN : 0 < N) :
    Integrable (fun ω => ((N : ℝ)⁻¹ * ∑ i : Fin N, f (x i ω) - ∫ z, f z ∂μ) ^ 2) P ∧
    ∫ ω, ((N : ℝ)⁻¹ * ∑ i : Fin N, f (x i ω) - ∫ z, f z ∂μ) ^ 2 ∂P =
      (∫ z, f z ^ 2 ∂μ - (∫ z, f z ∂μ) ^ 2) / N := by
  have hN0 : (N : ℝ) ≠ 0 := by exact_mod_cast hN.ne'
  have hm : ∀ i : Fin N, MemLp (fun ω => f (x i ω)) 2 P := fun i => h.memLp i hf h2
  have hs : MemLp (∑ i : Fin N, fun ω => f (x i ω)) 2 P := memLp_finsetSum' _ fun i _ => hm i
  have hs' : MemLp (fun ω => (N : ℝ)⁻¹ * (∑ i : Fin N, fun ω => f (x i ω)) ω) 2 P := hs.const_mul _
  have hi : ∀ i : Fin N, Integrable (fun ω => f (x i ω)) P := fun i =>
    (hm i).integrable (by norm_num)
  have hE : ∫ ω, (N : ℝ)⁻¹ * (∑ i : Fin N, fun ω => f (x i ω)) ω ∂P = ∫ z, f z ∂μ := by
    rw [integral_const_mul]
    simp only [Finset.sum_apply]
    rw [integral_finsetSum _ fun i _ => hi i]
    have : ∀ i : Fin N, ∫ ω, f (x i ω) ∂P = ∫ z, f z ∂μ := fun i => (h.identD i hf).integral_eq
    simp only [this, Finset.sum_const, Finset.card_univ, Fintype.card_fin, nsmul_eq_mul]
    field_simp
  have hv : Var[fun ω => (N : ℝ)⁻¹ * (∑ i : Fin N, fun ω => f (x i ω)) ω; P] =
      (∫ z, f z ^ 2 ∂μ - (∫ z, f z ∂μ) ^ 2) / N := by
    rw [variance_const_mul, IndepFun.variance_sum (fun i _ => hm i) (fun i _ j _ hij =>
      (h.indep.indepFun (fun e => hij (Fin.ext e))).comp hf hf)]
    have : ∀ i : Fin N, Var[fun ω => f (x i ω); P] = Var[f; μ] := fun i =>
      (h.identD i hf).variance_eq
    simp only [this, Finset.sum_const, Finset.card_univ, Fintype.card_fin, nsmul_eq_mul]
    rw [variance_eq_sub h2]
    simp only [Pi.pow_apply]
    field_simp
  rw [variance_eq_integral hs'.aestronglyMeasurable.aemeasurable, hE] at hv
  simp only [Finset.sum_apply] at hv hs'
  refine ⟨?_, hv⟩
  exact (hs'.sub (memLp_const _)).integrable_sq

/-- The central limit theorem for an average. -/
theorem IIDSamples.clt (h : IIDSamples P x μ) {f : (Fin p → 𝕜) → ℝ} (hf : Measurable f)
    (h2 : MemLp f 2 μ) :
    TendstoInDistribution (fun (N : ℕ) ω => √N * ((N : ℝ)⁻¹ * ∑ i : Fin N, f (x i ω) - ∫ z, f z ∂μ))
      atTop id (fun _ => P) (gaussianReal 0 Var[f; μ].toNNReal) := by
  have hY : HasLaw id (gaussianReal 0 Var[fun ω => f (x 0 ω); P].toNNReal)
      (gaussianReal 0 Var[f; μ].toNNReal) := by
    rw [(h.identD 0 hf).variance_eq]
    exact ⟨aemeasurable_id, Measure.map_id⟩
  have hc := tendstoInDistribution_inv_sqrt_mul_sum_sub (P := P) (X := fun i ω => f (x i ω)) hY
    (h.memLp 0 hf h2) (h.indep.comp _ fun _ => hf)
    (fun i => (h.identD i hf).trans (h.identD 0 hf).symm)
  refine hc.congr (fun N => Eventually.of_forall fun ω => ?_) (Eventually.of_forall fun _ => rfl)
  simp only [(h.identD 0 hf).integral_eq]
  rcases Nat.eq_zero_or_pos N with rfl | hN
  · simp
  · have hN' : (0 : ℝ) < N := by exact_mod_cast hN
    have hsq : √(N : ℝ) * √(N : ℝ) = N := Real.mul_self_sqrt hN'.le
    have hs0 : √(N : ℝ) ≠ 0 := (Real.sqrt_pos.2 hN').ne'
    rw [Finset.sum_range]
    have this : (N : ℝ)⁻¹ = (√(N : ℝ))⁻¹ * (√(N : ℝ))⁻¹ := by rw [← mul_inv, hsq]
    have key : ∀ s A E : ℝ, s ≠ 0 → s⁻¹ * (A - s * s * E) = s * (s⁻¹ * s⁻¹ * A - E) :=
      fun s A E hs => by field_simp
    have k := key (√(N : ℝ)) (∑ i : Fin N, f (x i ω)) (∫ z, f z ∂μ) hs0
    rwa [hsq, ← this] at k

end

section
set_option linter.unusedSectionVars false
variable {p : ℕ} {Ω : Type*} [MeasurableSpace Ω] {P : Measure Ω} [IsProbabilityMeasure P]
  {x : ℕ → Ω → Fin p → ℂ} {μ : Measure (Fin p → ℂ)} [IsProbabilityMeasure μ]

/-- The mean squared error of an average of complex values. -/
theorem IIDSamples.cplx_mse (h : IIDSamples P x μ) {f : (Fin p → ℂ) → ℂ} (hf : Measurable f)
    (h2 : Integrable (fun z => ‖f z‖ ^ 2) μ) {N : ℕ} (hN : 0 < N) :
    Integrable (fun ω => ‖(N : ℂ)⁻¹ * ∑ i : Fin N, f (x i ω) - ∫ z, f z ∂μ‖ ^ 2) P ∧
    ∫ ω, ‖(N : ℂ)⁻¹ * ∑ i : Fin N, f (x i ω) - ∫ z, f z ∂μ‖ ^ 2 ∂P =
      (∫ z, ‖f z‖ ^ 2 ∂μ - ‖∫ z, f z ∂μ‖ ^ 2) / N := by
  have e : ∀ z : ℂ, ‖z‖ ^ 2 = z.re ^ 2 + z.im ^ 2 := fun z => by
    rw [Complex.sq_norm, Complex.normSq_apply]; ring
  have hre : Measurable fun z => (f z).re := Complex.measurable_re.comp hf
  have him : Measurable fun z => (f z).im := Complex.measurable_im.comp hf
  have mr : MemLp (fun z => (f z).re) 2 μ := by
    rw [memLp_two_iff_integrable_sq hre.aestronglyMeasurable]
    refine h2.mono' (hre.pow_const 2).aestronglyMeasurable (Eventually.of_forall fun z => ?_)
    rw [Real.norm_of_nonneg (sq_nonneg _), e]
    exact le_add_of_nonneg_right (sq_nonneg _)
  have mi : MemLp (fun z => (f z).im) 2 μ := by
    rw [memLp_two_iff_integrable_sq him.aestronglyMeasurable]
    refine h2.mono' (him.pow_const 2).aestronglyMeasurable (Eventually.of_forall fun z => ?_)
    rw [Real.norm_of_nonneg (sq_nonneg _), e]
    exact le_add_of_nonneg_left (sq_nonneg _)
  have hfi : Integrable f μ := by
    refine ⟨hf.aestronglyMeasurable, ?_⟩
    have h1 : Integrable (fun z => ((f z).re : ℂ) + (f z).im * Complex.I) μ :=
      ((mr.integrable (by norm_num)).ofReal).add (((mi.integrable (by norm_num)).ofReal).mul_const _)
    simp only [Complex.re_add_im] at h1
    exact h1.2
  have r1 : (∫ z, f z ∂μ).re = ∫ z, (f z).re ∂μ := (integral_re hfi).symm
  have r2 : (∫ z, f z ∂μ).im = ∫ z, (f z).im ∂μ := (integral_im hfi).symm
  obtain ⟨a1, a2⟩ := h.real_mse hre mr hN
  obtain ⟨b1, b2⟩ := h.real_mse him mi hN
  have hc : ∀ w : ℂ, ((N : ℂ)⁻¹ * w).re = (N : ℝ)⁻¹ * w.re ∧ ((N : ℂ)⁻¹ * w).im = (N : ℝ)⁻¹ * w.im :=
    fun w => by
      have : (N : ℂ)⁻¹ = (((N : ℝ)⁻¹ : ℝ) : ℂ) := by push_cast; rfl
      rw [this, Complex.re_ofReal_mul, Complex.im_ofReal_mul]
      exact ⟨rfl, rfl⟩
  have hE : ∀ ω, ‖(N : ℂ)⁻¹ * ∑ i : Fin N, f (x i ω) - ∫ z, f z ∂μ‖ ^ 2 =
      ((N : ℝ)⁻¹ * ∑ i : Fin N, (f (x i ω)).re - ∫ z, (f z).re ∂μ) ^ 2 +
      ((N : ℝ)⁻¹ * ∑ i : Fin N, (f (x i ω)).im - ∫ z, (f z).im ∂μ) ^ 2 := fun ω => by
    rw [e, Complex.sub_re, Complex.sub_im, (hc _).1, (hc _).2, Complex.re_sum, Complex.im_sum, r1, r2]
  simp only [hE]
  refine ⟨a1.add b1, ?_⟩
  rw [integral_add a1 b1, a2, b2]
  simp only [e (f _)]
  rw [integral_add mr.integrable_sq mi.integrable_sq, e, r1, r2]
  ring

/-! ## The outerC product of a sample -/

/-- A real linear function of a matrix. -/
noncomputable def trForm (H A : Matrix (Fin p) (Fin p) ℂ) : ℝ := (Hᴴ * A).trace.re

theorem trForm_apply (H A : Matrix (Fin p) (Fin p) ℂ) :
    trForm H A = ∑ a, ∑ b, (star (H b a) * A b a).re := by
  simp only [trForm, trace, diag, mul_apply, conjTranspose_apply, Complex.re_sum]

theorem trForm_sub (H A B : Matrix (Fin p) (Fin p) ℂ) : trForm H (A - B) = trForm H A - trForm H B := by
  rw [trForm, trForm, trForm, Matrix.mul_sub, trace_sub, Complex.sub_re]

theorem trForm_smul (H A : Matrix (Fin p) (Fin p) ℂ) (c : ℝ) :
    trForm H ((c : ℂ) • A) = c * trForm H A := by
  rw [trForm, trForm, Matrix.mul_smul, trace_smul, smul_eq_mul, Complex.re_ofReal_mul]

theorem trForm_sum {ι : Type*} (s : Finset ι) (H : Matrix (Fin p) (Fin p) ℂ)
    (A : ι → Matrix (Fin p) (Fin p) ℂ) : trForm H (∑ i ∈ s, A i) = ∑ i ∈ s, trForm H (A i) := by
  simp only [trForm, Matrix.mul_sum, trace_sum, Complex.re_sum]

/-- `z z^H` -/
noncomputable def outerC (z : Fin p → ℂ) : Matrix (Fin p) (Fin p) ℂ := vecMulVec z (star z)

theorem outer_apply (z : Fin p → ℂ) (a b : Fin p) : outerC z a b = z a * star (z b) := rfl

theorem trForm_outer_le (H : Matrix (Fin p) (Fin p) ℂ) : ∃ K : ℝ, 0 ≤ K ∧
    ∀ z, |trForm H (outerC z)| ≤ K * sqn z := by
  refine ⟨∑ a, ∑ b, ‖H b a‖, by positivity, fun z => ?_⟩
  rw [trForm_apply, Finset.sum_mul]
  refine (Finset.abs_sum_le_sum_abs _ _).trans (Finset.sum_le_sum fun a _ => ?_)
  rw [Finset.sum_mul]
  refine (Finset.abs_sum_le_sum_abs _ _).trans (Finset.sum_le_sum fun b _ => ?_)
  refine (Complex.abs_re_le_norm _).trans ?_
  rw [norm_mul, norm_star, outer_apply, norm_mul, norm_star]
  refine mul_le_mul_of_nonneg_left ?_ (norm_nonneg _)
  nlinarith [coord_le_sqn z a, coord_le_sqn z b, sq_nonneg (‖z a‖ - ‖z b‖)]

theorem trForm_outer_measurable (H : Matrix (Fin p) (Fin p) ℂ) (c : Fin p → ℂ) :
    Measurable fun z => trForm H (outerC (z - c)) := by
  refine Continuous.measurable ?_
  simp only [trForm_apply, outer_apply, Pi.sub_apply]
  fun_prop

theorem sqn_sub_le (z c : Fin p → ℂ) : sqn (z - c) ≤ 2 * sqn z + 2 * sqn c := by
  simp only [sqn, Pi.sub_apply, Finset.mul_sum, ← Finset.sum_add_distrib]
  refine Finset.sum_le_sum fun j _ => ?_
  have := norm_sub_le (z j) (c j)
  nlinarith [norm_nonneg (z j - c j), norm_nonneg (z j), norm_nonneg (c j), sq_nonneg (‖z j‖ - ‖c j‖)]

theorem FourthMoment.shift (h : FourthMoment μ) (c : Fin p → ℂ) :
    Integrable (fun z => sqn (z - c) ^ 2) μ := by
  have h1 : Integrable (fun z => sqn z ^ 2) μ := h
  have hm : Measurable fun z : Fin p → ℂ => sqn (z - c) ^ 2 := by
    refine (sqn_measurable.comp ?_).pow_const 2
    fun_prop
  refine ((h1.const_mul 8).add (integrable_const (8 * sqn c ^ 2))).mono' hm.aestronglyMeasurable
    (Eventually.of_forall fun z => ?_)
  rw [Real.norm_of_nonneg (sq_nonneg _)]
  simp only [Pi.add_apply]
  nlinarith [sqn_sub_le z c, sqn_nonneg (z - c), sqn_nonneg z, sqn_nonneg c,
    sq_nonneg (sqn z - sqn c)]

theorem trForm_memLp (h : FourthMoment μ) (H : Matrix (Fin p) (Fin p) ℂ) (c : Fin p → ℂ) :
    MemLp (fun z => trForm H (outerC (z - c))) 2 μ := by
  have hm := trForm_outer_measurable H c
  rw [memLp_two_iff_integrable_sq hm.aestronglyMeasurable]
  obtain ⟨K, hK, hb⟩ := trForm_outer_le H
  refine ((h.shift c).const_mul (K ^ 2)).mono' (hm.pow_const 2).aestronglyMeasurable
    (Eventually.of_forall fun z => ?_)
  rw [Real.norm_of_nonneg (sq_nonneg _), ← mul_pow, ← sq_abs]
  exact pow_le_pow_left₀ (abs_nonneg _) (hb _) 2

/-- The mean of a linear function of the outerC product. -/
theorem trForm_mean {c : Fin p → ℂ} {T : Matrix (Fin p) (Fin p) ℂ}
    (hT : ∀ a b, Integrable (fun z => outerC (z - c) a b) μ ∧ ∫ z, outerC (z - c) a b ∂μ = T a b)
    (H : Matrix (Fin p) (Fin p) ℂ) : ∫ z, trForm H (outerC (z - c)) ∂μ = trForm H T := by
  simp only [trForm_apply]
  have hi : ∀ a b, Integrable (fun z => star (H b a) * outerC (z - c) b a) μ := fun a b =>
    (hT b a).1.const_mul _
  have hr : ∀ a b, Integrable (fun z => (star (H b a) * outerC (z - c) b a).re) μ := fun a b =>
    (hi a b).re
  rw [integral_finsetSum _ fun a _ => integrable_finsetSum _ fun b _ => hr a b]
  refine Finset.sum_congr rfl fun a _ => ?_
  rw [integral_finsetSum _ fun b _ => hr a b]
  refine Finset.sum_congr rfl fun b _ => ?_
  have := integral_re (hi a b)
  refine this.trans ?_
  rw [integral_const_mul, (hT b a).2]
  rfl

/-! ## The empirical covariance -/

theorem dotCov_outer {N : ℕ} (X : Matrix (Fin N) (Fin p) ℂ) :
    dotCov X = (((N : ℝ)⁻¹ : ℝ) : ℂ) • ∑ i, outerC (X i) := by
  ext a b
  rw [dotCov_apply, Matrix.smul_apply, Matrix.sum_apply, smul_eq_mul]
  push_cast
  rfl

theorem npCov_outer {N : ℕ} (hN : 0 < N) (X : Matrix (Fin N) (Fin p) ℂ) (m : Fin p → ℂ) :
    npCov X = (((N : ℝ)⁻¹ : ℝ) : ℂ) • ∑ i, outerC (X i - m) -
      outerC (fun a => (N : ℂ)⁻¹ * ∑ i, (X i a - m a)) := by
  ext a b
  rw [npCov_apply hN X m, Matrix.sub_apply, Matrix.smul_apply, Matrix.sum_apply, smul_eq_mul]
  push_cast
  rfl

variable {m : Fin p → ℂ} {S : Matrix (Fin p) (Fin p) ℂ}

theorem IIDSamples.mean_error_measurable (h : IIDSamples P x μ) (m : Fin p → ℂ)
    (H : Matrix (Fin p) (Fin p) ℂ) (N : ℕ) : Measurable fun ω => √(N : ℝ) * trForm H (outerC fun a =>
      (N : ℂ)⁻¹ * ∑ i : Fin N, (x i ω a - m a)) := by
  have hx : ∀ (i : ℕ) (a : Fin p), Measurable fun ω => x i ω a := fun i a =>
    (measurable_pi_apply a).comp (h.meas i)
  have hum : Measurable fun ω => fun a => (N : ℂ)⁻¹ * ∑ i : Fin N, (x i ω a - m a) :=
    measurable_pi_lambda _ fun a => (Finset.measurable_fun_sum (Finset.univ : Finset (Fin N)) fun i _ =>
      (hx (i : ℕ) a).sub_const _).const_mul _
  have h1 := (trForm_outer_measurable H 0).comp hum
  simp only [Function.comp_def, sub_zero] at h1
  exact h1.const_mul _

/-- The error of the mean, at the rate of the central limit theorem, does not matter. -/
theorem IIDSamples.mean_error (h : IIDSamples P x μ) (hM : MeanCov μ m S)
    (H : Matrix (Fin p) (Fin p) ℂ) :
    TendstoInMeasure P (fun (N : ℕ) ω => √N * trForm H (outerC fun a =>
      (N : ℂ)⁻¹ * ∑ i : Fin N, (x i ω a - m a))) atTop 0 := by
  obtain ⟨K, hK, hb⟩ := trForm_outer_le H
  have hfm : ∀ a, Measurable fun z : Fin p → ℂ => z a - m a := fun a =>
    (measurable_pi_apply a).sub_const _
  have hrm := h.mean_error_measurable m H
  have h2 : ∀ a, Integrable (fun z : Fin p → ℂ => ‖z a - m a‖ ^ 2) μ := fun a => by
    refine ((hM.cov a a).1.norm).congr (Eventually.of_forall fun z => ?_)
    simp only [norm_mul, norm_star, sq]
  set V : ℝ := ∑ a, ∫ z, ‖z a - m a‖ ^ 2 ∂μ with hV
  have hmse : ∀ N : ℕ, 0 < N → Integrable (fun ω => sqn fun a =>
      (N : ℂ)⁻¹ * ∑ i : Fin N, (x i ω a - m a)) P ∧ ∫ ω, sqn (fun a =>
      (N : ℂ)⁻¹ * ∑ i : Fin N, (x i ω a - m a)) ∂P = V / N := fun N hN => by
    have h3 := fun a => h.cplx_mse (hfm a) (h2 a) hN
    simp only [(hM.centred _).2, sub_zero, norm_zero] at h3
    unfold sqn
    refine ⟨integrable_finsetSum _ fun a _ => (h3 a).1, ?_⟩
    rw [integral_finsetSum _ fun a _ => (h3 a).1, hV, Finset.sum_div]
    refine Finset.sum_congr rfl fun a _ => ?_
    rw [(h3 a).2]
    ring
  have hV0 : 0 ≤ V := Finset.sum_nonneg fun a _ => integral_nonneg fun z => sq_nonneg _
  refine tendstoInMeasure_of_tendsto_eLpNorm one_ne_zero (fun N => (hrm N).aestronglyMeasurable)
    aestronglyMeasurable_const ?_
  have hlim : Tendsto (fun N : ℕ => ENNReal.ofReal (K * V * (√(N : ℝ))⁻¹)) atTop (𝓝 0) := by
    have h5 : Tendsto (fun N : ℕ => K * V * (√(N : ℝ))⁻¹) atTop (𝓝 (K * V * 0)) :=
      (tendsto_inv_atTop_zero.comp (Real.tendsto_sqrt_atTop.comp tendsto_natCast_atTop_atTop)).const_mul _
    rw [mul_zero] at h5
    have h6 := ENNReal.tendsto_ofReal h5
    rwa [ENNReal.ofReal_zero] at h6
  refine tendsto_of_tendsto_of_tendsto_of_le_of_le' tendsto_const_nhds hlim
    (Eventually.of_forall fun _ => zero_le) ?_
  filter_upwards [eventually_gt_atTop 0] with N hN
  obtain ⟨i1, i2⟩ := hmse N hN
  have hN' : (0 : ℝ) < N := by exact_mod_cast hN
  have hs := Real.sqrt_pos.2 hN'
  have hle : ∀ ω, ‖√(N : ℝ) * trForm H (outerC fun a => (N : ℂ)⁻¹ * ∑ i : Fin N, (x i ω a - m a))‖ ≤
      √(N : ℝ) * K * sqn (fun a => (N : ℂ)⁻¹ * ∑ i : Fin N, (x i ω a - m a)) := fun ω => by
    rw [norm_mul, Real.norm_of_nonneg hs.le, Real.norm_eq_abs, mul_assoc]
    exact mul_le_mul_of_nonneg_left (hb _) hs.le
  have hri : Integrable (fun ω => √(N : ℝ) * trForm H (outerC fun a =>
      (N : ℂ)⁻¹ * ∑ i : Fin N, (x i ω a - m a))) P :=
    (i1.const_mul (√(N : ℝ) * K)).mono' (hrm N).aestronglyMeasurable (Eventually.of_forall hle)
  rw [sub_zero, eLpNorm_one_eq_lintegral_enorm, ← ofReal_integral_norm_eq_lintegral_enorm hri]
  refine ENNReal.ofReal_le_ofReal ?_
  refine (integral_mono hri.norm (i1.const_mul (√(N : ℝ) * K)) hle).trans ?_
  rw [integral_const_mul, i2]
  refine le_of_eq ?_
  have hsq : √(N : ℝ) * √(N : ℝ) = N := Real.mul_self_sqrt hN'.le
  have key : ∀ s : ℝ, s ≠ 0 → s * K * (V / (s * s)) = K * V * s⁻¹ := fun s hs => by field_simp
  have := key _ hs.ne'
  rwa [hsq] at this

theorem MeanCov.outer_centred (hM : MeanCov μ m S) (a b : Fin p) :
    Integrable (fun z => outerC (z - m) a b) μ ∧ ∫ z, outerC (z - m) a b ∂μ = S a b := hM.cov a b

theorem MeanCov.outer_raw (hM : MeanCov μ m S) (a b : Fin p) :
    Integrable (fun z => outerC (z - 0) a b) μ ∧
      ∫ z, outerC (z - 0) a b ∂μ = (S + vecMulVec m (star m)) a b := by
  simp only [sub_zero]
  exact hM.raw a b

/-- The central limit theorem for the empirical covariance. -/
theorem emp_clt (h : IIDSamples P x μ) (hM : MeanCov μ m S) (h4 : FourthMoment μ) (centered : Bool)
    (H : Matrix (Fin p) (Fin p) ℂ) :
    TendstoInDistribution (fun (N : ℕ) ω => √N *
        trForm H (complexEmpiricalCovariance (firstSamples x ω N) centered -
          if centered then S + vecMulVec m (star m) else S)) atTop id (fun _ => P)
      (gaussianReal 0
        Var[fun z => trForm H (outerC (z - if centered then 0 else m)); μ].toNNReal) := by
  cases centered with
  | true =>
    simp only [if_true, complexEmpiricalCovariance]
    have h1 := h.clt (trForm_outer_measurable H 0) (trForm_memLp h4 H 0)
    refine h1.congr (fun N => Eventually.of_forall fun ω => ?_) (Eventually.of_forall fun _ => rfl)
    rw [trForm_mean hM.outer_raw H]
    simp only [dotCov_outer, trForm_sub, trForm_smul, trForm_sum, sub_zero]
    rfl
  | false =>
    simp only [Bool.false_eq_true, if_false, complexEmpiricalCovariance]
    have h1 := h.clt (trForm_outer_measurable H m) (trForm_memLp h4 H m)
    have e : ∀ (N : ℕ) ω, √(N : ℝ) * trForm H (npCov (firstSamples x ω N) - S) =
        √(N : ℝ) * ((N : ℝ)⁻¹ * ∑ i : Fin N, trForm H (outerC (x i ω - m)) -
          ∫ z, trForm H (outerC (z - m)) ∂μ) - √(N : ℝ) * trForm H (outerC fun a =>
            (N : ℂ)⁻¹ * ∑ i : Fin N, (x i ω a - m a)) := fun N ω => by
      rcases Nat.eq_zero_or_pos N with rfl | hN
      · simp
      · rw [npCov_outer hN _ m, trForm_sub, trForm_sub, trForm_smul, trForm_sum,
          trForm_mean hM.outer_centred H]
        simp only [firstSamples, of_apply]
        change _ * ((N : ℝ)⁻¹ * (∑ i : Fin N, trForm H (outerC (x i ω - m))) - _ - _) = _
        ring
    have h2 := h.mean_error hM H
    have h3 : TendstoInMeasure P ((fun (N : ℕ) ω => √(N : ℝ) *
        trForm H (npCov (firstSamples x ω N) - S)) - fun (N : ℕ) ω => √(N : ℝ) *
          ((N : ℝ)⁻¹ * ∑ i : Fin N, trForm H (outerC (x i ω - m)) - ∫ z, trForm H (outerC (z - m)) ∂μ))
        atTop 0 := by
      rw [tendstoInMeasure_iff_norm] at h2 ⊢
      intro ε hε
      refine (h2 ε hε).congr fun N => ?_
      congr 1
      ext ω
      simp only [Pi.sub_apply, Pi.zero_apply, sub_zero, e, Set.mem_ofPred_eq, sub_sub_cancel_left,
        norm_neg]
    refine tendstoInDistribution_of_tendstoInMeasure_sub _ _ h1 h3 fun N => ?_
    simp only [e]
    exact (h1.forall_aemeasurable N).sub (h.mean_error_measurable m H N).aemeasurable

end
end RS
