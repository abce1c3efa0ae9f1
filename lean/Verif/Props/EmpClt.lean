import Verif.Lemmas.EmpClt

/-
How far the empirical covariance of complex data is from its limit (C172).
-/
set_option autoImplicit false

namespace RS
open Matrix ComplexOrder Filter Topology MeasureTheory ProbabilityTheory

section
variable {p : ℕ} {Ω : Type*} [MeasurableSpace Ω] {P : Measure Ω} [IsProbabilityMeasure P]
  {x : ℕ → Ω → Fin p → ℂ} {μ : Measure (Fin p → ℂ)} {m : Fin p → ℂ}
  {S : Matrix (Fin p) (Fin p) ℂ}

theorem emp_fit {N : ℕ} (hN : 0 < N) (hp : 0 < p) (X : Matrix (Fin N) (Fin p) ℂ) (centered : Bool) :
    ∃ loc, complexEmpCovFit (.cplx (.d2 N p X)) centered =
      .ok ⟨⟨p, loc⟩, .cplx (.d2 p p (complexEmpiricalCovariance X centered))⟩ := by
  have hN0 : (N : ℂ) ≠ 0 := by exact_mod_cast hN.ne'
  obtain ⟨loc, C, b1, b2, b3⟩ := C27_complex_data N p hN hp X centered
  refine ⟨loc, ?_⟩
  rw [b1]
  have hC : C = complexEmpiricalCovariance X centered := by
    ext a b
    have c1 := b3 a b
    rw [← C25_is_covariance hN X centered loc b2 a b] at c1
    exact mul_left_cancel₀ hN0 c1
  rw [hC]

/-- The mean squared error with `assume_centered`: `(E‖x‖⁴ - ‖E x x^H‖²) / N`. -/
theorem C172_mse (h : IIDSamples P x μ) (hM : MeanCov μ m S) (h4 : FourthMoment μ) (hp : 0 < p)
    (N : ℕ) (hN : 0 < N) :
    ∃ C : Ω → Matrix (Fin p) (Fin p) ℂ,
      (∀ ω, ∃ loc, complexEmpCovFit (.cplx (.d2 N p (firstSamples x ω N))) true =
        .ok ⟨⟨p, loc⟩, .cplx (.d2 p p (C ω))⟩) ∧
      Integrable (fun ω => frobDist (C ω) (S + vecMulVec m (star m)) ^ 2) P ∧
      ∫ ω, frobDist (C ω) (S + vecMulVec m (star m)) ^ 2 ∂P =
        (∫ z, (∑ j, ‖z j‖ ^ 2) ^ 2 ∂μ - frobDist (S + vecMulVec m (star m)) 0 ^ 2) / N := by
  have := h.prob
  refine ⟨fun ω => complexEmpiricalCovariance (firstSamples x ω N) true,
    fun ω => emp_fit hN hp _ true, ?_⟩
  have hfs : ∀ A : Matrix (Fin p) (Fin p) ℂ, frob A ^ 2 = ∑ a, ∑ b, ‖A a b‖ ^ 2 := fun A =>
    Real.sq_sqrt (Finset.sum_nonneg fun i _ => Finset.sum_nonneg fun j _ => sq_nonneg _)
  have e4 : ∀ z : Fin p → ℂ, (∑ j, ‖z j‖ ^ 2) ^ 2 = ∑ a, ∑ b, ‖z a * star (z b)‖ ^ 2 := fun z => by
    rw [sq, Finset.sum_mul_sum]
    simp only [norm_mul, norm_star, mul_pow]
  have hi : ∀ a b, Integrable (fun z : Fin p → ℂ => ‖z a * star (z b)‖ ^ 2) μ := fun a b => by
    refine h4.mono' ((raw_measurable a b).norm.pow_const 2).aestronglyMeasurable
      (Eventually.of_forall fun z => ?_)
    rw [Real.norm_of_nonneg (sq_nonneg _), e4]
    exact (Finset.single_le_sum (f := fun b => ‖z a * star (z b)‖ ^ 2) (fun _ _ => sq_nonneg _)
      (Finset.mem_univ b)).trans (Finset.single_le_sum (f := fun a => ∑ b, ‖z a * star (z b)‖ ^ 2)
        (fun _ _ => Finset.sum_nonneg fun _ _ => sq_nonneg _) (Finset.mem_univ a))
  have hm := fun a b => h.cplx_mse (raw_measurable a b) (hi a b) hN
  simp only [(hM.raw _ _).2] at hm
  have eC : ∀ ω, frobDist (complexEmpiricalCovariance (firstSamples x ω N) true)
      (S + vecMulVec m (star m)) ^ 2 = ∑ a, ∑ b, ‖(N : ℂ)⁻¹ * ∑ i : Fin N, x i ω a * star (x i ω b) -
        (S a b + m a * star (m b))‖ ^ 2 := fun ω => by
    rw [frobDist_eq, hfs]
    simp only [complexEmpiricalCovariance, if_true, Matrix.sub_apply, dotCov_apply]
    rfl
  simp only [eC]
  refine ⟨integrable_finsetSum _ fun a _ => integrable_finsetSum _ fun b _ => (hm a b).1, ?_⟩
  rw [integral_finsetSum _ fun a _ => integrable_finsetSum _ fun b _ => (hm a b).1, frobDist_eq,
    sub_zero, hfs]
  simp only [e4]
  rw [integral_finsetSum _ fun a _ => integrable_finsetSum _ fun b _ => hi a b,
    ← Finset.sum_sub_distrib, Finset.sum_div]
  refine Finset.sum_congr rfl fun a _ => ?_
  rw [integral_finsetSum _ fun b _ => (hm a b).1, integral_finsetSum _ fun b _ => hi a b,
    ← Finset.sum_sub_distrib, Finset.sum_div]
  refine Finset.sum_congr rfl fun b _ => ?_
  rw [(hm a b).2]
  rfl

/-- `√N (C - S)` is asymptotically normal: every real linear function `Re tr(H^H ·)` of it converges in
distribution to a centred normal law whose variance is that of `Re tr(H^H (x - m)(x - m)^H)`. With
`assume_centered` the limit `S + m m^H` and the outer product `x x^H` take the place of `S` and
`(x - m)(x - m)^H`. -/
theorem C172_clt (h : IIDSamples P x μ) (hM : MeanCov μ m S) (h4 : FourthMoment μ) (hp : 0 < p)
    (centered : Bool) :
    ∃ C : ℕ → Ω → Matrix (Fin p) (Fin p) ℂ,
      (∀ N, 0 < N → ∀ ω, ∃ loc, complexEmpCovFit (.cplx (.d2 N p (firstSamples x ω N))) centered =
        .ok ⟨⟨p, loc⟩, .cplx (.d2 p p (C N ω))⟩) ∧
      ∀ H : Matrix (Fin p) (Fin p) ℂ, TendstoInDistribution
        (fun (N : ℕ) ω => √N *
          (Hᴴ * (C N ω - if centered then S + vecMulVec m (star m) else S)).trace.re)
        atTop id (fun _ => P) (gaussianReal 0 Var[fun z => (Hᴴ * vecMulVec
          (z - if centered then 0 else m) (star (z - if centered then 0 else m))).trace.re; μ].toNNReal) := by
  have := h.prob
  exact ⟨fun N ω => complexEmpiricalCovariance (firstSamples x ω N) centered,
    fun N hN ω => emp_fit hN hp _ centered, fun H => emp_clt h hM h4 centered H⟩

theorem limit_congr {X Y : ℕ → Ω → ℝ} {v w : NNReal}
    (hX : TendstoInDistribution X atTop id (fun _ => P) (gaussianReal 0 v)) (e : X = Y) (e' : v = w) :
    TendstoInDistribution Y atTop id (fun _ => P) (gaussianReal 0 w) := by
  subst e; subst e'; exact hX

theorem interval_limit {F : ℕ → Ω → ℝ} {v : NNReal} (hv : v ≠ 0)
    (hF : TendstoInDistribution (fun (N : ℕ) ω => √N * F N ω) atTop id (fun _ => P) (gaussianReal 0 v))
    (t : ℝ) :
    Tendsto (fun N : ℕ => P {ω | |F N ω| ≤ t / √N}) atTop (𝓝 (gaussianReal 0 v (Set.Icc (-t) t))) := by
  have hna := nullSingletonClass_gaussianReal (μ := 0) hv
  have h1 := ProbabilityMeasure.tendsto_measure_of_null_frontier_of_tendsto' hF.tendsto
    (E := Set.Icc (-t) t) (by
      simp only [ProbabilityMeasure.coe_mk, Measure.map_id]
      refine measure_mono_null (t := {-t, t}) ?_ ((Set.toFinite _).measure_zero _)
      rcases lt_or_ge t (-t) with h | h
      · rw [Set.Icc_eq_empty (not_le.2 h), frontier_empty]
        exact Set.empty_subset _
      · rw [frontier_Icc h])
  simp only [ProbabilityMeasure.coe_mk, Measure.map_id] at h1
  refine h1.congr' ?_
  filter_upwards [eventually_gt_atTop 0] with N hN
  have hs : 0 < √(N : ℝ) := Real.sqrt_pos.2 (by exact_mod_cast hN)
  rw [Measure.map_apply_of_aemeasurable (hF.forall_aemeasurable N) measurableSet_Icc]
  congr 1
  ext ω
  simp only [Set.mem_preimage, Set.mem_Icc, Set.mem_ofPred_eq]
  rw [le_div_iff₀ hs, ← abs_le, abs_mul, abs_of_pos hs, mul_comm]

/-- Confidence intervals: the probability that `Re tr(H^H (C - S))` is at most `t / √N` tends to the
probability of `[-t, t]` under the normal law of `C172_clt`, if that is not degenerate. -/
theorem C172_interval (h : IIDSamples P x μ) (hM : MeanCov μ m S) (h4 : FourthMoment μ) (hp : 0 < p)
    (H : Matrix (Fin p) (Fin p) ℂ) (v : NNReal) (hv : v ≠ 0)
    (hvar : Var[fun z => (Hᴴ * vecMulVec (z - m) (star (z - m))).trace.re; μ] = v) (t : ℝ) :
    ∃ C : ℕ → Ω → Matrix (Fin p) (Fin p) ℂ,
      (∀ N, 0 < N → ∀ ω, ∃ loc, complexEmpCovFit (.cplx (.d2 N p (firstSamples x ω N))) false =
        .ok ⟨⟨p, loc⟩, .cplx (.d2 p p (C N ω))⟩) ∧
      Tendsto (fun N : ℕ => P {ω | |(Hᴴ * (C N ω - S)).trace.re| ≤ t / √N}) atTop
        (𝓝 (gaussianReal 0 v (Set.Icc (-t) t))) := by
  obtain ⟨C, h1, h2⟩ := C172_clt h hM h4 hp false
  refine ⟨C, h1, interval_limit hv (limit_congr (h2 H) ?_ ?_) t⟩
  · simp only [Bool.false_eq_true, if_false]
  · simp only [Bool.false_eq_true, if_false]
    rw [hvar, Real.toNNReal_coe]

/-! ## Normal samples -/

theorem cplxN_prob (hS : S.PosDef) :
    IsProbabilityMeasure (lawOf fun z => Real.exp (cnormalLogDensity 0 S z)) := by
  apply prob_of_real
  rw [exp_cnormal_zOf 0 hS]
  exact ell_prob (gNormal_moments _).toRadialMass ((realify_posDef _).2 hS)

theorem cplxN_meanCov (hS : S.PosDef) :
    MeanCov (lawOf fun z => Real.exp (cnormalLogDensity 0 S z)) 0 S := by
  have := cplxMoments_of_real (f := fun z => Real.exp (cnormalLogDensity 0 S z)) (mu := 0)
    (c := 1) (S := S) (by
      rw [exp_cnormal_zOf 0 hS]; exact ell_moments (gNormal_moments _) ((realify_posDef _).2 hS))
  rw [Complex.ofReal_one, one_smul] at this
  exact this.meanCov

theorem cplxN_qf_sq (hp : 0 < p) (hS : S.PosDef) :
    ∫ z, qf S z ^ 2 ∂lawOf (fun z => Real.exp (cnormalLogDensity 0 S z)) = p * (p + 1) := by
  rw [(cplxN_quad hp hS (fun t => t ^ 2) (by fun_prop)).2]
  have e : ∀ t : ℝ, (t / 2) ^ 2 * chiPdf (p + p) t =
      ((p * (p + 1) : ℝ)) * chiPdf (p + p + 2 + 2) t := fun t => by
    have h1 := chiPdf_step (k := p + p) (by omega) t
    have h2 := chiPdf_step (k := p + p + 2) (by omega) t
    push_cast at h1 h2
    have : (t / 2) ^ 2 * chiPdf (p + p) t = t / 4 * (t * chiPdf (p + p) t) := by ring
    rw [this, h1, show t / 4 * (((p : ℝ) + p) * chiPdf (p + p + 2) t) =
      ((p : ℝ) + p) / 4 * (t * chiPdf (p + p + 2) t) by ring, h2]
    ring
  simp only [e]
  rw [integral_const_mul, (chiPdf_integrable (by omega)).2, mul_one]

/-- The variance of a Hermitian form of a normal vector. -/
theorem cplxN_var (hp : 0 < p) (hS : S.PosDef) {H : Matrix (Fin p) (Fin p) ℂ} (hH : H.IsHermitian) :
    ∫ z, (star z ⬝ᵥ H *ᵥ z).re ^ 2 ∂lawOf (fun z => Real.exp (cnormalLogDensity 0 S z)) =
      (H * S * (H * S)).trace.re + (H * S).trace.re ^ 2 := by
  have := cplxN_prob hS
  have hu := (isUnit_iff_isUnit_det _).1 hS.isUnit
  have i1 : S⁻¹ * S = 1 := Matrix.nonsing_inv_mul S hu
  have i2 : S * S⁻¹ = 1 := Matrix.mul_nonsing_inv S hu
  have hD : (S * H * S).IsHermitian := by
    rw [IsHermitian]
    simp only [conjTranspose_mul, hH.eq, hS.1.eq, Matrix.mul_assoc]
  obtain ⟨-, -, h3⟩ := elliptical_forms (w := fun _ => 1) hS (cplxN_elliptical hS) measurable_const hD
  have e1 : S⁻¹ * (S * H * S) * S⁻¹ = H := by
    calc S⁻¹ * (S * H * S) * S⁻¹ = (S⁻¹ * S) * H * (S * S⁻¹) := by simp only [Matrix.mul_assoc]
      _ = H := by rw [i1, i2, Matrix.one_mul, Matrix.mul_one]
  have e2 : S⁻¹ * (S * H * S) = H * S := by
    calc S⁻¹ * (S * H * S) = (S⁻¹ * S) * H * S := by simp only [Matrix.mul_assoc]
      _ = H * S := by rw [i1, Matrix.one_mul]
  rw [e1, e2] at h3
  simp only [one_mul] at h3
  have h4 := h3 ((fourth_iff hS).1 (cplxN_fourth hp hS))
  rw [cplxN_qf_sq hp hS] at h4
  have hp' : (0 : ℝ) < p := by exact_mod_cast hp
  have hpp : (p : ℝ) * (p + 1) ≠ 0 := by positivity
  rw [mul_comm _ ((p : ℝ) * (p + 1))] at h4
  exact mul_left_cancel₀ hpp h4

theorem trForm_outer_herm {H : Matrix (Fin p) (Fin p) ℂ} (hH : H.IsHermitian) (z : Fin p → ℂ) :
    (Hᴴ * vecMulVec z (star z)).trace.re = (star z ⬝ᵥ H *ᵥ z).re := by
  rw [hH.eq, mul_vecMulVec, trace_vecMulVec, dotProduct_comm]

/-- Samples of the complex normal law with mean zero and covariance `S`, with the density that `pdf`
computes. The mean squared error with `assume_centered` is `(tr S)² / N`; for Hermitian `H` the limit
law of `√N Re tr(H (C - S))` has the variance `tr(H S H S)`, whether or not the mean is estimated. -/
theorem C172_normal (hp : 0 < p) (hS : S.PosDef)
    (h : IIDSamples P x (lawOf fun z => Real.exp (cnormalLogDensity 0 S z))) :
    (∀ N, 0 < N → ∃ C : Ω → Matrix (Fin p) (Fin p) ℂ,
      (∀ ω, ∃ loc, complexEmpCovFit (.cplx (.d2 N p (firstSamples x ω N))) true =
        .ok ⟨⟨p, loc⟩, .cplx (.d2 p p (C ω))⟩) ∧
      ∫ ω, frobDist (C ω) S ^ 2 ∂P = S.trace.re ^ 2 / N) ∧
    ∀ centered : Bool, ∃ C : ℕ → Ω → Matrix (Fin p) (Fin p) ℂ,
      (∀ N, 0 < N → ∀ ω, ∃ loc, complexEmpCovFit (.cplx (.d2 N p (firstSamples x ω N))) centered =
        .ok ⟨⟨p, loc⟩, .cplx (.d2 p p (C N ω))⟩) ∧
      ∀ H : Matrix (Fin p) (Fin p) ℂ, H.IsHermitian → TendstoInDistribution
        (fun (N : ℕ) ω => √N * (H * (C N ω - S)).trace.re) atTop id (fun _ => P)
        (gaussianReal 0 (H * S * H * S).trace.re.toNNReal) := by
  have hpr := cplxN_prob hS
  have hM := cplxN_meanCov hS
  have h4 := cplxN_fourth hp hS
  constructor
  · intro N hN
    obtain ⟨C, h1, -, h2⟩ := C172_mse h hM h4 hp N hN
    have e0 : S + vecMulVec (0 : Fin p → ℂ) (star 0) = S := by simp
    rw [e0] at h2
    refine ⟨C, h1, ?_⟩
    rw [h2]
    have e1 := cplxN_var hp hS (H := 1) isHermitian_one
    have e2 : ∀ z : Fin p → ℂ, (star z ⬝ᵥ (1 : Matrix (Fin p) (Fin p) ℂ) *ᵥ z).re = ∑ j, ‖z j‖ ^ 2 :=
      fun z => by
        rw [one_mulVec]
        simp only [dotProduct, Complex.re_sum, Pi.star_apply]
        refine Finset.sum_congr rfl fun j _ => ?_
        rw [Complex.star_def, ← Complex.normSq_eq_conj_mul_self, Complex.ofReal_re, Complex.sq_norm]
    simp only [e2, Matrix.one_mul] at e1
    rw [e1, frobDist_eq, sub_zero, frob_sq, hS.1.eq]
    change ((S * S).trace.re + _ - (S * S).trace.re) / _ = _
    ring
  · intro centered
    obtain ⟨C, h1, h2⟩ := C172_clt h hM h4 hp centered
    refine ⟨C, h1, fun H hH => ?_⟩
    have e0 : (if centered then S + vecMulVec (0 : Fin p → ℂ) (star 0) else S) = S := by
      cases centered <;> simp
    have e1 : (if centered then (0 : Fin p → ℂ) else 0) = 0 := by cases centered <;> rfl
    have hfm : Measurable fun z : Fin p → ℂ => (star z ⬝ᵥ H *ᵥ z).re := by
      have := trForm_outer_measurable H 0
      simp only [sub_zero, trForm, outerC, trForm_outer_herm hH] at this
      exact this
    have hmem : MemLp (fun z : Fin p → ℂ => (star z ⬝ᵥ H *ᵥ z).re) 2
        (lawOf fun z => Real.exp (cnormalLogDensity 0 S z)) := by
      have := trForm_memLp h4 H 0
      simp only [sub_zero, trForm, outerC, trForm_outer_herm hH] at this
      exact this
    have hmean : ∫ z, (star z ⬝ᵥ H *ᵥ z).re ∂lawOf (fun z => Real.exp (cnormalLogDensity 0 S z)) =
        (H * S).trace.re := by
      have := trForm_mean (fun a b => hM.outer_centred a b) H
      simp only [sub_zero, trForm, outerC, trForm_outer_herm hH] at this
      rw [this, hH.eq]
    have hvar : Var[fun z : Fin p → ℂ => (star z ⬝ᵥ H *ᵥ z).re;
        lawOf fun z => Real.exp (cnormalLogDensity 0 S z)] = (H * S * H * S).trace.re := by
      rw [variance_eq_sub hmem]
      simp only [Pi.pow_apply]
      rw [cplxN_var hp hS hH, hmean, ← Matrix.mul_assoc]
      ring
    refine limit_congr (h2 H) ?_ ?_
    · rw [e0, hH.eq]
    · simp only [e1, sub_zero, trForm_outer_herm hH]
      rw [hvar]

/-- The hypotheses are met: there are independent samples of the complex normal law. -/
example (S : Matrix (Fin 2) (Fin 2) ℂ) (hS : S.PosDef) :
    ∃ (P : Measure (ℕ → Fin 2 → ℂ)), IsProbabilityMeasure P ∧ ∃ C : (ℕ → Fin 2 → ℂ) → Matrix (Fin 2) (Fin 2) ℂ,
      (∀ ω, ∃ loc, complexEmpCovFit (.cplx (.d2 10 2
        (firstSamples (fun i (ω : ℕ → Fin 2 → ℂ) => ω i) ω 10))) true =
        .ok ⟨⟨2, loc⟩, .cplx (.d2 2 2 (C ω))⟩) ∧
      ∫ ω, frobDist (C ω) S ^ 2 ∂P = S.trace.re ^ 2 / (10 : ℕ) := by
  have := cplxN_prob hS
  exact ⟨_, inferInstance, (C172_normal two_pos hS (iid_exists _)).1 10 (by norm_num)⟩

end
end RS
