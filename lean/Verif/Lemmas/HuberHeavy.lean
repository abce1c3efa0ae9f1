import Verif.Lemmas.HuberNormal
import Mathlib.Analysis.SpecialFunctions.ImproperIntegrals

/-! Fourth moments: the t laws, and the Huber iteration when they are infinite. -/
set_option autoImplicit false

namespace RS
open Matrix ComplexOrder Filter Topology MeasureTheory ProbabilityTheory

section
set_option linter.unusedSectionVars false
variable {𝕜 : Type} [RCLike 𝕜] [MeasurableSpace 𝕜] [BorelSpace 𝕜] {p : ℕ}
variable {Ω : Type*} [MeasurableSpace Ω] {P : Measure Ω} [IsProbabilityMeasure P]
  {x : ℕ → Ω → Fin p → 𝕜} {μ : Measure (Fin p → 𝕜)}

theorem nsq_measurable : Measurable fun z : Fin p → 𝕜 => ∑ j, ‖z j‖ ^ 2 := by fun_prop

omit [MeasurableSpace 𝕜] [BorelSpace 𝕜] in
theorem nsq_nonneg (z : Fin p → 𝕜) : 0 ≤ ∑ j, ‖z j‖ ^ 2 :=
  Finset.sum_nonneg fun _ _ => sq_nonneg _

/-- The fourth moment in terms of any squared distance. -/
theorem fourth_iff {S : Matrix (Fin p) (Fin p) 𝕜} (hS : S.PosDef) :
    FourthMoment μ ↔ Integrable (fun x => qf S x ^ 2) μ := by
  obtain ⟨c, hc, h1, h2⟩ := exists_between (PosDef.one (n := Fin p) (R := 𝕜)) hS
  have hc0 : 0 < c := by linarith
  have hone : (1 : Matrix (Fin p) (Fin p) 𝕜).PosDef := PosDef.one
  have b1 : ∀ z, qf S z ≤ c * ∑ j, ‖z j‖ ^ 2 := fun z => by
    have := qf_anti (hone.smul (by exact_mod_cast inv_pos.2 hc0)) h1 z
    rwa [qf_smul hone (inv_pos.2 hc0), qf_one, div_inv_eq_mul, mul_comm] at this
  have b2 : ∀ z, ∑ j, ‖z j‖ ^ 2 ≤ c * qf S z := fun z => by
    have := qf_anti hS h2 z
    rw [qf_smul hone hc0, qf_one, div_le_iff₀ hc0] at this
    linarith
  constructor
  · intro h
    refine (h.const_mul (c ^ 2)).mono' ((continuous_qf S).measurable.pow_const 2).aestronglyMeasurable
      (Eventually.of_forall fun z => ?_)
    rw [Real.norm_of_nonneg (sq_nonneg _), ← mul_pow]
    exact pow_le_pow_left₀ (qf_nonneg hS z) (b1 z) 2
  · intro h
    refine (h.const_mul (c ^ 2)).mono' (nsq_measurable.pow_const 2).aestronglyMeasurable
      (Eventually.of_forall fun z => ?_)
    rw [Real.norm_of_nonneg (sq_nonneg _), ← mul_pow]
    exact pow_le_pow_left₀ (nsq_nonneg z) (b2 z) 2

/-- The law of large numbers with an infinite mean. -/
theorem IIDSamples.mean_infinite (h : IIDSamples P x μ) {f : (Fin p → 𝕜) → ℝ} (hf : Measurable f)
    (h0 : ∀ z, 0 ≤ f z) (hi : ¬ Integrable f μ) :
    ∀ᵐ ω ∂P, Tendsto (fun N : ℕ => (N : ℝ)⁻¹ * ∑ i : Fin N, f (x i ω)) atTop atTop := by
  have := h.prob
  have hm : ∀ M : ℕ, Measurable fun z => min (f z) M := fun M => hf.min measurable_const
  have hint : ∀ M : ℕ, Integrable (fun z => min (f z) (M : ℝ)) μ := fun M => by
    refine (integrable_const (M : ℝ)).mono' (hm M).aestronglyMeasurable
      (Eventually.of_forall fun z => ?_)
    rw [Real.norm_of_nonneg (le_min (h0 z) (Nat.cast_nonneg _))]
    exact min_le_right _ _
  have hbig : ∀ K : ℝ, ∃ M : ℕ, K < ∫ z, min (f z) (M : ℝ) ∂μ := by
    by_contra hcon
    push Not at hcon
    obtain ⟨K, hK⟩ := hcon
    refine hi ⟨hf.aestronglyMeasurable, ?_⟩
    rw [hasFiniteIntegral_iff_ofReal (Eventually.of_forall h0)]
    have hlim : Tendsto (fun M : ℕ => ∫⁻ z, ENNReal.ofReal (min (f z) M) ∂μ) atTop
        (𝓝 (∫⁻ z, ENNReal.ofReal (f z) ∂μ)) := by
      refine lintegral_tendsto_of_tendsto_of_monotone
        (fun M => (hm M).ennreal_ofReal.aemeasurable) ?_ ?_
      · refine Eventually.of_forall fun z M M' hMM' => ENNReal.ofReal_le_ofReal ?_
        exact min_le_min le_rfl (by exact_mod_cast hMM')
      · refine Eventually.of_forall fun z => tendsto_const_nhds.congr' ?_
        obtain ⟨M₀, hM₀⟩ := exists_nat_ge (f z)
        filter_upwards [eventually_ge_atTop M₀] with M hM
        rw [min_eq_left (hM₀.trans (by exact_mod_cast hM))]
    refine lt_of_le_of_lt (le_of_tendsto' hlim fun M => ?_) (ENNReal.ofReal_lt_top (r := K))
    rw [← ofReal_integral_eq_lintegral_ofReal (hint M)
      (Eventually.of_forall fun z => le_min (h0 z) (Nat.cast_nonneg _))]
    exact ENNReal.ofReal_le_ofReal (hK M)
  have hall : ∀ᵐ ω ∂P, ∀ M : ℕ, Tendsto
      (fun N : ℕ => (N : ℝ)⁻¹ • ∑ i : Fin N, min (f (x i ω)) (M : ℝ)) atTop
      (𝓝 (∫ z, min (f z) (M : ℝ) ∂μ)) := ae_all_iff.2 fun M => h.mean (hm M) (hint M)
  filter_upwards [hall] with ω hω
  refine tendsto_atTop.2 fun K => ?_
  obtain ⟨M, hM⟩ := hbig K
  filter_upwards [(hω M).eventually (lt_mem_nhds hM)] with N hN
  rw [smul_eq_mul] at hN
  refine hN.le.trans (mul_le_mul_of_nonneg_left ?_ (by positivity))
  exact Finset.sum_le_sum fun i _ => min_le_left _ _

omit [MeasurableSpace 𝕜] [BorelSpace 𝕜] in
theorem scatter_trace' {N : ℕ} (w : Fin N → ℝ) (X : Matrix (Fin N) (Fin p) 𝕜) :
    RCLike.re (scatter w X).trace = (N : ℝ)⁻¹ * ∑ i, w i * ∑ j, ‖sample X i j‖ ^ 2 := by
  have h : (scatter w X).trace = (((N : ℝ)⁻¹ * ∑ i, w i * ∑ j, ‖sample X i j‖ ^ 2 : ℝ) : 𝕜) := by
    simp only [Matrix.trace, Matrix.diag]
    simp only [scatter_apply]
    rw [← Finset.mul_sum, Finset.sum_comm]
    push_cast
    congr 1
    refine Finset.sum_congr rfl fun i _ => ?_
    rw [Finset.mul_sum]
    refine Finset.sum_congr rfl fun j _ => ?_
    rw [RCLike.star_def, RCLike.mul_conj]
    rfl
  rw [h, RCLike.ofReal_re]

/-- Without a fourth moment the fixed points of the Huber iteration leave every bounded set. -/
theorem IIDSamples.huber_unbounded (h : IIDSamples P x μ)
    {lbda beta : ℝ} (hl : 0 < lbda) (hb : 0 < beta) (h4 : ¬ FourthMoment μ) :
    ∀ᵐ ω ∂P, ∀ R : ℝ, ∀ᶠ N : ℕ in atTop, ∀ Q : Matrix (Fin p) (Fin p) 𝕜, Q.PosDef →
      mStep (wHuber lbda beta) (firstSamples x ω N) Q = Q → R < frob Q := by
  have := h.prob
  have hone : (1 : Matrix (Fin p) (Fin p) 𝕜).PosDef := PosDef.one
  have hall : ∀ᵐ ω ∂P, ∀ n : ℕ, Tendsto (fun N : ℕ => (N : ℝ)⁻¹ * ∑ i : Fin N,
      wHuber lbda beta (qf ((((n : ℝ) + 1 : ℝ) : 𝕜) • 1) (x i ω)) * ∑ j, ‖x i ω j‖ ^ 2)
      atTop atTop := by
    rw [ae_all_iff]; intro n
    have hn : (0 : ℝ) < (n : ℝ) + 1 := by positivity
    refine h.mean_infinite (f := fun z => wHuber lbda beta (qf ((((n : ℝ) + 1 : ℝ) : 𝕜) • 1) z) *
      ∑ j, ‖z j‖ ^ 2) ?_ (fun z => mul_nonneg (wHuber_nonneg hb _) (nsq_nonneg z)) fun hi => h4 ?_
    · exact ((wHuber_measurable lbda beta).comp (continuous_qf _).measurable).mul nsq_measurable
    · refine (hi.const_mul (((n : ℝ) + 1) * lbda / beta)).mono'
        (nsq_measurable.pow_const 2).aestronglyMeasurable (Eventually.of_forall fun z => ?_)
      rw [Real.norm_of_nonneg (sq_nonneg _), qf_smul hone hn, qf_one, wHuber]
      have hz := nsq_nonneg z
      have h1 : (∑ j, ‖z j‖ ^ 2) / (n + 1) / lbda ≤ max 1 ((∑ j, ‖z j‖ ^ 2) / (n + 1) / lbda) :=
        le_max_right _ _
      calc (∑ j, ‖z j‖ ^ 2) ^ 2 = ((n : ℝ) + 1) * lbda / beta *
            (beta * ((∑ j, ‖z j‖ ^ 2) / (n + 1) / lbda) * ∑ j, ‖z j‖ ^ 2) := by field_simp
        _ ≤ _ := by gcongr
  filter_upwards [hall] with ω hω R
  obtain ⟨n, hn⟩ := exists_nat_ge R
  filter_upwards [(hω n).eventually (eventually_gt_atTop (((n : ℝ) + 1) * p))] with N hN Q hQ hfix
  by_contra hle
  rw [not_lt] at hle
  have hQ1 : Loewner Q ((((n : ℝ) + 1 : ℝ) : 𝕜) • 1) :=
    (hermitian_le_frob hQ.1).trans (loewner_smul_le hone.posSemidef (by linarith))
  have h1 := mStep_anti (wHuber_monotone hl hb) (firstSamples x ω N) hQ hQ1
  rw [hfix] at h1
  have h2 := h1.trans hQ1
  have h3 := (RCLike.nonneg_iff.1 (Matrix.PosSemidef.trace_nonneg h2)).1
  rw [trace_sub, map_sub, trace_smul, trace_one, smul_eq_mul, RCLike.re_ofReal_mul,
    RCLike.natCast_re, Fintype.card_fin] at h3
  have h5 : RCLike.re (mStep (wHuber lbda beta) (firstSamples x ω N)
      ((((n : ℝ) + 1 : ℝ) : 𝕜) • 1)).trace = (N : ℝ)⁻¹ * ∑ i : Fin N,
      wHuber lbda beta (qf ((((n : ℝ) + 1 : ℝ) : 𝕜) • 1) (x i ω)) * ∑ j, ‖x i ω j‖ ^ 2 :=
    scatter_trace' _ (firstSamples x ω N)
  rw [h5] at h3
  linarith

end

/-! ## The t laws -/

section
open Set

/-- Under the t density with `ν` degrees of freedom in dimension `d`, the fourth moment is finite if
and only if `ν > 4`. -/
theorem gT_fourth {ν : ℝ} (hν : 0 < ν) {d : ℕ} (hd : 0 < d) :
    (Integrable fun w : Fin d → ℝ => (w ⬝ᵥ w) ^ 2 * gT ν d (w ⬝ᵥ w)) ↔ 4 < ν := by
  obtain ⟨C, hC⟩ := radial_integral hd
  rw [(hC fun t => t ^ 2 * gT ν d t).1]
  have hd' : (0 : ℝ) < d := by exact_mod_cast hd
  set s : ℝ := (ν + d) / 2 with hs
  have hs0 : 0 < s := by positivity
  set K : ℝ := Real.Gamma s / (Real.Gamma (ν / 2) * √(Real.pi * ν) ^ d) with hK
  have hK0 : 0 < K := by
    have h1 := Real.Gamma_pos_of_pos hs0
    have h2 : 0 < Real.Gamma (ν / 2) := Real.Gamma_pos_of_pos (by positivity)
    have h3 : 0 < √(Real.pi * ν) := Real.sqrt_pos.2 (by positivity)
    positivity
  have hpt : ∀ t ∈ Ioi (0 : ℝ), t ^ ((d : ℝ) / 2 - 1) * (t ^ 2 * gT ν d t) =
      K * (t ^ ((d : ℝ) / 2 + 1) * (1 + t / ν) ^ (-s)) := fun t ht => by
    have h0 : (0 : ℝ) < t := ht
    have e : t ^ ((d : ℝ) / 2 + 1) = t ^ ((d : ℝ) / 2 - 1) * t ^ 2 := by
      rw [← Real.rpow_natCast t 2, ← Real.rpow_add h0]; congr 1; push_cast; ring
    rw [e, gT, ← hs, ← hK]; ring
  rw [integrableOn_congr_fun hpt measurableSet_Ioi]
  have hunit : IntegrableOn (fun t : ℝ => K * (t ^ ((d : ℝ) / 2 + 1) * (1 + t / ν) ^ (-s))) (Ioi 0) ↔
      IntegrableOn (fun t : ℝ => t ^ ((d : ℝ) / 2 + 1) * (1 + t / ν) ^ (-s)) (Ioi 0) :=
    integrable_const_mul_iff (isUnit_iff_ne_zero.2 hK0.ne') _
  rw [hunit]
  have hcont : ContinuousOn (fun t : ℝ => t ^ ((d : ℝ) / 2 + 1) * (1 + t / ν) ^ (-s)) (Ici 0) := by
    refine ContinuousOn.mul (fun t _ => ?_) (fun t ht => ?_)
    · exact (Real.continuousAt_rpow_const t _ (Or.inr (by positivity))).continuousWithinAt
    · have h0 : 0 ≤ t := ht
      refine ContinuousAt.continuousWithinAt ?_
      refine ContinuousAt.rpow_const (by fun_prop) (Or.inl ?_)
      positivity
  have hsplit : IntegrableOn (fun t : ℝ => t ^ ((d : ℝ) / 2 + 1) * (1 + t / ν) ^ (-s)) (Ioi 0) ↔
      IntegrableOn (fun t : ℝ => t ^ ((d : ℝ) / 2 + 1) * (1 + t / ν) ^ (-s)) (Ioi 1) := by
    rw [← Ioc_union_Ioi_eq_Ioi (zero_le_one' ℝ), integrableOn_union]
    refine and_iff_right ?_
    exact ((hcont.mono Icc_subset_Ici_self).integrableOn_compact isCompact_Icc).mono_set
      Ioc_subset_Icc_self
  rw [hsplit]
  have hmeas : AEStronglyMeasurable (fun t : ℝ => t ^ ((d : ℝ) / 2 + 1) * (1 + t / ν) ^ (-s))
      (volume.restrict (Ioi 1)) :=
    (hcont.mono fun t (ht : 1 < t) => (zero_le_one.trans ht.le : (0 : ℝ) ≤ t)).aestronglyMeasurable
      measurableSet_Ioi
  have hpow : ∀ t : ℝ, 0 < t → t ^ ((d : ℝ) / 2 + 1) * t ^ (-s) = t ^ (1 - ν / 2) := fun t ht => by
    rw [← Real.rpow_add ht]; congr 1; rw [hs]; ring
  have hiff := integrableOn_Ioi_rpow_iff (s := 1 - ν / 2) (t := 1) one_pos
  have hlt : 1 - ν / 2 < -1 ↔ 4 < ν := by constructor <;> intro h <;> linarith
  rw [← hlt, ← hiff]
  constructor
  · intro h
    set b : ℝ := (1 + 1 / ν) ^ (-s) with hb
    have hb0 : 0 < b := Real.rpow_pos_of_pos (by positivity) _
    refine (h.const_mul b⁻¹).mono' (ContinuousOn.aestronglyMeasurable (fun t ht => ?_)
      measurableSet_Ioi) ?_
    · exact (Real.continuousAt_rpow_const t _
        (Or.inl (zero_lt_one.trans ht).ne')).continuousWithinAt
    · refine (ae_restrict_iff' measurableSet_Ioi).2 (Eventually.of_forall fun t ht => ?_)
      have h1 : (1 : ℝ) < t := ht
      have h0 : 0 < t := by linarith
      rw [Real.norm_of_nonneg (Real.rpow_nonneg h0.le _), ← hpow t h0]
      have h2 : ((1 + 1 / ν) * t) ^ (-s) ≤ (1 + t / ν) ^ (-s) := by
        refine Real.rpow_le_rpow_of_nonpos (by positivity) ?_ (by linarith)
        have : (1 + 1 / ν) * t = t + t / ν := by ring
        rw [this]; linarith
      rw [Real.mul_rpow (by positivity) h0.le, ← hb] at h2
      calc t ^ ((d : ℝ) / 2 + 1) * t ^ (-s) = b⁻¹ * (t ^ ((d : ℝ) / 2 + 1) * (b * t ^ (-s))) := by
            field_simp
        _ ≤ _ := by gcongr
  · intro h
    refine (h.const_mul ((1 / ν) ^ (-s))).mono' hmeas ?_
    refine (ae_restrict_iff' measurableSet_Ioi).2 (Eventually.of_forall fun t ht => ?_)
    have h1 : (1 : ℝ) < t := ht
    have h0 : 0 < t := by linarith
    rw [Real.norm_of_nonneg (by positivity), ← hpow t h0]
    have h2 : (1 + t / ν) ^ (-s) ≤ ((1 / ν) * t) ^ (-s) := by
      refine Real.rpow_le_rpow_of_nonpos (by positivity) ?_ (by linarith)
      have : (1 / ν) * t = t / ν := by ring
      rw [this]; linarith
    rw [Real.mul_rpow (by positivity) h0.le] at h2
    calc t ^ ((d : ℝ) / 2 + 1) * (1 + t / ν) ^ (-s)
        ≤ t ^ ((d : ℝ) / 2 + 1) * ((1 / ν) ^ (-s) * t ^ (-s)) := by gcongr
      _ = _ := by ring

variable {p : ℕ}

theorem realT_fourth {df : ℝ} (hdf : 0 < df) (hp : 0 < p) {S : Matrix (Fin p) (Fin p) ℝ}
    (hS : S.PosDef) :
    FourthMoment (𝕜 := ℝ) (lawOf fun x => Real.exp (tLogDensity df 0 S x)) ↔ 4 < df := by
  rw [fourth_iff hS, realT_law hdf hS, (real_quad_law (gT_mass hdf p) hS fun t => t ^ 2).1]
  exact gT_fourth hdf hp

theorem cplxT_fourth {df : ℝ} (hdf : 0 < df) (hp : 0 < p) {S : Matrix (Fin p) (Fin p) ℂ}
    (hS : S.PosDef) :
    FourthMoment (𝕜 := ℂ) (lawOf fun x => Real.exp (ctLogDensity df 0 S x)) ↔ 4 < df := by
  rw [fourth_iff hS, (cplx_quad_law (gT_mass hdf (p + p)) hS
    (f := fun x => Real.exp (ctLogDensity df 0 S x)) (by rw [exp_ct_zOf hdf 0 hS, halves_zero])
    (fun t => t ^ 2) (by fun_prop)).1, ← gT_fourth hdf (d := p + p) (by omega)]
  have e : ∀ w : Fin (p + p) → ℝ, ((w ⬝ᵥ w) / 2) ^ 2 * gT df (p + p) (w ⬝ᵥ w) =
      (1 / 4) * ((w ⬝ᵥ w) ^ 2 * gT df (p + p) (w ⬝ᵥ w)) := fun w => by ring
  simp only [e]
  exact integrable_const_mul_iff (isUnit_iff_ne_zero.2 (by norm_num)) _

theorem realN_fourth (hp : 0 < p) {S : Matrix (Fin p) (Fin p) ℝ} (hS : S.PosDef) :
    FourthMoment (𝕜 := ℝ) (lawOf fun x => Real.exp (normalLogDensity 0 S x)) := by
  rw [fourth_iff hS, (realN_quad hp hS fun t => t ^ 2).1]
  exact chi_second hp

theorem cplxN_fourth (hp : 0 < p) {S : Matrix (Fin p) (Fin p) ℂ} (hS : S.PosDef) :
    FourthMoment (𝕜 := ℂ) (lawOf fun x => Real.exp (cnormalLogDensity 0 S x)) := by
  rw [fourth_iff hS, (cplxN_quad hp hS (fun t => t ^ 2) (by fun_prop)).1]
  have e : ∀ t : ℝ, (t / 2) ^ 2 * chiPdf (p + p) t = (1 / 4) * (t ^ 2 * chiPdf (p + p) t) :=
    fun t => by ring
  simp only [e]
  exact (chi_second (by omega)).const_mul _

end
end RS
