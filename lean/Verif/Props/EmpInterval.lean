import Verif.Props.EmpDelta
import Verif.Props.CorrInterval

/-
Coverage of the usual confidence interval for coherences computed from the empirical covariance (C182).
-/
set_option autoImplicit false

namespace RS
open Matrix ComplexOrder Filter Topology MeasureTheory ProbabilityTheory

section
variable {p : ℕ} {Ω : Type*} [MeasurableSpace Ω] {P : Measure Ω} [IsProbabilityMeasure P]
  {x : ℕ → Ω → Fin p → ℂ} {μ : Measure (Fin p → ℂ)} {S : Matrix (Fin p) (Fin p) ℂ}

theorem interval_tanh_var {z : ℕ → Ω → ℝ} {r s : ℝ} {v : NNReal} (hv : v ≠ 0) (hr : |r| < 1) (hs : 0 < s)
    (h : TendstoInDistribution (fun (N : ℕ) ω => √N * (z N ω / s - Real.artanh r / s)) atTop id (fun _ => P)
      (gaussianReal 0 v)) (q : ℝ) :
    Tendsto (fun N : ℕ => P {ω | Real.tanh (z N ω - q * s / √N) ≤ r ∧ r ≤ Real.tanh (z N ω + q * s / √N)}) atTop
      (𝓝 (gaussianReal 0 v (Set.Icc (-q) q))) := by
  refine (interval_limit hv h q).congr fun N => ?_
  congr 1
  ext ω
  simp only [Set.mem_ofPred_eq]
  rw [tanh_between hr, ← sub_div, abs_div, abs_of_pos hs, div_le_iff₀ hs, div_mul_eq_mul_div]

theorem meanCov_qf_sq_pos [IsProbabilityMeasure μ] (hp : 0 < p) (hS : S.PosDef) (hM : MeanCov μ 0 S)
    (h4 : FourthMoment μ) : 0 < ∫ z, (star z ⬝ᵥ S⁻¹ *ᵥ z).re ^ 2 ∂μ := by
  have hH : S⁻¹.IsHermitian := hS.inv.isHermitian
  have hmem : MemLp (fun z : Fin p → ℂ => (star z ⬝ᵥ S⁻¹ *ᵥ z).re) 2 μ := by
    have := trForm_memLp h4 S⁻¹ 0
    simp only [sub_zero, trForm, outerC, trForm_outer_herm hH] at this
    exact this
  have hmean : ∫ z, (star z ⬝ᵥ S⁻¹ *ᵥ z).re ∂μ = p := by
    have := trForm_mean (fun a b => hM.outer_centred a b) S⁻¹
    simp only [sub_zero, trForm, outerC, trForm_outer_herm hH] at this
    rw [this, hH.eq, Matrix.nonsing_inv_mul S ((isUnit_iff_isUnit_det _).1 hS.isUnit), trace_one, Fintype.card_fin]
    simp
  have h0 := variance_nonneg (fun z : Fin p → ℂ => (star z ⬝ᵥ S⁻¹ *ᵥ z).re) μ
  rw [variance_eq_sub hmem, hmean] at h0
  have hp' : (0 : ℝ) < p := by exact_mod_cast hp
  exact lt_of_lt_of_le (pow_pos hp' 2) (sub_nonneg.1 h0)

/-- Samples of an elliptical law with mean zero, covariance `S` and finite fourth moments. The interval
with ends `tanh(artanh c_N ± q √(1/2) / √N)`, where `c_N` is the coherence of two channels in the
empirical covariance, contains the coherence with a probability that tends to the one of `[-q, q]` under
the centred normal law with variance `κ = E[(z^H S⁻¹ z)²] / (p (p + 1))`. -/
theorem C182_coverage (h : IIDSamples P x μ) (hp : 0 < p) (hS : S.PosDef) (hE : EllipticalLaw μ S)
    (hM : MeanCov μ 0 S) (h4 : FourthMoment μ) (centered : Bool) :
    ∃ C : ℕ → Ω → Matrix (Fin p) (Fin p) ℂ,
      (∀ N, 0 < N → ∀ ω, ∃ loc, complexEmpCovFit (.cplx (.d2 N p (firstSamples x ω N))) centered =
        .ok ⟨⟨p, loc⟩, .cplx (.d2 p p (C N ω))⟩) ∧
      ∀ i j, i ≠ j → S i j ≠ 0 → ∀ q : ℝ, Tendsto (fun N : ℕ => P {ω |
        Real.tanh (Real.artanh √(coherence2 i j (C N ω)) - q * √(1 / 2) / √N) ≤ √(coherence2 i j S) ∧
        √(coherence2 i j S) ≤ Real.tanh (Real.artanh √(coherence2 i j (C N ω)) + q * √(1 / 2) / √N)})
        atTop (𝓝 (gaussianReal 0 ((∫ z, (star z ⬝ᵥ S⁻¹ *ᵥ z).re ^ 2 ∂μ) / (p * (p + 1))).toNNReal
          (Set.Icc (-q) q))) := by
  have hpr := h.prob
  have hp' : (0 : ℝ) < p := by exact_mod_cast hp
  have hκ : 0 < (∫ z, (star z ⬝ᵥ S⁻¹ *ᵥ z).re ^ 2 ∂μ) / (p * (p + 1)) :=
    div_pos (meanCov_qf_sq_pos hp hS hM h4) (by positivity)
  have hv : (0 : ℝ) < 1 / 2 := by norm_num
  have hs := Real.sqrt_pos.2 hv
  obtain ⟨C, h1, h2⟩ := C181_delta h hM h4 hp hS.isHermitian centered fun _ => rfl
  refine ⟨C, h1, fun i j hij h0 q => ?_⟩
  have g0 := coherence2_pos hS h0
  have g1 := coherence2_lt hS hij
  refine interval_tanh_var (Real.toNNReal_pos.2 hκ).ne' ?_ hs ?_ q
  · rw [abs_of_nonneg (Real.sqrt_nonneg _), Real.sqrt_lt' one_pos, one_pow]
    exact g1
  have hd := (artanh_sqrt_deriv g0 g1).div_const √(1 / 2)
  have hG := cohGrad_herm i j hS
  refine limit_congr (h2 (fun T => Real.artanh √(coherence2 i j T) / √(1 / 2)) _
    (herm_smul _ hG) ?_ ((coh_hasGrad i j hS).comp hd)) rfl ?_
  · exact (artanh_measurable.comp (coherence2_measurable i j).sqrt).div_const _
  obtain ⟨e1, e2⟩ := cohGrad_trace i j hS
  have e3 : 1 - coherence2 i j S ≠ 0 := by linarith
  congr 1
  have hmem : MemLp (fun z : Fin p → ℂ => (star z ⬝ᵥ cohGrad i j S *ᵥ z).re) 2 μ := by
    have := trForm_memLp h4 (cohGrad i j S) 0
    simp only [sub_zero, trForm, outerC, trForm_outer_herm hG] at this
    exact this
  have hmean : ∫ z, (star z ⬝ᵥ cohGrad i j S *ᵥ z).re ∂μ = 0 := by
    have := trForm_mean (fun a b => hM.outer_centred a b) (cohGrad i j S)
    simp only [sub_zero, trForm, outerC, trForm_outer_herm hG] at this
    rw [this, hG.eq, e1]
  have hlin : ∀ (c : ℝ) (z : Fin p → ℂ), (star z ⬝ᵥ ((c : ℂ) • cohGrad i j S) *ᵥ z).re =
      c * (star z ⬝ᵥ cohGrad i j S *ᵥ z).re := fun c z => by
    rw [smul_mulVec, dotProduct_smul, smul_eq_mul, Complex.re_ofReal_mul]
  simp only [sub_zero]
  change Var[fun z => (star z ⬝ᵥ (((_ : ℝ) : ℂ) • cohGrad i j S) *ᵥ z).re; μ] = _
  simp only [hlin]
  rw [variance_const_mul, variance_eq_sub hmem]
  simp only [Pi.pow_apply]
  change _ = (∫ z, qf S z ^ 2 ∂μ) / (p * (p + 1))
  rw [Algebra.algebraMap_self, RingHom.id_apply, elliptical_var hp hS hE h4 hG, hmean, e1, e2, div_pow, Real.sq_sqrt hv.le, div_pow, mul_pow, mul_pow,
    Real.sq_sqrt g0.le]
  field_simp
  ring

/-- The probability of `[-q, q]` under centred normal laws is strictly decreasing in the variance. -/
theorem gaussian_interval_lt {v w : NNReal} (hv : v ≠ 0) (h : v < w) {q : ℝ} (hq : 0 < q) :
    gaussianReal 0 w (Set.Icc (-q) q) < gaussianReal 0 v (Set.Icc (-q) q) := by
  have hscale : ∀ u : NNReal, u ≠ 0 →
      gaussianReal 0 u (Set.Icc (-q) q) = gaussianReal 0 1 (Set.Icc (-(q / √u)) (q / √u)) := fun u hu => by
    have hs : 0 < √(u : ℝ) := Real.sqrt_pos.2 (by positivity)
    have e := gaussianReal_map_const_mul (μ := 0) (v := 1) √(u : ℝ)
    have e' : gaussianReal 0 u = (gaussianReal 0 1).map (√(u : ℝ) * ·) := by
      rw [e, mul_zero]
      congr 1
      apply NNReal.eq
      simp [Real.sq_sqrt]
    rw [e', Measure.map_apply (measurable_const_mul _) measurableSet_Icc]
    congr 1
    ext y
    simp only [Set.mem_preimage, Set.mem_Icc, ← neg_div]
    rw [div_le_iff₀' hs, le_div_iff₀' hs]
  have hw : w ≠ 0 := h.ne_bot
  rw [hscale w hw, hscale v hv]
  have hsv : 0 < √(v : ℝ) := Real.sqrt_pos.2 (by positivity)
  have hlt : √(v : ℝ) < √(w : ℝ) := Real.sqrt_lt_sqrt v.2 (by exact_mod_cast h)
  have hqq : q / √(w : ℝ) < q / √(v : ℝ) := div_lt_div_of_pos_left hq hsv hlt
  have ha : 0 < q / √(w : ℝ) := div_pos hq (hsv.trans hlt)
  generalize q / √(w : ℝ) = a at *
  generalize q / √(v : ℝ) = b at *
  have hpos : 0 < gaussianReal 0 1 (Set.Ioo a b) := by
    have := gaussianReal_absolutelyContinuous' 0 (v := 1) one_ne_zero
    rw [pos_iff_ne_zero]
    intro h0
    have := this h0
    rw [Real.volume_Ioo, ENNReal.ofReal_eq_zero] at this
    linarith
  have hdisj : Disjoint (Set.Icc (-a) a) (Set.Ioo a b) := by
    rw [Set.disjoint_left]
    exact fun y h1 h2 => absurd h2.1 (not_lt.2 h1.2)
  calc gaussianReal 0 1 (Set.Icc (-a) a) < gaussianReal 0 1 (Set.Icc (-a) a) + gaussianReal 0 1 (Set.Ioo a b) :=
        ENNReal.lt_add_right (measure_ne_top _ _) hpos.ne'
    _ = gaussianReal 0 1 (Set.Icc (-a) a ∪ Set.Ioo a b) := (measure_union hdisj measurableSet_Ioo).symm
    _ ≤ _ := measure_mono (Set.union_subset (Set.Icc_subset_Icc (by linarith) hqq.le) fun y hy =>
        ⟨by linarith [hy.1], hy.2.le⟩)

/-- On normal samples the coverage is the nominal one. -/
theorem C182_normal (hp : 0 < p) (hS : S.PosDef)
    (h : IIDSamples P x (lawOf fun z => Real.exp (cnormalLogDensity 0 S z))) (centered : Bool) :
    ∃ C : ℕ → Ω → Matrix (Fin p) (Fin p) ℂ,
      (∀ N, 0 < N → ∀ ω, ∃ loc, complexEmpCovFit (.cplx (.d2 N p (firstSamples x ω N))) centered =
        .ok ⟨⟨p, loc⟩, .cplx (.d2 p p (C N ω))⟩) ∧
      ∀ i j, i ≠ j → S i j ≠ 0 → ∀ q : ℝ, Tendsto (fun N : ℕ => P {ω |
        Real.tanh (Real.artanh √(coherence2 i j (C N ω)) - q * √(1 / 2) / √N) ≤ √(coherence2 i j S) ∧
        √(coherence2 i j S) ≤ Real.tanh (Real.artanh √(coherence2 i j (C N ω)) + q * √(1 / 2) / √N)})
        atTop (𝓝 (gaussianReal 0 1 (Set.Icc (-q) q))) := by
  have hp' : (0 : ℝ) < p := by exact_mod_cast hp
  have := C182_coverage h hp hS (cplxN_elliptical hS) (cplxN_meanCov hS) (cplxN_fourth hp hS) centered
  have e : ∫ z, (star z ⬝ᵥ S⁻¹ *ᵥ z).re ^ 2 ∂lawOf (fun z => Real.exp (cnormalLogDensity 0 S z)) = p * (p + 1) :=
    cplxN_qf_sq hp hS
  rwa [e, div_self (by positivity), Real.toNNReal_one] at this

/-- On samples of the complex t law with `ν > 4` degrees of freedom the coverage is that of the normal
law with variance `(ν - 2) / (ν - 4)`. -/
theorem C182_t (hp : 0 < p) (hS : S.PosDef) (ν : ℝ) (hν : 4 < ν)
    (h : IIDSamples P x (lawOf fun z => Real.exp (ctLogDensity ν 0 S z))) (centered : Bool) :
    ∃ C : ℕ → Ω → Matrix (Fin p) (Fin p) ℂ,
      (∀ N, 0 < N → ∀ ω, ∃ loc, complexEmpCovFit (.cplx (.d2 N p (firstSamples x ω N))) centered =
        .ok ⟨⟨p, loc⟩, .cplx (.d2 p p (C N ω))⟩) ∧
      ∀ i j, i ≠ j → S i j ≠ 0 → ∀ q : ℝ, Tendsto (fun N : ℕ => P {ω |
        Real.tanh (Real.artanh √(coherence2 i j (C N ω)) - q * √(1 / 2) / √N) ≤ √(coherence2 i j S) ∧
        √(coherence2 i j S) ≤ Real.tanh (Real.artanh √(coherence2 i j (C N ω)) + q * √(1 / 2) / √N)})
        atTop (𝓝 (gaussianReal 0 ((ν - 2) / (ν - 4)).toNNReal (Set.Icc (-q) q))) := by
  have hν0 : 0 < ν := by linarith
  have hν2 : 0 < ν - 2 := by linarith
  have hν4 : 0 < ν - 4 := by linarith
  have hc : 0 < ν / (ν - 2) := by positivity
  have hS' : (((ν / (ν - 2) : ℝ) : ℂ) • S).PosDef := hS.smul (by exact_mod_cast hc)
  obtain ⟨C, c1, c2⟩ := C182_coverage h hp hS' (elliptical_smul (cplxT_elliptical ν hS) hc)
    (cplxT_meanCov hS (by linarith)) ((cplxT_fourth hν0 hp hS).2 hν) centered
  have hp' : (0 : ℝ) < p := by exact_mod_cast hp
  refine ⟨C, c1, fun i j hij h0 q => ?_⟩
  have := c2 i j hij (by
    rw [Matrix.smul_apply, smul_eq_mul]
    exact mul_ne_zero (by exact_mod_cast hc.ne') h0) q
  rwa [coherence2_smul i j S hc, cplxT_scaled_sq hp hS hν, mul_div_cancel_left₀ _ (by positivity)] at this

/-- The coverage on t samples is below the nominal one for every `ν > 4`, and tends to zero as `ν`
decreases to 4. -/
theorem C182_below {q : ℝ} (hq : 0 < q) :
    (∀ ν : ℝ, 4 < ν → gaussianReal 0 ((ν - 2) / (ν - 4)).toNNReal (Set.Icc (-q) q) <
      gaussianReal 0 1 (Set.Icc (-q) q)) ∧
    Tendsto (fun ν : ℝ => gaussianReal 0 ((ν - 2) / (ν - 4)).toNNReal (Set.Icc (-q) q)) (𝓝[>] 4) (𝓝 0) := by
  constructor
  · intro ν hν
    refine gaussian_interval_lt one_ne_zero ?_ hq
    rw [← Real.toNNReal_one]
    refine (Real.toNNReal_lt_toNNReal_iff_of_nonneg one_pos.le).2 ?_
    rw [lt_div_iff₀ (by linarith)]
    linarith
  · have hden : Tendsto (fun ν : ℝ => ν - 4) (𝓝[>] 4) (𝓝[>] 0) := by
      refine tendsto_nhdsWithin_iff.2 ⟨?_, ?_⟩
      · exact ((continuous_sub_right (4 : ℝ)).tendsto' 4 0 (by norm_num)).mono_left nhdsWithin_le_nhds
      · filter_upwards [self_mem_nhdsWithin] with ν hν
        exact sub_pos.2 (Set.mem_Ioi.1 hν)
    have hbound : ∀ ν : ℝ, 4 < ν → gaussianReal 0 ((ν - 2) / (ν - 4)).toNNReal (Set.Icc (-q) q) ≤
        ENNReal.ofReal (2 * q * √(ν - 4)) := fun ν hν => by
      have h4 : 0 < ν - 4 := by linarith
      have hk : 0 < (ν - 2) / (ν - 4) := div_pos (by linarith) h4
      rw [gaussianReal_apply 0 (Real.toNNReal_pos.2 hk).ne']
      have hpdf : ∀ y, gaussianPDF 0 ((ν - 2) / (ν - 4)).toNNReal y ≤ ENNReal.ofReal √(ν - 4) := fun y => by
        rw [gaussianPDF]
        refine ENNReal.ofReal_le_ofReal ?_
        rw [gaussianPDFReal, Real.coe_toNNReal _ hk.le]
        refine (mul_le_of_le_one_right (by positivity) (Real.exp_le_one_iff.2 ?_)).trans ?_
        · rw [neg_div]
          exact neg_nonpos.2 (by positivity)
        · rw [← Real.sqrt_inv]
          refine Real.sqrt_le_sqrt ?_
          rw [inv_le_iff_one_le_mul₀ (by positivity)]
          have : (ν - 4) * (2 * Real.pi * ((ν - 2) / (ν - 4))) = 2 * Real.pi * (ν - 2) := by field_simp
          rw [this]
          nlinarith [Real.two_le_pi]
      calc ∫⁻ y in Set.Icc (-q) q, gaussianPDF 0 ((ν - 2) / (ν - 4)).toNNReal y
          ≤ ∫⁻ _ in Set.Icc (-q) q, ENNReal.ofReal √(ν - 4) := lintegral_mono hpdf
        _ = ENNReal.ofReal (2 * q * √(ν - 4)) := by
          rw [setLIntegral_const, Real.volume_Icc, ← ENNReal.ofReal_mul (Real.sqrt_nonneg _)]
          congr 1
          ring
    have hlim : Tendsto (fun ν : ℝ => ENNReal.ofReal (2 * q * √(ν - 4))) (𝓝[>] 4) (𝓝 0) := by
      have : Tendsto (fun ν : ℝ => 2 * q * √(ν - 4)) (𝓝[>] 4) (𝓝 (2 * q * √0)) :=
        ((Real.continuous_sqrt.tendsto 0).comp (hden.mono_right nhdsWithin_le_nhds)).const_mul _
      rw [Real.sqrt_zero, mul_zero] at this
      simpa using ENNReal.tendsto_ofReal this
    refine tendsto_of_tendsto_of_tendsto_of_le_of_le' tendsto_const_nhds hlim
      (Eventually.of_forall fun _ => zero_le) ?_
    filter_upwards [self_mem_nhdsWithin] with ν hν
    exact hbound ν hν

/-- Non-vacuity: two channels with squared coherence `1/4`, t samples with five degrees of freedom; the
nominal coverage of `[-2, 2]` becomes that of a normal law with variance 3. -/
example : ∃ (P : Measure (ℕ → Fin 2 → ℂ)) (_ : IsProbabilityMeasure P)
    (C : ℕ → (ℕ → Fin 2 → ℂ) → Matrix (Fin 2) (Fin 2) ℂ),
    (∀ N, 0 < N → ∀ ω, ∃ loc, complexEmpCovFit (.cplx (.d2 N 2
      (firstSamples (fun i (ω : ℕ → Fin 2 → ℂ) => ω i) ω N))) false = .ok ⟨⟨2, loc⟩, .cplx (.d2 2 2 (C N ω))⟩) ∧
    Tendsto (fun N : ℕ => P {ω |
      Real.tanh (Real.artanh √(coherence2 0 1 (C N ω)) - 2 * √(1 / 2) / √N) ≤ √(1 / 4) ∧
      √(1 / 4) ≤ Real.tanh (Real.artanh √(coherence2 0 1 (C N ω)) + 2 * √(1 / 2) / √N)})
      atTop (𝓝 (gaussianReal 0 3 (Set.Icc (-2) 2))) := by
  have hpr := cplxT_prob (df := 5) (by norm_num) two_one_posDef'
  have h := iid_exists (lawOf fun x => Real.exp (ctLogDensity 5 0
    (!![2, 1; 1, 2] : Matrix (Fin 2) (Fin 2) ℂ) x))
  obtain ⟨C, a1, a2⟩ := C182_t two_pos two_one_posDef' 5 (by norm_num) h false
  have := a2 0 1 (by decide) (by simp) 2
  rw [two_one_coh, show (((5 : ℝ) - 2) / (5 - 4)).toNNReal = 3 by
    apply NNReal.eq
    rw [Real.coe_toNNReal _ (by norm_num)]
    norm_num] at this
  exact ⟨_, inferInstance, C, a1, this⟩

end
end RS
