import Verif.Lemmas.Delta

/-! The first-order expansion under a limit law: remainders of smaller order vanish. -/
set_option autoImplicit false

namespace RS
open Matrix ComplexOrder Filter Topology MeasureTheory ProbabilityTheory

section
variable {Ω : Type*} [MeasurableSpace Ω] {P : Measure Ω} [IsProbabilityMeasure P]

/-- A sequence with a normal limit law is bounded in probability. -/
theorem bounded_of_limit {X : ℕ → Ω → ℝ} {v : NNReal}
    (hX : TendstoInDistribution X atTop id (fun _ => P) (gaussianReal 0 v)) {d : ENNReal} (hd : 0 < d) :
    ∃ R : ℝ, 0 < R ∧ ∀ᶠ N in atTop, P {ω | R ≤ |X N ω|} ≤ d := by
  obtain ⟨d', hd'0, hd'⟩ : ∃ d' : ℝ, 0 < d' ∧ ENNReal.ofReal d' ≤ d := by
    rcases eq_or_ne d ⊤ with rfl | hne
    · exact ⟨1, one_pos, le_top⟩
    · exact ⟨d.toReal, ENNReal.toReal_pos hd.ne' hne, by rw [ENNReal.ofReal_toReal hne]⟩
  have hi : Integrable (fun y : ℝ => |y|) (gaussianReal 0 v) :=
    ((memLp_id_gaussianReal 1).integrable (by simp)).abs
  set I := ∫ y, |y| ∂gaussianReal 0 v with hI
  have hI0 : 0 ≤ I := integral_nonneg fun y => abs_nonneg y
  set R : ℝ := (I + 1) / d' with hR
  have hR0 : 0 < R := by positivity
  refine ⟨R, hR0, ?_⟩
  have hcl : IsClosed {y : ℝ | R ≤ |y|} := isClosed_le continuous_const continuous_abs
  have h1 := ProbabilityMeasure.limsup_measure_closed_le_of_tendsto hX.tendsto hcl
  simp only [ProbabilityMeasure.coe_mk, Measure.map_id] at h1
  have h2 : gaussianReal 0 v {y : ℝ | R ≤ |y|} < ENNReal.ofReal d' := by
    have hm := mul_meas_ge_le_integral_of_nonneg (Eventually.of_forall fun y => abs_nonneg y) hi R
    have h4 : (gaussianReal 0 v).real {y : ℝ | R ≤ |y|} < d' := by
      rw [hR, div_mul_eq_mul_div, div_le_iff₀ hd'0] at hm
      by_contra hc
      push Not at hc
      have := mul_le_mul_of_nonneg_left hc (by linarith : 0 ≤ I + 1)
      rw [← hR] at hm
      nlinarith
    rw [← ENNReal.ofReal_toReal (measure_ne_top (gaussianReal 0 v) {y : ℝ | R ≤ |y|})]
    exact (ENNReal.ofReal_lt_ofReal_iff hd'0).2 h4
  have h3 := eventually_lt_of_limsup_lt (lt_of_le_of_lt h1 h2)
  filter_upwards [h3] with N hN
  rw [Measure.map_apply_of_aemeasurable (hX.forall_aemeasurable N) hcl.measurableSet] at hN
  exact hN.le.trans hd'

/-- A vanishing multiple of a sequence that is bounded in probability vanishes in probability. -/
theorem small_of_bounded {r u : ℕ → Ω → ℝ} (hr : ∀ N, AEMeasurable (r N) P)
    (hu : ∀ N, AEMeasurable (u N) P) (hu1 : ∀ N ω, 1 ≤ u N ω)
    (hb : ∀ d : ENNReal, 0 < d → ∃ R : ℝ, 0 < R ∧ ∀ᶠ N in atTop, P {ω | R ≤ u N ω} ≤ d)
    (hs : ∀ᵐ ω ∂P, ∀ ε : ℝ, 0 < ε → ∀ᶠ N in atTop, |r N ω| ≤ ε * u N ω) :
    TendstoInMeasure P r atTop 0 := by
  have hv : TendstoInMeasure P (fun N ω => r N ω / u N ω) atTop (fun _ => (0 : ℝ)) := by
    refine tendstoInMeasure_of_tendsto_ae (fun N => ((hr N).div (hu N)).aestronglyMeasurable) ?_
    filter_upwards [hs] with ω hω
    rw [Metric.tendsto_atTop']
    intro ε hε
    obtain ⟨N₀, h0⟩ := eventually_atTop.1 (hω (ε / 2) (half_pos hε))
    refine ⟨N₀, fun N hN => ?_⟩
    have hpos : 0 < u N ω := lt_of_lt_of_le one_pos (hu1 N ω)
    rw [Real.dist_eq, sub_zero, abs_div, abs_of_pos hpos, div_lt_iff₀ hpos]
    have := h0 N hN.le
    nlinarith
  rw [tendstoInMeasure_iff_norm] at hv ⊢
  intro ε hε
  rw [ENNReal.tendsto_atTop_zero]
  intro d hd
  obtain ⟨R, hR, hb⟩ := hb (d / 2) (ENNReal.half_pos hd.ne')
  obtain ⟨N₁, hN₁⟩ := (ENNReal.tendsto_atTop_zero.1 (hv (ε / R) (div_pos hε hR))) (d / 2)
    (ENNReal.half_pos hd.ne')
  obtain ⟨N₂, hN₂⟩ := eventually_atTop.1 hb
  refine ⟨max N₁ N₂, fun N hN => ?_⟩
  have a1 := hN₁ N (le_trans (le_max_left _ _) hN)
  have a2 := hN₂ N (le_trans (le_max_right _ _) hN)
  have hsub : {ω | ε ≤ ‖r N ω - (0 : Ω → ℝ) ω‖} ⊆ {ω | ε / R ≤ ‖r N ω / u N ω - 0‖} ∪ {ω | R ≤ u N ω} := by
    intro ω hω
    simp only [Set.mem_ofPred_eq, Pi.zero_apply, sub_zero, Set.mem_union] at hω ⊢
    by_contra hcon
    push Not at hcon
    have hpos : 0 < u N ω := lt_of_lt_of_le one_pos (hu1 N ω)
    rw [norm_div, Real.norm_of_nonneg hpos.le, div_lt_iff₀ hpos] at hcon
    have h5 : ε / R * u N ω < ε / R * R := mul_lt_mul_of_pos_left hcon.2 (div_pos hε hR)
    rw [div_mul_cancel₀ _ hR.ne'] at h5
    linarith [hcon.1]
  refine (measure_mono hsub).trans ((measure_union_le _ _).trans ((add_le_add a1 a2).trans ?_))
  rw [ENNReal.add_halves]

variable {𝕜 : Type} [RCLike 𝕜] [MeasurableSpace 𝕜] [BorelSpace 𝕜] {p : ℕ}

/-- If all linear functionals of `√N (A N - S)` have normal limit laws and `A N` tends to `S`, then
differentiable functions have the limit law of their derivative. -/
theorem delta_of_limits {A : ℕ → Ω → Matrix (Fin p) (Fin p) 𝕜} {S H : Matrix (Fin p) (Fin p) 𝕜}
    (hS : S.IsHermitian) (hH : H.IsHermitian) (hA : ∀ᵐ ω ∂P, Tendsto (fun N => A N ω) atTop (𝓝 S))
    (hh : ∀ N ω, (A N ω).IsHermitian) (hmA : ∀ N B, AEMeasurable (fun ω => mip B (A N ω)) P)
    {v : Matrix (Fin p) (Fin p) 𝕜 → NNReal}
    (hd : ∀ B, TendstoInDistribution (fun (N : ℕ) ω => √N * mip B (A N ω - S)) atTop id (fun _ => P)
      (gaussianReal 0 (v B)))
    {g : Matrix (Fin p) (Fin p) 𝕜 → ℝ} (hm : Measurable fun a : Fin p → Fin p → 𝕜 => g (of a))
    (hg : HasGrad g S H) :
    TendstoInDistribution (fun (N : ℕ) ω => √N * (g (A N ω) - g S)) atTop id (fun _ => P)
      (gaussianReal 0 (v H)) := by
  have hmg : ∀ N : ℕ, AEMeasurable (fun ω => √(N : ℝ) * (g (A N ω) - g S)) P := fun N =>
    ((hm.comp_aemeasurable (aemeasurable_of_mip (hmA N))).sub_const _).const_mul _
  set u : ℕ → Ω → ℝ := fun N ω => 1 + ∑ t, |√(N : ℝ) * mip (unitDir t) (A N ω - S)| with hu
  refine tendstoInDistribution_of_tendstoInMeasure_sub _ _ (hd H) ?_ hmg
  refine small_of_bounded (u := u) (fun N => (hmg N).sub ((hd H).forall_aemeasurable N)) (fun N => ?_)
    (fun N ω => ?_) (fun d hd0 => ?_) ?_
  · refine AEMeasurable.const_add (Finset.aemeasurable_fun_sum _ fun t _ => ?_) _
    exact continuous_abs.measurable.comp_aemeasurable ((hd (unitDir t)).forall_aemeasurable N)
  · simp only [hu]
    have : 0 ≤ ∑ t, |√(N : ℝ) * mip (unitDir t) (A N ω - S)| := Finset.sum_nonneg fun t _ => abs_nonneg _
    linarith
  · set c : ENNReal := ((Fintype.card (Fin p × Fin p × Bool) : ℕ) : ENNReal) + 1 with hc
    have hct : c ≠ ⊤ := ENNReal.add_ne_top.2 ⟨ENNReal.natCast_ne_top _, ENNReal.one_ne_top⟩
    have hdc : 0 < d / c := ENNReal.div_pos hd0.ne' hct
    choose R hR0 hR using fun t : Fin p × Fin p × Bool => bounded_of_limit (hd (unitDir t)) hdc
    refine ⟨2 + ∑ t, R t, by have := Finset.sum_nonneg fun t (_ : t ∈ Finset.univ) => (hR0 t).le; linarith, ?_⟩
    filter_upwards [eventually_all.2 hR] with N hN
    have hsub : {ω | 2 + ∑ t, R t ≤ u N ω} ⊆
        ⋃ t ∈ (Finset.univ : Finset (Fin p × Fin p × Bool)), {ω | R t ≤ |√(N : ℝ) * mip (unitDir t) (A N ω - S)|} := by
      intro ω hω
      simp only [hu, Set.mem_ofPred_eq] at hω
      simp only [Finset.mem_univ, Set.iUnion_true, Set.mem_iUnion, Set.mem_ofPred_eq]
      by_contra hcon
      push Not at hcon
      linarith [Finset.sum_le_sum fun t (_ : t ∈ Finset.univ) => (hcon t).le]
    refine (measure_mono hsub).trans ((measure_biUnion_finset_le _ _).trans
      ((Finset.sum_le_sum fun t _ => hN t).trans ?_))
    rw [Finset.sum_const, Finset.card_univ, nsmul_eq_mul]
    calc ((Fintype.card (Fin p × Fin p × Bool) : ℕ) : ENNReal) * (d / c) ≤ c * (d / c) := by
          gcongr
          exact le_self_add
      _ ≤ d := ENNReal.mul_div_le
  · filter_upwards [hA] with ω hω ε hε
    filter_upwards [hg.small hH hS hω (Eventually.of_forall fun N => hh N ω) hε] with N hN
    have hs := Real.sqrt_nonneg (N : ℝ)
    simp only [Pi.sub_apply]
    rw [← mul_sub, abs_mul, abs_of_nonneg hs]
    refine (mul_le_mul_of_nonneg_left (hN.trans (mul_le_mul_of_nonneg_left (en_le_mip _) hε.le)) hs).trans ?_
    rw [mul_left_comm]
    refine mul_le_mul_of_nonneg_left ?_ hε.le
    simp only [hu, abs_mul, abs_of_nonneg hs, Finset.mul_sum]
    linarith

end
end RS
