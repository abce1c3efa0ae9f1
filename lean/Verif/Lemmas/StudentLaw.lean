import Verif.Lemmas.StudentExpand

/-! The limit law of the Student estimates. -/
set_option autoImplicit false

namespace RS
open Matrix ComplexOrder Filter Topology MeasureTheory ProbabilityTheory

section
variable {Ω : Type*} [MeasurableSpace Ω] {P : Measure Ω} [IsProbabilityMeasure P]

/-- A sequence that is a vanishing multiple of an integrable sequence tends to zero in measure. -/
theorem small_in_measure {r u : ℕ → Ω → ℝ} {V : ℝ} (hr : ∀ N, AEMeasurable (r N) P)
    (hu : ∀ N, AEMeasurable (u N) P) (hu1 : ∀ N ω, 1 ≤ u N ω)
    (hi : ∀ᶠ N in atTop, Integrable (u N) P ∧ ∫ ω, u N ω ∂P ≤ V)
    (hs : ∀ᵐ ω ∂P, ∀ ε : ℝ, 0 < ε → ∀ᶠ N in atTop, |r N ω| ≤ ε * u N ω) :
    TendstoInMeasure P r atTop 0 := by
  have hv : TendstoInMeasure P (fun N ω => r N ω / u N ω) atTop (fun _ => (0 : ℝ)) := by
    refine tendstoInMeasure_of_tendsto_ae (fun N => ((hr N).div (hu N)).aestronglyMeasurable) ?_
    filter_upwards [hs] with ω hω
    rw [Metric.tendsto_atTop']
    intro ε hε
    obtain ⟨N₀, h0⟩ := eventually_atTop.1 (hω (ε / 2) (half_pos hε))
    refine ⟨N₀, fun N hN => ?_⟩
    have hpos : 0 < u N ω := lt_of_lt_of_le one_pos (hu1 N ω)
    rw [Real.dist_eq, sub_zero, abs_div, abs_of_pos hpos, div_lt_iff₀ hpos]
    have := h0 N hN.le
    nlinarith
  rw [tendstoInMeasure_iff_norm] at hv ⊢
  intro ε hε
  have hV : 0 ≤ V := by
    obtain ⟨N, h1, h2⟩ := hi.exists
    exact (integral_nonneg fun ω => zero_le_one.trans (hu1 N ω)).trans h2
  rw [ENNReal.tendsto_atTop_zero]
  intro d hd
  obtain ⟨d', hd'0, hd'⟩ : ∃ d' : ℝ, 0 < d' ∧ ENNReal.ofReal d' ≤ d := by
    rcases eq_or_ne d ⊤ with rfl | hne
    · exact ⟨1, one_pos, le_top⟩
    · exact ⟨d.toReal, ENNReal.toReal_pos hd.ne' hne, by rw [ENNReal.ofReal_toReal hne]⟩
  set η : ℝ := ε * d' / (2 * (V + 1)) with hη
  have hη0 : 0 < η := by positivity
  have h1 := (ENNReal.tendsto_atTop_zero.1 (hv η hη0)) (ENNReal.ofReal (d' / 2))
    (ENNReal.ofReal_pos.2 (half_pos hd'0))
  obtain ⟨N₁, hN₁⟩ := h1
  obtain ⟨N₂, hN₂⟩ := eventually_atTop.1 hi
  refine ⟨max N₁ N₂, fun N hN => ?_⟩
  have a1 := hN₁ N (le_trans (le_max_left _ _) hN)
  obtain ⟨i1, i2⟩ := hN₂ N (le_trans (le_max_right _ _) hN)
  have a2 : P {ω | ε / η ≤ u N ω} ≤ ENNReal.ofReal (d' / 2) := by
    have hm := mul_meas_ge_le_integral_of_nonneg (Eventually.of_forall fun ω =>
      zero_le_one.trans (hu1 N ω)) i1 (ε / η)
    have h4 : P.real {ω | ε / η ≤ u N ω} ≤ d' / 2 := by
      have e : ε / η = 2 * (V + 1) / d' := by
        rw [hη]
        field_simp
      have h5 : 2 * (V + 1) / d' * P.real {ω | ε / η ≤ u N ω} ≤ V + 1 := by
        rw [← e]; linarith
      rw [div_mul_eq_mul_div, div_le_iff₀ hd'0] at h5
      have h6 : (V + 1) * (2 * P.real {ω | ε / η ≤ u N ω}) ≤ (V + 1) * d' := by linarith
      have := le_of_mul_le_mul_left h6 (by linarith)
      linarith
    rw [← ENNReal.ofReal_toReal (measure_ne_top P {ω | ε / η ≤ u N ω})]
    exact ENNReal.ofReal_le_ofReal h4
  have hsub : {ω | ε ≤ ‖r N ω - (0 : Ω → ℝ) ω‖} ⊆ {ω | η ≤ ‖r N ω / u N ω - 0‖} ∪ {ω | ε / η ≤ u N ω} := by
    intro ω hω
    simp only [Set.mem_ofPred_eq, Pi.zero_apply, sub_zero, Set.mem_union] at hω ⊢
    by_contra hcon
    push Not at hcon
    have hpos : 0 < u N ω := lt_of_lt_of_le one_pos (hu1 N ω)
    rw [norm_div, Real.norm_of_nonneg hpos.le, div_lt_iff₀ hpos, lt_div_iff₀ hη0] at hcon
    nlinarith [hcon.1, hcon.2]
  refine (measure_mono hsub).trans ((measure_union_le _ _).trans ((add_le_add a1 a2).trans ?_))
  rw [← ENNReal.ofReal_add (by positivity) (by positivity), add_halves]
  exact hd'
end

section
set_option linter.unusedSectionVars false
variable {𝕜 : Type} [RCLike 𝕜] [MeasurableSpace 𝕜] [BorelSpace 𝕜] {p : ℕ}
  {μ : Measure (Fin p → 𝕜)} [IsProbabilityMeasure μ] {κ : ℝ} {S : Matrix (Fin p) (Fin p) 𝕜}
  {Ω : Type*} [MeasurableSpace Ω] {P : Measure Ω} [IsProbabilityMeasure P] {x : ℕ → Ω → Fin p → 𝕜}

/-- Entries that depend measurably on the outcome. -/
def MeasEntries (A : Ω → Matrix (Fin p) (Fin p) 𝕜) : Prop := ∀ a b, Measurable fun ω => A ω a b

theorem MeasEntries.det' {n : ℕ} {A : Ω → Matrix (Fin n) (Fin n) 𝕜} (h : MeasEntries A) :
    Measurable fun ω => (A ω).det := by
  simp only [det_apply]
  refine Finset.measurable_fun_sum _ fun σ _ => Measurable.const_smul ?_ _
  exact Finset.measurable_fun_prod _ fun i _ => h _ _

theorem MeasEntries.inv {A : Ω → Matrix (Fin p) (Fin p) 𝕜} (h : MeasEntries A) :
    MeasEntries fun ω => (A ω)⁻¹ := fun a b => by
  simp only [Matrix.inv_def, Ring.inverse_eq_inv', Matrix.smul_apply, smul_eq_mul, adjugate_apply]
  refine h.det'.inv.mul (MeasEntries.det' fun c d => ?_)
  simp only [updateRow_apply]
  split_ifs with hc
  · exact measurable_const
  · exact h c d

theorem MeasEntries.qf {A : Ω → Matrix (Fin p) (Fin p) 𝕜} (h : MeasEntries A) {y : Ω → Fin p → 𝕜}
    (hy : Measurable y) : Measurable fun ω => qf (A ω) (y ω) := by
  simp only [RS.qf, dotProduct, mulVec]
  have hya : ∀ a, Measurable fun ω => y ω a := fun a => (measurable_pi_apply a).comp hy
  refine RCLike.continuous_re.measurable.comp (Finset.measurable_fun_sum _ fun a _ => ?_)
  refine Measurable.mul (continuous_star.measurable.comp (hya a)) ?_
  exact Finset.measurable_fun_sum _ fun b _ => (h.inv a b).mul (hya b)

theorem MeasEntries.step (h : IIDSamples P x μ) (κ : ℝ) {A : Ω → Matrix (Fin p) (Fin p) 𝕜}
    (hA : MeasEntries A) (N : ℕ) :
    MeasEntries fun ω => mStep (wStudent κ p) (firstSamples x ω N) (A ω) := fun a b => by
  simp only [mStep, scatter_apply]
  refine (Finset.measurable_fun_sum _ fun i _ => ?_).const_mul _
  have hx : ∀ a, Measurable fun ω => x i ω a := fun a => (measurable_pi_apply a).comp (h.meas i)
  refine Measurable.mul (RCLike.continuous_ofReal.measurable.comp ?_) ((hx a).mul
    (continuous_star.measurable.comp (hx b)))
  exact ((hA.qf (h.meas i)).const_add κ).const_div _

theorem MeasEntries.iter (h : IIDSamples P x μ) (κ : ℝ) (N k : ℕ) :
    MeasEntries fun ω => mIter (wStudent κ p) (firstSamples x ω N) (1 : Matrix (Fin p) (Fin p) 𝕜) k := by
  induction k with
  | zero => exact fun a b => measurable_const
  | succ k ih => exact ih.step h κ N

theorem measurable_mip (H : Matrix (Fin p) (Fin p) 𝕜) {A : Ω → Matrix (Fin p) (Fin p) 𝕜}
    (h : MeasEntries A) : Measurable fun ω => mip H (A ω) := by
  simp only [mip_apply]
  exact Finset.measurable_fun_sum _ fun i _ => Finset.measurable_fun_sum _ fun j _ =>
    RCLike.continuous_re.measurable.comp ((h j i).const_mul _)

theorem continuous_mip (H : Matrix (Fin p) (Fin p) 𝕜) : Continuous (mip H) := by
  have : mip H = fun A => ∑ i, ∑ j, RCLike.re (star (H j i) * A j i) := funext (mip_apply H)
  rw [this]
  fun_prop

/-- `T N ω` is the solution for the first `N` samples, if there are `p` of them. -/
theorem student_T_measurable (h : IIDSamples P x μ) (hκ : 0 < κ) {T : ℕ → Ω → Matrix (Fin p) (Fin p) 𝕜}
    (hT : ∀ N, p ≤ N → ∀ᵐ ω ∂P, (T N ω).PosDef ∧ mStep (wStudent κ p) (firstSamples x ω N) (T N ω) = T N ω)
    (hT' : ∀ N, N < p → ∀ ω, T N ω = S) (H : Matrix (Fin p) (Fin p) 𝕜) (N : ℕ) :
    AEMeasurable (fun ω => mip H (T N ω)) P := by
  rcases lt_or_ge N p with hN | hN
  · simp only [hT' N hN]
    exact aemeasurable_const
  · refine aemeasurable_of_tendsto_metrizable_ae atTop (fun k =>
      (measurable_mip H (MeasEntries.iter h κ N k)).aemeasurable) ?_
    filter_upwards [hT N hN] with ω hω
    exact ((continuous_mip H).tendsto _).comp
      (tendsto_of_frob (student_tendsto hκ _ hω.1 PosDef.one hω.2))

theorem avgScore_measurable (h : IIDSamples P x μ) (K : Matrix (Fin p) (Fin p) 𝕜) (N : ℕ) :
    Measurable fun ω => avgScore κ μ S K x N ω := by
  unfold avgScore
  have h1 : ∀ i ∈ (Finset.univ : Finset (Fin N)), Measurable fun ω => wScore κ S K (x i ω) := fun i _ =>
    (measurable_score κ S K).comp (h.meas i)
  exact ((Finset.measurable_fun_sum _ h1).const_mul _).sub_const _

/-- The central limit theorem for any consistent solutions of the equation. -/
theorem fixed_clt {ι : Type} [Fintype ι] (h : IIDSamples P x μ) (hκ : 0 ≤ κ)
    (hS : S.PosDef) (hf : PopFixed κ μ S) {T : ℕ → Ω → Matrix (Fin p) (Fin p) 𝕜}
    {Z : ℕ → Ω → ℝ} {H K : Matrix (Fin p) (Fin p) 𝕜} (hK : jac κ μ S K = S * H * S)
    {B L : ι → Matrix (Fin p) (Fin p) 𝕜} (hL : ∀ t, jac κ μ S (L t) = S * B t * S)
    (hZ : ∀ N, AEMeasurable (Z N) P)
    (hT : ∀ᵐ ω ∂P, Tendsto (fun N => T N ω) atTop (𝓝 S) ∧
      (∀ᶠ N in atTop, (T N ω).PosDef ∧ mStep (wStudent κ p) (firstSamples x ω N) (T N ω) = T N ω) ∧
      (∀ᶠ N in atTop, en (T N ω - S) ≤ ∑ t, |mip (B t) (T N ω - S)|) ∧
      ∀ ε : ℝ, 0 < ε → ∀ᶠ N in atTop, |Z N ω - mip H (T N ω - S)| ≤ ε * en (T N ω - S)) :
    TendstoInDistribution (fun (N : ℕ) ω => √N * Z N ω) atTop id (fun _ => P)
      (gaussianReal 0 Var[wScore κ S K; μ].toNNReal) := by
  have hc := h.clt (measurable_score κ S K) (score_memLp hκ hS K)
  have hm : ∀ N : ℕ, AEMeasurable (fun ω => √(N : ℝ) * Z N ω) P := fun N => (hZ N).const_mul _
  set u : ℕ → Ω → ℝ := fun N ω => 1 + ∑ t, (1 + N * avgScore κ μ S (L t) x N ω ^ 2) with hu
  have hmse : ∀ (N : ℕ) t, 0 < N → Integrable (fun ω => avgScore κ μ S (L t) x N ω ^ 2) P ∧
      ∫ ω, avgScore κ μ S (L t) x N ω ^ 2 ∂P =
        (∫ z, wScore κ S (L t) z ^ 2 ∂μ - (∫ z, wScore κ S (L t) z ∂μ) ^ 2) / N := fun N t hN =>
    h.real_mse (measurable_score κ S (L t)) (score_memLp hκ hS (L t)) hN
  have hsmall : TendstoInMeasure P ((fun (N : ℕ) ω => √(N : ℝ) * Z N ω) -
      fun (N : ℕ) ω => √(N : ℝ) * ((N : ℝ)⁻¹ * ∑ i : Fin N, wScore κ S K (x i ω) -
        ∫ z, wScore κ S K z ∂μ)) atTop 0 := by
    refine small_in_measure (u := u) (V := 1 + ∑ t, (1 + (∫ z, wScore κ S (L t) z ^ 2 ∂μ -
      (∫ z, wScore κ S (L t) z ∂μ) ^ 2))) (fun N => (hm N).sub (hc.forall_aemeasurable N))
      (fun N => ?_) (fun N ω => ?_) ?_ ?_
    · refine AEMeasurable.const_add (Finset.aemeasurable_fun_sum _ fun t _ => ?_) _
      exact ((((avgScore_measurable h (L t) N).pow_const 2).const_mul _).const_add _).aemeasurable
    · simp only [hu]
      have : 0 ≤ ∑ t, (1 + N * avgScore κ μ S (L t) x N ω ^ 2) :=
        Finset.sum_nonneg fun t _ => by positivity
      linarith
    · filter_upwards [eventually_gt_atTop 0] with N hN
      have hN' : (N : ℝ) ≠ 0 := by exact_mod_cast hN.ne'
      have i1 : ∀ t, Integrable (fun ω => 1 + N * avgScore κ μ S (L t) x N ω ^ 2) P := fun t =>
        (integrable_const 1).add ((hmse N t hN).1.const_mul _)
      refine ⟨(integrable_const 1).add (integrable_finsetSum _ fun t _ => i1 t), le_of_eq ?_⟩
      simp only [hu]
      rw [integral_add (integrable_const 1) (integrable_finsetSum _ fun t _ => i1 t),
        integral_finsetSum _ fun t _ => i1 t]
      simp only [integral_const, probReal_univ, smul_eq_mul, mul_one]
      congr 1
      refine Finset.sum_congr rfl fun t _ => ?_
      rw [integral_add (integrable_const 1) ((hmse N t hN).1.const_mul _), integral_const_mul,
        (hmse N t hN).2, mul_div_cancel₀ _ hN']
      simp
    · filter_upwards [fixed_expand h hκ hS hf hK hL, hT] with ω h1 h2 ε hε
      have h4 := h1 (fun N => T N ω) h2.1 h2.2.1 h2.2.2.1 (ε / 2) (half_pos hε)
      filter_upwards [h4, h2.2.2.2 (ε / 4) (by positivity)] with N hN4 hN5
      have hN : |Z N ω - avgScore κ μ S K x N ω| ≤ ε * ∑ t, |avgScore κ μ S (L t) x N ω| := by
        have b1 := abs_sub_le (Z N ω) (mip H (T N ω - S)) (avgScore κ μ S K x N ω)
        have b2 := mul_le_mul_of_nonneg_left hN4.2 (by positivity : 0 ≤ ε / 4)
        linarith [hN4.1]
      have hs := Real.sqrt_nonneg (N : ℝ)
      simp only [Pi.sub_apply]
      rw [← mul_sub, abs_mul, abs_of_nonneg hs]
      refine (mul_le_mul_of_nonneg_left hN hs).trans ?_
      rw [mul_left_comm]
      refine mul_le_mul_of_nonneg_left ?_ hε.le
      rw [Finset.mul_sum]
      have : ∑ t, √(N : ℝ) * |avgScore κ μ S (L t) x N ω| ≤
          ∑ t, (1 + N * avgScore κ μ S (L t) x N ω ^ 2) := Finset.sum_le_sum fun t _ => by
        have e1 : (√(N : ℝ) * |avgScore κ μ S (L t) x N ω|) ^ 2 = N * avgScore κ μ S (L t) x N ω ^ 2 := by
          rw [mul_pow, Real.sq_sqrt (Nat.cast_nonneg N), sq_abs]
        nlinarith [sq_nonneg (√(N : ℝ) * |avgScore κ μ S (L t) x N ω| - 1)]
      simp only [hu]
      linarith
  exact tendstoInDistribution_of_tendstoInMeasure_sub _ _ hc hsmall hm

/-- The central limit theorem for functions of the solutions. -/
theorem student_clt_of (h : IIDSamples P x μ) (hμ : NullSubspaces μ) (hp : 0 < p) (hκ : 0 < κ)
    (hS : S.PosDef) (hf : PopFixed κ μ S) {T : ℕ → Ω → Matrix (Fin p) (Fin p) 𝕜}
    (hT : ∀ N, p ≤ N → ∀ᵐ ω ∂P, (T N ω).PosDef ∧ mStep (wStudent κ p) (firstSamples x ω N) (T N ω) = T N ω)
    {H K : Matrix (Fin p) (Fin p) 𝕜} (hK : jac κ μ S K = S * H * S)
    {Z : ℕ → Ω → ℝ} (hZ : ∀ N, AEMeasurable (Z N) P)
    (hZ' : ∀ ω, Tendsto (fun N => T N ω) atTop (𝓝 S) → (∀ᶠ N in atTop, (T N ω).PosDef) →
      ∀ ε : ℝ, 0 < ε → ∀ᶠ N in atTop, |Z N ω - mip H (T N ω - S)| ≤ ε * en (T N ω - S)) :
    TendstoInDistribution (fun (N : ℕ) ω => √N * Z N ω) atTop id (fun _ => P)
      (gaussianReal 0 Var[wScore κ S K; μ].toNNReal) := by
  choose L hL using fun t => (jac_bij hμ hκ hS hf).2 (S * unitDir t * S)
  have hall : ∀ᵐ ω ∂P, ∀ N, p ≤ N → (T N ω).PosDef ∧
      mStep (wStudent κ p) (firstSamples x ω N) (T N ω) = T N ω := by
    rw [ae_all_iff]
    intro N
    by_cases hN : p ≤ N
    · filter_upwards [hT N hN] with ω hω _ using hω
    · exact Eventually.of_forall fun ω h => absurd h hN
  refine fixed_clt h hκ.le hS hf hK hL (T := T) hZ ?_
  filter_upwards [h.student_consistent hμ hp hκ hS hf, hall] with ω h2 h3
  have hev : ∀ᶠ N in atTop, (T N ω).PosDef ∧
      mStep (wStudent κ p) (firstSamples x ω N) (T N ω) = T N ω := by
    filter_upwards [eventually_ge_atTop p] with N hN using h3 N hN
  have hlim := h2 (fun N => T N ω) hev
  exact ⟨hlim, hev, Eventually.of_forall fun N => en_le_mip _, hZ' ω hlim (hev.mono fun N hN => hN.1)⟩

/-- The central limit theorem for the solutions. -/
theorem student_clt (h : IIDSamples P x μ) (hμ : NullSubspaces μ) (hp : 0 < p) (hκ : 0 < κ)
    (hS : S.PosDef) (hf : PopFixed κ μ S) {T : ℕ → Ω → Matrix (Fin p) (Fin p) 𝕜}
    (hT : ∀ N, p ≤ N → ∀ᵐ ω ∂P, (T N ω).PosDef ∧ mStep (wStudent κ p) (firstSamples x ω N) (T N ω) = T N ω)
    (hT' : ∀ N, N < p → ∀ ω, T N ω = S) {H K : Matrix (Fin p) (Fin p) 𝕜}
    (hK : jac κ μ S K = S * H * S) :
    TendstoInDistribution (fun (N : ℕ) ω => √N * mip H (T N ω - S)) atTop id (fun _ => P)
      (gaussianReal 0 Var[wScore κ S K; μ].toNNReal) := by
  refine student_clt_of h hμ hp hκ hS hf hT hK (fun N => ?_) fun ω _ _ ε hε => Eventually.of_forall fun N => ?_
  · simp only [mip_sub]
    exact (student_T_measurable h hκ hT hT' H N).sub_const _
  · rw [sub_self, abs_zero]
    exact mul_nonneg hε.le (en_nonneg _)

end
end RS
