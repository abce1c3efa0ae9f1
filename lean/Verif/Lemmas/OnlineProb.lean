import Verif.Lemmas.OnlineGauss
import Verif.Props.EmpConsist
import Mathlib.Probability.StrongLaw

/-
Sums of the squared norms of the samples (C168).
-/
set_option autoImplicit false

namespace RS
open Matrix ComplexOrder Filter Topology MeasureTheory ProbabilityTheory
open scoped ENNReal

/-- `∑ X_k² / (k+1)²` is finite for nonnegative `X_k` with one law and a finite mean. -/
theorem ae_summable_sq {Ω : Type*} [mΩ : MeasurableSpace Ω] {P : Measure Ω} [IsProbabilityMeasure P]
    {X : ℕ → Ω → ℝ} (hint : Integrable (X 0) P) (hnonneg : ∀ i, 0 ≤ X i)
    (hident : ∀ i, IdentDistrib (X i) (X 0) P P) :
    ∀ᵐ ω ∂P, Summable fun k : ℕ => X k ω ^ 2 / ((k : ℝ) + 1) ^ 2 := by
  let mΩ' : MeasureSpace Ω := ⟨P⟩
  have : IsProbabilityMeasure (ℙ : Measure Ω) := ‹IsProbabilityMeasure P›
  have A : (∑' j : ℕ, P {ω | X j ω ∈ Set.Ioi (j : ℝ)}) < ∞ := by
    convert! tsum_prob_mem_Ioi_lt_top hint (hnonneg 0) using 2
    ext1 j
    exact (hident j).measure_mem_eq measurableSet_Ioi
  have B := ae_eventually_notMem A.ne
  -- the truncated variables
  have hmeas : ∀ j : ℕ, AEStronglyMeasurable (X j) P := fun j =>
    ((hident j).aestronglyMeasurable_iff).2 hint.aestronglyMeasurable
  set Y : ℕ → Ω → ℝ := fun j ω => ((j : ℝ) ^ 2)⁻¹ * truncation (X j) j ω ^ 2 with hY
  have hY0 : ∀ j ω, 0 ≤ Y j ω := fun j ω => by simp only [hY]; positivity
  have hYint : ∀ j, Integrable (Y j) P := fun j =>
    ((hmeas j).memLp_truncation (p := 2)).integrable_sq.const_mul _
  have hYE : ∀ j : ℕ, ∫ ω, Y j ω ∂P = ((j : ℝ) ^ 2)⁻¹ * ∫ ω, truncation (X 0) j ω ^ 2 ∂P := by
    intro j
    simp only [hY]
    rw [integral_const_mul]
    congr 1
    exact (((hident j).truncation (A := j)).comp (u := fun y : ℝ => y ^ 2)
      (measurable_id.pow_const 2)).integral_eq
  have hsum : ∑' j, ∫⁻ ω, ENNReal.ofReal (Y j ω) ∂P ≤ ENNReal.ofReal (2 * ∫ ω, X 0 ω ∂P) := by
    refine ENNReal.tsum_le_of_sum_range_le fun K => ?_
    have h1 : ∀ j, ∫⁻ ω, ENNReal.ofReal (Y j ω) ∂P = ENNReal.ofReal (∫ ω, Y j ω ∂P) := fun j =>
      (ofReal_integral_eq_lintegral_ofReal (hYint j) (Eventually.of_forall (hY0 j))).symm
    simp only [h1]
    rw [← ENNReal.ofReal_sum_of_nonneg fun j _ => integral_nonneg (hY0 j)]
    refine ENNReal.ofReal_le_ofReal ?_
    simp only [hYE]
    exact sum_variance_truncation_le (Ω := Ω) hint (hnonneg 0) K
  have hfin : ∀ᵐ ω ∂P, ∑' j, ENNReal.ofReal (Y j ω) < ∞ := by
    refine ae_lt_top' (AEMeasurable.tsum fun j => (hYint j).aemeasurable.ennreal_ofReal) ?_
    rw [lintegral_tsum fun j => (hYint j).aemeasurable.ennreal_ofReal]
    exact (hsum.trans_lt ENNReal.ofReal_lt_top).ne
  filter_upwards [B, hfin] with ω h1 h2
  have hs : Summable fun j => Y j ω := by
    have h3 := ENNReal.summable_toReal h2.ne
    refine h3.congr fun j => ?_
    rw [ENNReal.toReal_ofReal (hY0 j ω)]
  refine Summable.of_norm_bounded_eventually_nat hs ?_
  filter_upwards [h1, eventually_ge_atTop 1] with j hj hj1
  have hX0 := hnonneg j ω
  have hle : X j ω ≤ j := by
    by_contra hcon
    exact hj (Set.mem_Ioi.2 (not_le.1 hcon))
  have ht : truncation (X j) j ω = X j ω := by
    rw [truncation_eq_of_nonneg (hnonneg j)]
    simp only [Function.comp_apply, Set.indicator, Set.mem_Ioc, id]
    split_ifs with h
    · rfl
    · have : ¬ 0 < X j ω := fun h' => h ⟨h', hle⟩
      exact le_antisymm hX0 (not_lt.1 this)
  have hj' : (1 : ℝ) ≤ j := by exact_mod_cast hj1
  simp only [hY]
  rw [Real.norm_of_nonneg (by positivity), ht, ← div_eq_inv_mul]
  gcongr
  linarith

section
variable {p : ℕ} {Ω : Type*} [MeasurableSpace Ω] {P : Measure Ω} [IsProbabilityMeasure P]
  {x : ℕ → Ω → Fin p → ℂ} {μ : Measure (Fin p → ℂ)} {S : Matrix (Fin p) (Fin p) ℂ}

theorem vsq_measurable : Measurable (vsq : (Fin p → ℂ) → ℝ) := by
  have : Continuous (vsq : (Fin p → ℂ) → ℝ) := by unfold vsq; fun_prop
  exact this.measurable

theorem vsq_integrable (hS : ∀ a b, Integrable (fun z : Fin p → ℂ => z a * star (z b)) μ) :
    Integrable vsq μ := by
  unfold vsq
  refine integrable_finsetSum _ fun j _ => ?_
  refine (hS j j).norm.congr (Eventually.of_forall fun z => ?_)
  simp only [norm_mul, norm_star]
  ring

theorem IIDSamples.summable (h : IIDSamples P x μ)
    (hS : ∀ a b, Integrable (fun z : Fin p → ℂ => z a * star (z b)) μ) :
    ∀ᵐ ω ∂P, Summable fun k : ℕ => vsq (x k ω) ^ 2 / ((k : ℝ) + 1) ^ 2 := by
  refine ae_summable_sq (X := fun k ω => vsq (x k ω)) ?_ (fun i ω => vsq_nonneg _) fun i => ?_
  · have hi := vsq_integrable hS
    rw [← h.law 0] at hi
    exact hi.comp_measurable (h.meas 0)
  · exact (show IdentDistrib (x i) (x 0) P P from ⟨(h.meas i).aemeasurable, (h.meas 0).aemeasurable,
      (h.law i).trans (h.law 0).symm⟩).comp vsq_measurable

omit [IsProbabilityMeasure P] in
theorem IIDSamples.scatter (h : IIDSamples P x μ)
    (hS : ∀ a b, Integrable (fun z : Fin p → ℂ => z a * star (z b)) μ ∧
      ∫ z, z a * star (z b) ∂μ = S a b) :
    ∀ᵐ ω ∂P, Tendsto (fun n : ℕ => (n : ℂ)⁻¹ • scatterSum (fun k => x k ω) n) atTop (𝓝 S) := by
  have hall : ∀ᵐ ω ∂P, ∀ a b, Tendsto (fun N : ℕ => (N : ℂ)⁻¹ * ∑ i : Fin N, x i ω a * star (x i ω b))
      atTop (𝓝 (S a b)) := by
    rw [ae_all_iff]; intro a
    rw [ae_all_iff]; intro b
    have := h.average (raw_measurable a b) (hS a b).1
    rwa [(hS a b).2] at this
  filter_upwards [hall] with ω hω
  refine tendsto_pi_nhds.2 fun a => tendsto_pi_nhds.2 fun b => (hω a b).congr fun n => ?_
  rw [scatterSum, Matrix.smul_apply, Matrix.sum_apply, Finset.sum_range, smul_eq_mul]
  rfl

omit [IsProbabilityMeasure P] in
theorem IIDSamples.fourth (h : IIDSamples P x μ) (h4 : FourthMoment μ) :
    ∀ᵐ ω ∂P, ∃ F : ℝ, ∀ n : ℕ, ∑ j ∈ Finset.range n, vsq (x j ω) ^ 2 ≤ F * n := by
  have hm : Measurable fun z : Fin p → ℂ => ((vsq z ^ 2 : ℝ) : ℂ) :=
    Complex.measurable_ofReal.comp (vsq_measurable.pow_const 2)
  have hi : Integrable (fun z : Fin p → ℂ => ((vsq z ^ 2 : ℝ) : ℂ)) μ := Integrable.ofReal h4
  filter_upwards [h.average hm hi] with ω hω
  have hre := (Complex.continuous_re.tendsto _).comp hω
  obtain ⟨F, hF⟩ := hre.bddAbove_range
  refine ⟨F, fun n => ?_⟩
  rcases Nat.eq_zero_or_pos n with rfl | hn
  · simp
  have h1 := hF ⟨n, rfl⟩
  simp only [Function.comp_apply] at h1
  have hn' : (0 : ℝ) < n := by exact_mod_cast hn
  have e : ((n : ℂ)⁻¹ * ∑ i : Fin n, ((vsq (x i ω) ^ 2 : ℝ) : ℂ)).re =
      (∑ j ∈ Finset.range n, vsq (x j ω) ^ 2) / n := by
    rw [Finset.sum_range, ← Complex.ofReal_sum, ← Complex.ofReal_natCast, ← Complex.ofReal_inv,
      ← Complex.ofReal_mul, Complex.ofReal_re, div_eq_inv_mul]
  rw [e, div_le_iff₀ hn'] at h1
  exact h1

end
end RS
