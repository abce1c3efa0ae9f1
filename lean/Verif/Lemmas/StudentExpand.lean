import Verif.Lemmas.StudentOp

/-! The Student estimate is, to first order, an average over the samples. -/
set_option autoImplicit false

namespace RS
open Matrix ComplexOrder Filter Topology MeasureTheory ProbabilityTheory

section
set_option linter.unusedSectionVars false
variable {𝕜 : Type} [RCLike 𝕜] [MeasurableSpace 𝕜] [BorelSpace 𝕜] {p : ℕ}
  {μ : Measure (Fin p → 𝕜)} [IsProbabilityMeasure μ] {κ : ℝ} {S : Matrix (Fin p) (Fin p) 𝕜}
  {Ω : Type*} [MeasurableSpace Ω] {P : Measure Ω} [IsProbabilityMeasure P] {x : ℕ → Ω → Fin p → 𝕜}

/-- The centred average of the scores. -/
noncomputable def avgScore (κ : ℝ) (μ : Measure (Fin p → 𝕜)) (S K : Matrix (Fin p) (Fin p) 𝕜)
    (x : ℕ → Ω → Fin p → 𝕜) (N : ℕ) (ω : Ω) : ℝ :=
  (N : ℝ)⁻¹ * ∑ i : Fin N, wScore κ S K (x i ω) - ∫ z, wScore κ S K z ∂μ

theorem avgScore_eq (hκ : 0 ≤ κ) (hS : S.PosDef) (hf : PopFixed κ μ S) (K : Matrix (Fin p) (Fin p) 𝕜)
    (N : ℕ) (ω : Ω) : avgScore κ μ S K x N ω =
      mip K (mStep (wStudent κ p) (firstSamples x ω N) S) - mip K S := by
  rw [avgScore, score_mean hκ hS hf, mip_mStep]
  rfl

theorem mip_scatter {N : ℕ} (g : Fin N → ℝ) (X : Matrix (Fin N) (Fin p) 𝕜)
    (D : Matrix (Fin p) (Fin p) 𝕜) :
    mip D (scatter g X) = (N : ℝ)⁻¹ * ∑ i, g i * hfm D (sample X i) := by
  unfold scatter
  have e : (N : 𝕜)⁻¹ = (((N : ℝ)⁻¹ : ℝ) : 𝕜) := by push_cast; rfl
  rw [e, mip_smul, mip_sum]
  congr 1
  refine Finset.sum_congr rfl fun i _ => ?_
  rw [mip_smul, mip_outer]

/-- One linear function of the error, up to a small multiple of the error. -/
theorem student_expand_one (h : IIDSamples P x μ) (hκ : 0 ≤ κ) (hS : S.PosDef) (hf : PopFixed κ μ S)
    {H K : Matrix (Fin p) (Fin p) 𝕜} (hK : jac κ μ S K = S * H * S) :
    ∀ᵐ ω ∂P, ∀ Q : ℕ → Matrix (Fin p) (Fin p) 𝕜, Tendsto Q atTop (𝓝 S) →
      (∀ᶠ N in atTop, (Q N).PosDef ∧ mStep (wStudent κ p) (firstSamples x ω N) (Q N) = Q N) →
      ∀ ε : ℝ, 0 < ε → ∀ᶠ N in atTop,
        |mip H (Q N - S) - avgScore κ μ S K x N ω| ≤ ε * en (S⁻¹ - (Q N)⁻¹) := by
  obtain ⟨C, δ, hδ, hC, hexp⟩ := step_expand hκ hS K
  filter_upwards [h.scatter_limit (measurable_dWeight κ S K) (dWeight_int hκ hS K)] with ω hω Q hQ hfix ε hε
  have t1 := tendsto_en hω
  have t2 := tendsto_en hQ
  have t3 : Tendsto (fun k => en (S⁻¹ - (Q k)⁻¹)) atTop (𝓝 0) := by
    refine (tendsto_en (tendsto_inv hQ hS.isUnit)).congr fun k => ?_
    rw [← en_neg, neg_sub]
  have t4 : Tendsto (fun k => en (scatter (fun i : Fin k => dWeight κ S K (x i ω)) (firstSamples x ω k) -
      wMoment (dWeight κ S K) μ) + (en K + en H) * en S * en (Q k - S) + C * en (S⁻¹ - (Q k)⁻¹))
      atTop (𝓝 0) := by
    have := (t1.add (t2.const_mul ((en K + en H) * en S))).add (t3.const_mul C)
    simpa using this
  filter_upwards [hfix, t3.eventually (gt_mem_nhds hδ), t4.eventually (gt_mem_nhds hε),
    eventually_gt_atTop 0] with N h1 h2 h3 hN
  obtain ⟨hQp, hQf⟩ := h1
  have hx := hexp N (firstSamples x ω N) (Q N) hN h2.le
  set D := S⁻¹ - (Q N)⁻¹ with hD
  have hSd := (Matrix.isUnit_iff_isUnit_det S).1 hS.isUnit
  have hQd := (Matrix.isUnit_iff_isUnit_det (Q N)).1 hQp.isUnit
  have eD : Q N - S = S * D * S + S * D * (Q N - S) := by
    rw [Matrix.mul_sub (S * D), add_sub_cancel, hD, Matrix.mul_sub, mul_nonsing_inv _ hSd, Matrix.sub_mul,
      Matrix.one_mul, Matrix.mul_assoc, nonsing_inv_mul _ hQd, Matrix.mul_one]
  rw [hQf] at hx
  have eA : (N : ℝ)⁻¹ * ∑ i, (κ + p) / (κ + qf S (sample (firstSamples x ω N) i)) ^ 2 *
      hfm K (sample (firstSamples x ω N) i) * hfm D (sample (firstSamples x ω N) i) =
      mip D (scatter (fun i : Fin N => dWeight κ S K (x i ω)) (firstSamples x ω N)) := by
    rw [mip_scatter]
    rfl
  rw [eA] at hx
  have j1 := jac_symm (μ := μ) (κ := κ) hS K D
  rw [hK, mip_comm D, ← mip_sandwich hS.isHermitian] at j1
  have k1 : mip K (Q N - S) = mip K (S * D * S) + mip K (S * D * (Q N - S)) := by
    rw [← mip_add, ← eD]
  have k2 : mip H (Q N - S) = mip H (S * D * S) + mip H (S * D * (Q N - S)) := by
    rw [← mip_add, ← eD]
  have b0 : en (S * D * (Q N - S)) ≤ en S * en D * en (Q N - S) :=
    (en_mul_le _ _).trans (mul_le_mul_of_nonneg_right (en_mul_le _ _) (en_nonneg _))
  have b1 := (abs_mip_le K (S * D * (Q N - S))).trans (mul_le_mul_of_nonneg_left b0 (en_nonneg K))
  have b2 := (abs_mip_le H (S * D * (Q N - S))).trans (mul_le_mul_of_nonneg_left b0 (en_nonneg H))
  have b3 := abs_mip_le D (scatter (fun i : Fin N => dWeight κ S K (x i ω)) (firstSamples x ω N) -
    wMoment (dWeight κ S K) μ)
  rw [mip_sub] at b3
  rw [avgScore_eq hκ hS hf]
  rw [mip_sub] at k1
  have h5 := mul_le_mul_of_nonneg_right h3.le (en_nonneg D)
  rw [abs_le] at *
  constructor <;> nlinarith

theorem norm_entry_mip (A : Matrix (Fin p) (Fin p) 𝕜) (a b : Fin p) :
    ‖A a b‖ ≤ |mip (Matrix.single a b 1) A| + |mip (Matrix.single a b RCLike.I) A| := by
  have e : ∀ c : 𝕜, mip (Matrix.single a b c) A = RCLike.re (star c * A a b) := fun c => by
    rw [mip, conjTranspose_single, trace_mul_comm, trace_mul_single, mul_comm (star c)]
    rfl
  rw [e, e, star_one, one_mul, RCLike.star_def, RCLike.conj_I, RCLike.mul_re]
  have h1 : ‖A a b‖ ≤ |RCLike.re (A a b)| + |RCLike.im (A a b)| := by
    refine (sq_le_sq₀ (norm_nonneg _) (by positivity)).1 ?_
    rw [RCLike.norm_sq_eq_def_ax, ← abs_mul_abs_self (RCLike.re (A a b)),
      ← abs_mul_abs_self (RCLike.im (A a b))]
    nlinarith [abs_nonneg (RCLike.re (A a b)), abs_nonneg (RCLike.im (A a b))]
  have h2 : -RCLike.im (-RCLike.I : 𝕜) * RCLike.im (A a b) = RCLike.im (A a b) := by
    rw [map_neg, neg_neg, mul_comm, RCLike.mul_im_I_ax]
  have h3 : RCLike.re (-RCLike.I : 𝕜) = 0 := by simp
  rw [h3, zero_mul, zero_sub, ← neg_mul, h2]
  exact h1

/-- The directions in which the entries of the error are read off. -/
noncomputable def unitDir (t : Fin p × Fin p × Bool) : Matrix (Fin p) (Fin p) 𝕜 :=
  Matrix.single t.1 t.2.1 (if t.2.2 then 1 else RCLike.I)

theorem en_le_mip (A : Matrix (Fin p) (Fin p) 𝕜) : en A ≤ ∑ t, |mip (unitDir t) A| := by
  rw [Fintype.sum_prod_type]
  refine Finset.sum_le_sum fun a _ => ?_
  rw [Fintype.sum_prod_type]
  refine Finset.sum_le_sum fun b _ => ?_
  rw [Fintype.sum_bool]
  simpa [unitDir] using norm_entry_mip A a b

/-- All linear functions of the error, up to small multiples of averages of scores. -/
theorem fixed_expand {ι : Type} [Fintype ι] (h : IIDSamples P x μ) (hκ : 0 ≤ κ) (hS : S.PosDef) (hf : PopFixed κ μ S)
    {H K : Matrix (Fin p) (Fin p) 𝕜} (hK : jac κ μ S K = S * H * S)
    {B L : ι → Matrix (Fin p) (Fin p) 𝕜} (hL : ∀ t, jac κ μ S (L t) = S * B t * S) :
    ∀ᵐ ω ∂P, ∀ Q : ℕ → Matrix (Fin p) (Fin p) 𝕜, Tendsto Q atTop (𝓝 S) →
      (∀ᶠ N in atTop, (Q N).PosDef ∧ mStep (wStudent κ p) (firstSamples x ω N) (Q N) = Q N) →
      (∀ᶠ N in atTop, en (Q N - S) ≤ ∑ t, |mip (B t) (Q N - S)|) →
      ∀ ε : ℝ, 0 < ε → ∀ᶠ N in atTop,
        |mip H (Q N - S) - avgScore κ μ S K x N ω| ≤ ε * ∑ t, |avgScore κ μ S (L t) x N ω| ∧
        en (Q N - S) ≤ 2 * ∑ t, |avgScore κ μ S (L t) x N ω| := by
  have hall : ∀ᵐ ω ∂P, ∀ t, ∀ Q : ℕ → Matrix (Fin p) (Fin p) 𝕜, Tendsto Q atTop (𝓝 S) →
      (∀ᶠ N in atTop, (Q N).PosDef ∧ mStep (wStudent κ p) (firstSamples x ω N) (Q N) = Q N) →
      ∀ ε : ℝ, 0 < ε → ∀ᶠ N in atTop,
        |mip (B t) (Q N - S) - avgScore κ μ S (L t) x N ω| ≤ ε * en (S⁻¹ - (Q N)⁻¹) := by
    rw [ae_all_iff]
    exact fun t => student_expand_one h hκ hS hf (hL t)
  filter_upwards [student_expand_one h hκ hS hf hK, hall] with ω h1 h2 Q hQ hfix hB ε hε
  set c : ℝ := en S⁻¹ * (en S⁻¹ + 1) + 1 with hc
  have hc0 : 0 < c := by
    have := en_nonneg S⁻¹
    positivity
  set m : ℝ := (Fintype.card ι : ℝ) with hm
  have hm0 : 0 ≤ m := by positivity
  set η : ℝ := 1 / (2 * c * (m + 1)) with hη
  have hη0 : 0 < η := by positivity
  have t3 := tendsto_en (tendsto_inv hQ hS.isUnit)
  filter_upwards [h1 Q hQ hfix (ε / (2 * c)) (by positivity),
    eventually_all.2 fun t => h2 t Q hQ hfix η hη0, hfix, t3.eventually (gt_mem_nhds one_pos), hB]
    with N a1 a2 a3 a4 a5
  have hSd := (Matrix.isUnit_iff_isUnit_det S).1 hS.isUnit
  have hQd := (Matrix.isUnit_iff_isUnit_det (Q N)).1 a3.1.isUnit
  have eD : S⁻¹ - (Q N)⁻¹ = S⁻¹ * (Q N - S) * (Q N)⁻¹ := by
    rw [Matrix.mul_sub, nonsing_inv_mul _ hSd, Matrix.sub_mul, Matrix.mul_assoc, mul_nonsing_inv _ hQd,
      Matrix.mul_one, Matrix.one_mul]
  have hQi : en (Q N)⁻¹ ≤ en S⁻¹ + 1 := by
    have := en_add_le ((Q N)⁻¹ - S⁻¹) S⁻¹
    rw [sub_add_cancel] at this
    linarith
  have hD : en (S⁻¹ - (Q N)⁻¹) ≤ c * en (Q N - S) := by
    rw [eD]
    have e0 := en_nonneg (Q N - S)
    have e1 := en_nonneg S⁻¹
    have e2 := en_nonneg (Q N)⁻¹
    calc en (S⁻¹ * (Q N - S) * (Q N)⁻¹) ≤ en S⁻¹ * en (Q N - S) * en (Q N)⁻¹ :=
          (en_mul_le _ _).trans (mul_le_mul_of_nonneg_right (en_mul_le _ _) e2)
      _ ≤ en S⁻¹ * en (Q N - S) * (en S⁻¹ + 1) := mul_le_mul_of_nonneg_left hQi (by positivity)
      _ ≤ c * en (Q N - S) := by rw [hc]; nlinarith
  set G := ∑ t, |avgScore κ μ S (L t) x N ω| with hG
  have hE : en (Q N - S) ≤ G + m * (η * en (S⁻¹ - (Q N)⁻¹)) := by
    refine a5.trans ?_
    have : ∀ t, |mip (B t) (Q N - S)| ≤
        |avgScore κ μ S (L t) x N ω| + η * en (S⁻¹ - (Q N)⁻¹) := fun t => by
      have b1 := a2 t
      have b2 := abs_sub_abs_le_abs_sub (mip (B t) (Q N - S)) (avgScore κ μ S (L t) x N ω)
      linarith
    refine (Finset.sum_le_sum fun t _ => this t).trans ?_
    rw [Finset.sum_add_distrib, Finset.sum_const, Finset.card_univ, nsmul_eq_mul]
  have hE0 := en_nonneg (Q N - S)
  have hE2 : en (Q N - S) ≤ 2 * G := by
    have h5 : m * (η * en (S⁻¹ - (Q N)⁻¹)) ≤ m * (η * (c * en (Q N - S))) :=
      mul_le_mul_of_nonneg_left (mul_le_mul_of_nonneg_left hD hη0.le) hm0
    have h6 : m * (η * (c * en (Q N - S))) ≤ en (Q N - S) / 2 := by
      have e : m * (η * (c * en (Q N - S))) = m / (m + 1) * (en (Q N - S) / 2) := by
        rw [hη]
        field_simp
      rw [e]
      exact mul_le_of_le_one_left (by positivity) (by rw [div_le_one (by positivity)]; linarith)
    linarith
  refine ⟨a1.trans ?_, hE2⟩
  have h7 : ε / (2 * c) * en (S⁻¹ - (Q N)⁻¹) ≤ ε / (2 * c) * (c * (2 * G)) :=
    mul_le_mul_of_nonneg_left (hD.trans (mul_le_mul_of_nonneg_left hE2 hc0.le)) (by positivity)
  refine h7.trans (le_of_eq ?_)
  field_simp

theorem student_expand (h : IIDSamples P x μ) (hκ : 0 ≤ κ) (hS : S.PosDef) (hf : PopFixed κ μ S)
    {H K : Matrix (Fin p) (Fin p) 𝕜} (hK : jac κ μ S K = S * H * S)
    {L : Fin p × Fin p × Bool → Matrix (Fin p) (Fin p) 𝕜}
    (hL : ∀ t, jac κ μ S (L t) = S * unitDir t * S) :
    ∀ᵐ ω ∂P, ∀ Q : ℕ → Matrix (Fin p) (Fin p) 𝕜, Tendsto Q atTop (𝓝 S) →
      (∀ᶠ N in atTop, (Q N).PosDef ∧ mStep (wStudent κ p) (firstSamples x ω N) (Q N) = Q N) →
      ∀ ε : ℝ, 0 < ε → ∀ᶠ N in atTop,
        |mip H (Q N - S) - avgScore κ μ S K x N ω| ≤ ε * ∑ t, |avgScore κ μ S (L t) x N ω| := by
  filter_upwards [fixed_expand h hκ hS hf hK hL] with ω hω Q hQ hfix
  intro ε hε
  filter_upwards [hω Q hQ hfix (Eventually.of_forall fun N => en_le_mip _) ε hε] with N hN using hN.1

end
end RS
