import Verif.Props.Consist
import Verif.Props.HuberFix
import Verif.Lemmas.HuberHeavy
import Verif.Spec.Chi2

/-
The Huber estimators and the law of the data, when the number of samples grows (C122, C123, C124).
-/
set_option autoImplicit false

namespace RS
open Matrix ComplexOrder Filter Topology MeasureTheory ProbabilityTheory

section
variable {p : ℕ} {Ω : Type*} [MeasurableSpace Ω] {P : Measure Ω} [IsProbabilityMeasure P]

/-! ## C122 -/

/-- The threshold and the tuning constant of the real estimator. -/
theorem realHuber_weight (q : ℝ) (c : Chi2) :
    RealEst.weight (.huber q) c p = wHuber (c.ppf q p / 2)
      (c.cdf (c.ppf q p) (p + 1) + c.ppf q p * (1 - q) / p) := rfl

/-- Those of the complex estimator. -/
theorem complexHuber_weight (q : ℝ) (c : Chi2) :
    ComplexEst.weight (.huber q) c p = wHuber (c.ppf q (2 * p) / 2)
      (c.cdf (c.ppf q (2 * p)) (2 * p + 2) + c.ppf q (2 * p) * (1 - q) / (2 * p)) := rfl

/-- Real data: independent samples of a law for which `S` solves the equation
`E[beta max(1, x^T S⁻¹ x / lbda) x x^T] = S`, samples within the threshold being possible. -/
theorem C122_real {x : ℕ → Ω → Fin p → ℝ} {μ : Measure (Fin p → ℝ)} (h : IIDSamples P x μ)
    (hμ : NullSubspaces μ) (hp : 0 < p) (c : Chi2) (hc : c.Ok) (q : ℝ) (hq0 : 0 < q) (hq1 : q < 1)
    (lbda beta : ℝ) (hlbda : lbda = c.ppf q p / 2)
    (hbeta : beta = c.cdf (c.ppf q p) (p + 1) + c.ppf q p * (1 - q) / p)
    (S : Matrix (Fin p) (Fin p) ℝ) (hS : S.PosDef)
    (hf : PopSolves (fun t => beta * max 1 (t / lbda)) μ S) (hin : μ {x | qf S x < lbda} ≠ 0)
    (env : (N : ℕ) → NumEnv N p ℝ) (hs : ∀ N, (env N).eigh.Ok) :
    ∀ᵐ ω ∂P, TendsTo (fun N init tol iterMax =>
      huberFixedPoint (env N) c (firstSamples x ω N) q init tol iterMax) S := by
  obtain ⟨hl, hb⟩ := huber_beta_pos hc ⟨hq0, hq1⟩ hp
  rw [← hlbda] at hl
  rw [← hbeta] at hb
  have hwt : RealEst.weight (.huber q) c p = wHuber lbda beta := by rw [hlbda, hbeta]; rfl
  filter_upwards [h.huber_consistent hμ hp hl hb hS hf hin] with ω hω ε hε
  obtain ⟨N₀, hN₀⟩ := eventually_atTop.1 (hω (ε / 2) (half_pos hε))
  refine ⟨N₀, fun N hN init hi => ?_⟩
  obtain ⟨hsp, hQ⟩ := hN₀ N hN
  obtain ⟨Q, hQp, hfix⟩ := huber_exists hl hb hp _ hsp
  obtain ⟨hclose, hins⟩ := hQ Q hQp hfix
  obtain ⟨r, C, hr0, hr1, hr⟩ := huber_geometric hl hb _ hQp (getD_posDef hsp hi) hfix hins
  obtain ⟨tol₀, K, h3, h4⟩ := C112_real (.huber q) (env N) (hs N) c hc _ hp hsp ⟨hq0, hq1⟩
    init hi Q (fun ε hε => by
      obtain ⟨K, hK⟩ := geometric_small (C := C) hr0 hr1 hε
      refine ⟨K, fun tol iterMax => ?_⟩
      obtain ⟨sigma, result, delta, iteration, h1, h2, h3, h4⟩ := C34_real (.huber q) (env N) (hs N)
        c hc _ hp hsp ⟨hq0, hq1⟩ init hi tol iterMax
      have h5 : result = sigma :=
        FMat.fin.inj (h3.symm.trans (C30_none "None" (by decide +kernel) (.fin sigma)))
      refine ⟨result, delta, iteration, _, h1, fun hk => ?_⟩
      rw [h5, h2.result, hwt]
      exact (hr iteration).trans_lt (hK iteration hk))
    (ε / 2) (half_pos hε)
  refine ⟨tol₀, K, h3, fun tol iterMax ht hm => ?_⟩
  obtain ⟨result, delta, iteration, warned, h5, h6⟩ := h4 tol iterMax ht hm
  refine ⟨result, delta, iteration, warned, h5, ?_⟩
  have h7 := frobDist_triangle result Q S
  rw [frobDist_eq Q S] at h7
  linarith

/-- Complex data. -/
theorem C122_complex {x : ℕ → Ω → Fin p → ℂ} {μ : Measure (Fin p → ℂ)} (h : IIDSamples P x μ)
    (hμ : NullSubspaces μ) (hp : 0 < p) (c : Chi2) (hc : c.Ok) (q : ℝ) (hq0 : 0 < q) (hq1 : q < 1)
    (lbda beta : ℝ) (hlbda : lbda = c.ppf q (2 * p) / 2)
    (hbeta : beta = c.cdf (c.ppf q (2 * p)) (2 * p + 2) + c.ppf q (2 * p) * (1 - q) / (2 * p))
    (S : Matrix (Fin p) (Fin p) ℂ) (hS : S.PosDef)
    (hf : PopSolves (fun t => beta * max 1 (t / lbda)) μ S) (hin : μ {x | qf S x < lbda} ≠ 0)
    (env : (N : ℕ) → NumEnv N p ℂ) (hs : ∀ N, (env N).eigh.Ok) :
    ∀ᵐ ω ∂P, TendsTo (fun N init tol iterMax =>
      complexHuberFixedPoint (env N) c (firstSamples x ω N) q init tol iterMax) S := by
  obtain ⟨hl, hb⟩ := complexHuber_beta_pos hc ⟨hq0, hq1⟩ hp
  rw [← hlbda] at hl
  rw [← hbeta] at hb
  have hwt : ComplexEst.weight (.huber q) c p = wHuber lbda beta := by rw [hlbda, hbeta]; rfl
  filter_upwards [h.huber_consistent hμ hp hl hb hS hf hin] with ω hω ε hε
  obtain ⟨N₀, hN₀⟩ := eventually_atTop.1 (hω (ε / 2) (half_pos hε))
  refine ⟨N₀, fun N hN init hi => ?_⟩
  obtain ⟨hsp, hQ⟩ := hN₀ N hN
  obtain ⟨Q, hQp, hfix⟩ := huber_exists hl hb hp _ hsp
  obtain ⟨hclose, hins⟩ := hQ Q hQp hfix
  obtain ⟨r, C, hr0, hr1, hr⟩ := huber_geometric hl hb _ hQp (getD_posDef hsp hi) hfix hins
  obtain ⟨tol₀, K, h3, h4⟩ := C112_complex (.huber q) (env N) (hs N) c hc _ hp hsp ⟨hq0, hq1⟩
    init hi Q (fun ε hε => by
      obtain ⟨K, hK⟩ := geometric_small (C := C) hr0 hr1 hε
      refine ⟨K, fun tol iterMax => ?_⟩
      obtain ⟨sigma, result, delta, iteration, h1, h2, h3, h4⟩ := C34_complex (.huber q) (env N)
        (hs N) c hc _ hp hsp ⟨hq0, hq1⟩ init hi tol iterMax
      have h5 : result = sigma :=
        FMat.fin.inj (h3.symm.trans (C30_none "None" (by decide +kernel) (.fin sigma)))
      refine ⟨result, delta, iteration, _, h1, fun hk => ?_⟩
      rw [h5, h2.result, hwt]
      exact (hr iteration).trans_lt (hK iteration hk))
    (ε / 2) (half_pos hε)
  refine ⟨tol₀, K, h3, fun tol iterMax ht hm => ?_⟩
  obtain ⟨result, delta, iteration, warned, h5, h6⟩ := h4 tol iterMax ht hm
  refine ⟨result, delta, iteration, warned, h5, ?_⟩
  have h7 := frobDist_triangle result Q S
  rw [frobDist_eq Q S] at h7
  linarith

/-- Any elliptical law with a finite fourth moment, real data: the results tend to `κ S`, where
`beta E[max(1, d / (κ lbda)) d] = p κ` and `d = x^T S⁻¹ x`. -/
theorem C122_elliptical_real {x : ℕ → Ω → Fin p → ℝ} {μ : Measure (Fin p → ℝ)}
    (h : IIDSamples P x μ) (hμ : NullSubspaces μ) (hp : 0 < p) (c : Chi2) (hc : c.Ok) (q : ℝ)
    (hq0 : 0 < q) (hq1 : q < 1) (lbda beta : ℝ) (hlbda : lbda = c.ppf q p / 2)
    (hbeta : beta = c.cdf (c.ppf q p) (p + 1) + c.ppf q p * (1 - q) / p)
    (S : Matrix (Fin p) (Fin p) ℝ) (hS : S.PosDef) (hE : EllipticalLaw μ S) (h4 : FourthMoment μ)
    (hin : ∀ t, 0 < t → μ {x | qf S x < t} ≠ 0)
    (env : (N : ℕ) → NumEnv N p ℝ) (hs : ∀ N, (env N).eigh.Ok) :
    ∃ κ : ℝ, 0 < κ ∧ beta * ∫ x, max 1 (qf S x / (κ * lbda)) * qf S x ∂μ = p * κ ∧
      ∀ᵐ ω ∂P, TendsTo (fun N init tol iterMax =>
        huberFixedPoint (env N) c (firstSamples x ω N) q init tol iterMax) (κ • S) := by
  have := h.prob
  obtain ⟨hl, hb⟩ := huber_beta_pos hc ⟨hq0, hq1⟩ hp
  rw [← hlbda] at hl
  rw [← hbeta] at hb
  have h2 := (fourth_iff hS).1 h4
  obtain ⟨κ, hκ, he⟩ := huber_scale hμ hp hl hb hS h2
  refine ⟨κ, hκ, he, C122_real h hμ hp c hc q hq0 hq1 lbda beta hlbda hbeta _ (hS.smul hκ)
    (elliptical_huber hp hS hE h2 hκ hl he) ?_ env hs⟩
  have e : {x : Fin p → ℝ | qf (κ • S) x < lbda} = {x | qf S x < κ * lbda} := by
    ext z
    have := qf_smul (𝕜 := ℝ) hS hκ z
    simp only [Set.mem_ofPred_eq]
    rw [show κ • S = ((κ : ℝ) : ℝ) • S from rfl] 
    rw [RCLike.ofReal_real_eq_id, id] at this
    rw [this, div_lt_iff₀ hκ, mul_comm]
  rw [e]
  exact hin _ (mul_pos hκ hl)

/-- Complex data. -/
theorem C122_elliptical_complex {x : ℕ → Ω → Fin p → ℂ} {μ : Measure (Fin p → ℂ)}
    (h : IIDSamples P x μ) (hμ : NullSubspaces μ) (hp : 0 < p) (c : Chi2) (hc : c.Ok) (q : ℝ)
    (hq0 : 0 < q) (hq1 : q < 1) (lbda beta : ℝ) (hlbda : lbda = c.ppf q (2 * p) / 2)
    (hbeta : beta = c.cdf (c.ppf q (2 * p)) (2 * p + 2) + c.ppf q (2 * p) * (1 - q) / (2 * p))
    (S : Matrix (Fin p) (Fin p) ℂ) (hS : S.PosDef) (hE : EllipticalLaw μ S) (h4 : FourthMoment μ)
    (hin : ∀ t, 0 < t → μ {x | qf S x < t} ≠ 0)
    (env : (N : ℕ) → NumEnv N p ℂ) (hs : ∀ N, (env N).eigh.Ok) :
    ∃ κ : ℝ, 0 < κ ∧ beta * ∫ x, max 1 (qf S x / (κ * lbda)) * qf S x ∂μ = p * κ ∧
      ∀ᵐ ω ∂P, TendsTo (fun N init tol iterMax =>
        complexHuberFixedPoint (env N) c (firstSamples x ω N) q init tol iterMax)
          ((κ : ℂ) • S) := by
  have := h.prob
  obtain ⟨hl, hb⟩ := complexHuber_beta_pos hc ⟨hq0, hq1⟩ hp
  rw [← hlbda] at hl
  rw [← hbeta] at hb
  have h2 := (fourth_iff hS).1 h4
  obtain ⟨κ, hκ, he⟩ := huber_scale hμ hp hl hb hS h2
  refine ⟨κ, hκ, he, C122_complex h hμ hp c hc q hq0 hq1 lbda beta hlbda hbeta _
    (hS.smul (by simpa using hκ)) (elliptical_huber hp hS hE h2 hκ hl he) ?_ env hs⟩
  have e : {x : Fin p → ℂ | qf ((κ : ℂ) • S) x < lbda} = {x | qf S x < κ * lbda} := by
    ext z
    have := qf_smul (𝕜 := ℂ) hS hκ z
    simp only [Set.mem_ofPred_eq]
    have e2 : qf ((κ : ℂ) • S) z = qf S z / κ := this
    rw [e2, div_lt_iff₀ hκ, mul_comm]
  have h9 := hin _ (mul_pos hκ hl)
  rw [← e] at h9
  exact h9

/-! ## C123 -/

theorem Chi2.Exact.cdf_eq {c : Chi2} (he : c.Exact) (x : ℝ) {k : ℕ} (hk : 0 < k) :
    c.cdf x k = chiCdf k x := by
  have hk' : (0 : ℝ) < (k : ℝ) / 2 := by positivity
  have := isProbabilityMeasure_gammaMeasure hk' (r := 1 / 2) (by norm_num)
  rw [he.cdf x k hk, ← cdf_eq_real, cdf_gammaMeasure_eq_integral hk' (by norm_num)]
  rfl

/-- The scale is more than one as soon as `beta` is at least `E[min(d, a)]/p` for some `a` above the
threshold. -/
theorem huber_scale_gt_one {𝕜 : Type} [RCLike 𝕜] [MeasurableSpace 𝕜] [BorelSpace 𝕜]
    {μ : Measure (Fin p → 𝕜)} [IsProbabilityMeasure μ] (hp : 0 < p) {S : Matrix (Fin p) (Fin p) 𝕜}
    (hS : S.PosDef) (h2 : Integrable (fun x => qf S x ^ 2) μ) (hmean : ∫ x, qf S x ∂μ = p)
    {lbda beta a κ : ℝ} (hl : 0 < lbda) (hla : lbda ≤ a) (hb : 0 < beta)
    (hba : ∫ x, min (qf S x) a ∂μ ≤ beta * p)
    (hlow : μ {x | 0 < qf S x ∧ qf S x < a} ≠ 0) (hhigh : μ {x | a < qf S x} ≠ 0) (hκ : 0 < κ)
    (he : beta * ∫ x, max 1 (qf S x / (κ * lbda)) * qf S x ∂μ = p * κ) : 1 < κ := by
  have hp' : (0 : ℝ) < p := by exact_mod_cast hp
  by_contra hle
  rw [not_lt] at hle
  have h1 := scale_strict (continuous_qf S).measurable (qf_nonneg hS) (qf_integrable_of_sq hS h2) h2
    hl hla hlow hhigh
  have h3 := huber_scale_anti hS h2 (c := κ * lbda) (c' := lbda) (mul_pos hκ hl)
    (mul_le_of_le_one_left hl.le hle)
  set B := ∫ x, max 1 (qf S x / lbda) * qf S x ∂μ
  set B' := ∫ x, max 1 (qf S x / (κ * lbda)) * qf S x ∂μ
  have hB0 : 0 ≤ B := integral_nonneg fun x => (huber_term_bound hS hl x).1
  rw [hmean] at h1
  have h5 : beta * B' ≤ p := by rw [he]; exact mul_le_of_le_one_right hp'.le hle
  have h6 : beta * B ≤ beta * B' := mul_le_mul_of_nonneg_left h3 hb.le
  nlinarith [mul_le_mul_of_nonneg_right hba hB0]

theorem not_tendsTo_of_scale {𝕜 : Type} [RCLike 𝕜] (hp : 0 < p)
    {run : ℕ → Option (Matrix (Fin p) (Fin p) 𝕜) → ℝ → ℤ → Py (FPOut p 𝕜)}
    {S : Matrix (Fin p) (Fin p) 𝕜} (hS : S.PosDef) {κ : ℝ} (hκ : κ ≠ 1)
    (h : TendsTo run ((κ : 𝕜) • S)) : ¬ TendsTo run S := fun h' => by
  have e1 := h.unique h'
  have hd : S ⟨0, hp⟩ ⟨0, hp⟩ ≠ 0 := (hS.diag_pos (i := ⟨0, hp⟩)).ne'
  have e2 := congrFun (congrFun e1 ⟨0, hp⟩) ⟨0, hp⟩
  rw [Matrix.smul_apply, smul_eq_mul] at e2
  have := (mul_eq_right₀ hd).1 e2
  exact hκ (by exact_mod_cast this)

/-- Not consistent on normal data, real case: with exact chi-square functions the estimates tend to
`κ S` with `κ > 1`, `S` being the covariance matrix of the samples. -/
theorem C123_real_violated {x : ℕ → Ω → Fin p → ℝ} (hp : 0 < p) (c : Chi2) (hc : c.Ok)
    (hx : c.Exact) (q : ℝ) (hq0 : 0 < q) (hq1 : q < 1) (S : Matrix (Fin p) (Fin p) ℝ)
    (hS : S.PosDef) (h : IIDSamples P x (lawOf fun x => Real.exp (normalLogDensity 0 S x)))
    (env : (N : ℕ) → NumEnv N p ℝ) (hs : ∀ N, (env N).eigh.Ok) :
    ∃ κ : ℝ, 1 < κ ∧ ∀ᵐ ω ∂P,
      TendsTo (fun N init tol iterMax =>
        huberFixedPoint (env N) c (firstSamples x ω N) q init tol iterMax) (κ • S) ∧
      ¬ TendsTo (fun N init tol iterMax =>
        huberFixedPoint (env N) c (firstSamples x ω N) q init tol iterMax) S := by
  have := h.prob
  have hp' : (0 : ℝ) < p := by exact_mod_cast hp
  obtain ⟨hl, hb⟩ := huber_beta_pos hc ⟨hq0, hq1⟩ hp
  have hdm : Measurable fun x : Fin p → ℝ => Real.exp (normalLogDensity 0 S x) :=
    Real.measurable_exp.comp (normal_measurable 0 S)
  have hopen : ∀ U : Set (Fin p → ℝ), IsOpen U → U.Nonempty →
      lawOf (fun x => Real.exp (normalLogDensity 0 S x)) U ≠ 0 := fun U hU hne =>
    lawOf_open hdm (fun _ => Real.exp_pos _) hU hne
  have hcq := continuous_qf S
  have h0 : qf S 0 = 0 := by simp [qf]
  obtain ⟨κ, hκ, he, hlim⟩ := C122_elliptical_real h (lawOf_null_real _) hp c hc q hq0 hq1 _ _ rfl rfl
    S hS (realN_elliptical hS) (realN_fourth hp hS)
    (fun t ht => hopen _ (isOpen_lt hcq continuous_const) ⟨0, by simpa [h0] using ht⟩) env hs
  have ha : 0 < c.ppf q p := by linarith
  have hκ1 : 1 < κ := by
    refine huber_scale_gt_one hp hS ((fourth_iff hS).1 (realN_fourth hp hS)) ?_ hl
      (a := c.ppf q p) (by linarith) hb ?_ ?_ ?_ hκ he
    · rw [(realN_quad hp hS fun t => t).2, (chi_mean hp).2]
    · rw [(realN_quad hp hS fun t => min t (c.ppf q p)).2, (chi_min hp _).2,
        ← hx.cdf_eq _ hp, hx.ppf q p hq0 hq1 hp, hx.cdf_eq _ (by omega)]
      have h1 := chiCdf_anti (k := p + 1) (by omega) (c.ppf q p)
      have e : (chiCdf (p + 1) (c.ppf q p) + c.ppf q p * (1 - q) / p) * p =
          p * chiCdf (p + 1) (c.ppf q p) + c.ppf q p * (1 - q) := by field_simp
      rw [e]
      nlinarith
    · obtain ⟨v, hv⟩ := qf_surj (𝕜 := ℝ) hp hS (s := c.ppf q p / 2) (by linarith)
      refine hopen _ ((isOpen_lt continuous_const hcq).inter (isOpen_lt hcq continuous_const))
        ⟨v, show 0 < qf S v by rw [hv]; linarith, show qf S v < _ by rw [hv]; linarith⟩
    · obtain ⟨v, hv⟩ := qf_surj (𝕜 := ℝ) hp hS (s := c.ppf q p + 1) (by linarith)
      refine hopen _ (isOpen_lt continuous_const hcq) ⟨v, ?_⟩
      simp only [Set.mem_ofPred_eq]; rw [hv]; linarith
  refine ⟨κ, hκ1, ?_⟩
  filter_upwards [hlim] with ω hω
  exact ⟨hω, not_tendsTo_of_scale (𝕜 := ℝ) hp hS hκ1.ne' hω⟩

/-- Not consistent on complex normal data: again `κ > 1`. -/
theorem C123_complex_violated {x : ℕ → Ω → Fin p → ℂ} (hp : 0 < p) (c : Chi2) (hc : c.Ok)
    (hx : c.Exact) (q : ℝ) (hq0 : 0 < q) (hq1 : q < 1) (S : Matrix (Fin p) (Fin p) ℂ)
    (hS : S.PosDef) (h : IIDSamples P x (lawOf fun x => Real.exp (cnormalLogDensity 0 S x)))
    (env : (N : ℕ) → NumEnv N p ℂ) (hs : ∀ N, (env N).eigh.Ok) :
    ∃ κ : ℝ, 1 < κ ∧ ∀ᵐ ω ∂P,
      TendsTo (fun N init tol iterMax =>
        complexHuberFixedPoint (env N) c (firstSamples x ω N) q init tol iterMax) ((κ : ℂ) • S) ∧
      ¬ TendsTo (fun N init tol iterMax =>
        complexHuberFixedPoint (env N) c (firstSamples x ω N) q init tol iterMax) S := by
  have := h.prob
  have hp' : (0 : ℝ) < p := by exact_mod_cast hp
  obtain ⟨hl, hb⟩ := complexHuber_beta_pos hc ⟨hq0, hq1⟩ hp
  have hdm : Measurable fun x : Fin p → ℂ => Real.exp (cnormalLogDensity 0 S x) :=
    Real.measurable_exp.comp (cnormal_measurable 0 S)
  have hopen : ∀ U : Set (Fin p → ℂ), IsOpen U → U.Nonempty →
      lawOf (fun x => Real.exp (cnormalLogDensity 0 S x)) U ≠ 0 := fun U hU hne =>
    lawOf_open hdm (fun _ => Real.exp_pos _) hU hne
  have hcq := continuous_qf S
  have h0 : qf S 0 = 0 := by simp [qf]
  obtain ⟨κ, hκ, he, hlim⟩ := C122_elliptical_complex h (lawOf_null_cplx _) hp c hc q hq0 hq1 _ _ rfl
    rfl S hS (cplxN_elliptical hS) (cplxN_fourth hp hS)
    (fun t ht => hopen _ (isOpen_lt hcq continuous_const) ⟨0, by simpa [h0] using ht⟩) env hs
  have h2p : 0 < 2 * p := by omega
  have ha : 0 < c.ppf q (2 * p) := by linarith
  have hκ1 : 1 < κ := by
    refine huber_scale_gt_one hp hS ((fourth_iff hS).1 (cplxN_fourth hp hS)) ?_ hl
      (a := c.ppf q (2 * p) / 2) le_rfl hb ?_ ?_ ?_ hκ he
    · rw [(cplxN_quad hp hS (fun t => t) measurable_id).2]
      have e : ∀ t : ℝ, t / 2 * chiPdf (p + p) t = 2⁻¹ * (t * chiPdf (p + p) t) := fun t => by ring
      simp only [e]
      rw [integral_const_mul, (chi_mean (by omega)).2]
      push_cast; ring
    · rw [(cplxN_quad hp hS (fun t => min t (c.ppf q (2 * p) / 2)) (by fun_prop)).2]
      have e : ∀ t : ℝ, min (t / 2) (c.ppf q (2 * p) / 2) * chiPdf (p + p) t =
          2⁻¹ * (min t (c.ppf q (2 * p)) * chiPdf (2 * p) t) := fun t => by
        rw [min_div_div_right (by norm_num : (0 : ℝ) ≤ 2), ← two_mul]; ring
      simp only [e]
      rw [integral_const_mul, (chi_min h2p _).2, ← hx.cdf_eq _ h2p, hx.ppf q (2 * p) hq0 hq1 h2p,
        hx.cdf_eq _ (by omega)]
      refine le_of_eq ?_
      push_cast
      field_simp
    · obtain ⟨v, hv⟩ := qf_surj (𝕜 := ℂ) hp hS (s := c.ppf q (2 * p) / 4) (by linarith)
      refine hopen _ ((isOpen_lt continuous_const hcq).inter (isOpen_lt hcq continuous_const))
        ⟨v, show 0 < qf S v by rw [hv]; linarith, show qf S v < _ by rw [hv]; linarith⟩
    · obtain ⟨v, hv⟩ := qf_surj (𝕜 := ℂ) hp hS (s := c.ppf q (2 * p) + 1) (by linarith)
      refine hopen _ (isOpen_lt continuous_const hcq) ⟨v, ?_⟩
      simp only [Set.mem_ofPred_eq]; rw [hv]; linarith
  refine ⟨κ, hκ1, ?_⟩
  filter_upwards [hlim] with ω hω
  exact ⟨hω, not_tendsTo_of_scale (𝕜 := ℂ) hp hS hκ1.ne' hω⟩

/-! ## C124 -/

theorem mIter_fixed {N : ℕ} {𝕜 : Type} [RCLike 𝕜] {w : ℝ → ℝ} {X : Matrix (Fin N) (Fin p) 𝕜}
    {Q : Matrix (Fin p) (Fin p) 𝕜} (h : mStep w X Q = Q) (k : ℕ) : mIter w X Q k = Q := by
  induction k with
  | zero => rfl
  | succ k ih => rw [mIter, ih, h]

/-- Real data, no finite fourth moment: the estimates grow without bound. Whatever `R`, when the
number of samples is large enough every positive definite matrix that the call gives back when
started there is larger than `R`, and there is one, which the call gives back for all `tol` and
`iter_max`. -/
theorem C124_blowup_real {x : ℕ → Ω → Fin p → ℝ} {μ : Measure (Fin p → ℝ)}
    (h : IIDSamples P x μ) (hμ : NullSubspaces μ) (hp : 0 < p) (c : Chi2) (hc : c.Ok) (q : ℝ)
    (hq0 : 0 < q) (hq1 : q < 1) (h4 : ¬ FourthMoment μ)
    (env : (N : ℕ) → NumEnv N p ℝ) (hs : ∀ N, (env N).eigh.Ok) :
    ∀ᵐ ω ∂P, ∀ R : ℝ, ∃ N₀ : ℕ, ∀ N, N₀ ≤ N →
      (∃ Q : Matrix (Fin p) (Fin p) ℝ, Q.PosDef ∧ R < frobDist Q 0 ∧
        ∀ (tol : ℝ) (iterMax : ℤ), ∃ delta iteration warned,
          huberFixedPoint (env N) c (firstSamples x ω N) q (some Q) tol iterMax =
            .ok ⟨.fin Q, delta, iteration, warned⟩) ∧
      ∀ (Q : Matrix (Fin p) (Fin p) ℝ) (tol : ℝ), Q.PosDef →
        Returns (huberFixedPoint (env N) c (firstSamples x ω N) q (some Q) tol 1) Q →
          R < frobDist Q 0 := by
  have := h.prob
  obtain ⟨hl, hb⟩ := huber_beta_pos hc ⟨hq0, hq1⟩ hp
  filter_upwards [h.huber_unbounded hl hb h4, h.inside_spans hμ MeasurableSet.univ
    (by rw [measure_univ]; exact one_ne_zero)] with ω h1 h2 R
  obtain ⟨N₀, hN₀⟩ := eventually_atTop.1 ((h1 R).and h2)
  refine ⟨N₀, fun N hN => ?_⟩
  obtain ⟨h3, h5⟩ := hN₀ N hN
  have hsp : Spans (firstSamples x ω N) := fun v hv => h5 v fun i _ => hv i
  refine ⟨?_, fun Q tol hQ hr => ?_⟩
  · obtain ⟨Q, hQ, hfix⟩ := huber_exists hl hb hp _ hsp
    refine ⟨Q, hQ, by rw [frobDist_eq, sub_zero]; exact h3 Q hQ hfix, fun tol iterMax => ?_⟩
    obtain ⟨sigma, result, delta, iteration, h6, h7, h8, -⟩ := C34_real (.huber q) (env N) (hs N)
      c hc _ hp hsp ⟨hq0, hq1⟩ (some Q) (fun S hS => by cases hS; exact hQ) tol iterMax
    have h9 : result = sigma :=
      FMat.fin.inj (h8.symm.trans (C30_none "None" (by decide +kernel) (.fin sigma)))
    have h10 : sigma = Q := h7.result.trans (mIter_fixed hfix iteration)
    rw [h9, h10] at h6
    exact ⟨delta, iteration, _, h6⟩
  · rw [frobDist_eq, sub_zero]
    exact h3 Q hQ ((run_one_real_eq (.huber q) (hs N) hc hp ⟨hq0, hq1⟩ rfl hQ tol Q).1 hr)

/-- Real data, no finite fourth moment: the estimates have no limit. -/
theorem C124_nolimit_real {x : ℕ → Ω → Fin p → ℝ} {μ : Measure (Fin p → ℝ)}
    (h : IIDSamples P x μ) (hμ : NullSubspaces μ) (hp : 0 < p) (c : Chi2) (hc : c.Ok) (q : ℝ)
    (hq0 : 0 < q) (hq1 : q < 1) (h4 : ¬ FourthMoment μ)
    (env : (N : ℕ) → NumEnv N p ℝ) (hs : ∀ N, (env N).eigh.Ok) :
    ∀ᵐ ω ∂P, ∀ S : Matrix (Fin p) (Fin p) ℝ, ¬ TendsTo (fun N init tol iterMax =>
      huberFixedPoint (env N) c (firstSamples x ω N) q init tol iterMax) S := by
  filter_upwards [C124_blowup_real h hμ hp c hc q hq0 hq1 h4 env hs] with ω hω S hS
  obtain ⟨N₀, hN₀⟩ := hω (frobDist S 0 + 1)
  obtain ⟨N₁, hN₁⟩ := hS 1 one_pos
  obtain ⟨⟨Q, hQ, hR, h1⟩, -⟩ := hN₀ (max N₀ N₁) (le_max_left _ _)
  obtain ⟨tol₀, K, -, h3⟩ := hN₁ (max N₀ N₁) (le_max_right _ _) (some Q)
    (fun S hS => by cases hS; exact hQ)
  obtain ⟨result, d, i, w, h5, h6⟩ := h3 tol₀ K le_rfl le_rfl
  obtain ⟨d', i', w', h7⟩ := h1 tol₀ K
  have h5' := h7.symm.trans h5
  have h8 : Q = result := FMat.fin.inj (FPOut.mk.inj (Except.ok.inj h5')).1
  rw [← h8] at h6
  have h11 := frobDist_triangle Q S 0
  linarith

/-- Real data, elliptical law: the estimates have a limit if and only if the law has a finite fourth
moment. -/
theorem C124_elliptical_real {x : ℕ → Ω → Fin p → ℝ} {μ : Measure (Fin p → ℝ)}
    (h : IIDSamples P x μ) (hμ : NullSubspaces μ) (hp : 0 < p) (c : Chi2) (hc : c.Ok) (q : ℝ)
    (hq0 : 0 < q) (hq1 : q < 1) (S : Matrix (Fin p) (Fin p) ℝ) (hS : S.PosDef)
    (hE : EllipticalLaw μ S) (hin : ∀ t, 0 < t → μ {x | qf S x < t} ≠ 0)
    (env : (N : ℕ) → NumEnv N p ℝ) (hs : ∀ N, (env N).eigh.Ok) :
    (FourthMoment μ → ∃ κ : ℝ, 0 < κ ∧ ∀ᵐ ω ∂P, TendsTo (fun N init tol iterMax =>
      huberFixedPoint (env N) c (firstSamples x ω N) q init tol iterMax) (κ • S)) ∧
    (¬ FourthMoment μ → ∀ᵐ ω ∂P, ∀ S' : Matrix (Fin p) (Fin p) ℝ,
      ¬ TendsTo (fun N init tol iterMax =>
        huberFixedPoint (env N) c (firstSamples x ω N) q init tol iterMax) S') := by
  refine ⟨fun h4 => ?_, fun h4 => C124_nolimit_real h hμ hp c hc q hq0 hq1 h4 env hs⟩
  obtain ⟨κ, hκ, -, hlim⟩ := C122_elliptical_real h hμ hp c hc q hq0 hq1 _ _ rfl rfl S hS hE h4 hin
    env hs
  exact ⟨κ, hκ, hlim⟩

/-- Samples of the real multivariate t law with `df` degrees of freedom and scatter matrix `S`: for
`df > 4` the estimates tend to a multiple of `S`, for `df ≤ 4` they have no limit. -/
theorem C124_t_real {x : ℕ → Ω → Fin p → ℝ} (hp : 0 < p) (c : Chi2) (hc : c.Ok) (q : ℝ)
    (hq0 : 0 < q) (hq1 : q < 1) (df : ℝ) (hdf : 0 < df) (S : Matrix (Fin p) (Fin p) ℝ)
    (hS : S.PosDef) (h : IIDSamples P x (lawOf fun x => Real.exp (tLogDensity df 0 S x)))
    (env : (N : ℕ) → NumEnv N p ℝ) (hs : ∀ N, (env N).eigh.Ok) :
    (4 < df → ∃ κ : ℝ, 0 < κ ∧ ∀ᵐ ω ∂P, TendsTo (fun N init tol iterMax =>
      huberFixedPoint (env N) c (firstSamples x ω N) q init tol iterMax) (κ • S)) ∧
    (df ≤ 4 → ∀ᵐ ω ∂P, ∀ S' : Matrix (Fin p) (Fin p) ℝ,
      ¬ TendsTo (fun N init tol iterMax =>
        huberFixedPoint (env N) c (firstSamples x ω N) q init tol iterMax) S') := by
  have h0 : qf S 0 = 0 := by simp [qf]
  have h1 := C124_elliptical_real h (lawOf_null_real _) hp c hc q hq0 hq1 S hS (realT_elliptical hdf hS)
    (fun t ht => lawOf_open (realT_measurable hdf hS) (fun _ => Real.exp_pos _)
      (isOpen_lt (continuous_qf S) continuous_const) ⟨0, by simpa [h0] using ht⟩) env hs
  have h2 := realT_fourth hdf hp hS
  exact ⟨fun hd => h1.1 (h2.2 hd), fun hd => h1.2 fun hf => absurd (h2.1 hf) (not_lt.2 hd)⟩

/-- Complex data, no finite fourth moment: the estimates grow without bound. Whatever `R`, when the
number of samples is large enough every positive definite matrix that the call gives back when
started there is larger than `R`, and there is one, which the call gives back for all `tol` and
`iter_max`. -/
theorem C124_blowup_complex {x : ℕ → Ω → Fin p → ℂ} {μ : Measure (Fin p → ℂ)}
    (h : IIDSamples P x μ) (hμ : NullSubspaces μ) (hp : 0 < p) (c : Chi2) (hc : c.Ok) (q : ℝ)
    (hq0 : 0 < q) (hq1 : q < 1) (h4 : ¬ FourthMoment μ)
    (env : (N : ℕ) → NumEnv N p ℂ) (hs : ∀ N, (env N).eigh.Ok) :
    ∀ᵐ ω ∂P, ∀ R : ℝ, ∃ N₀ : ℕ, ∀ N, N₀ ≤ N →
      (∃ Q : Matrix (Fin p) (Fin p) ℂ, Q.PosDef ∧ R < frobDist Q 0 ∧
        ∀ (tol : ℝ) (iterMax : ℤ), ∃ delta iteration warned,
          complexHuberFixedPoint (env N) c (firstSamples x ω N) q (some Q) tol iterMax =
            .ok ⟨.fin Q, delta, iteration, warned⟩) ∧
      ∀ (Q : Matrix (Fin p) (Fin p) ℂ) (tol : ℝ), Q.PosDef →
        Returns (complexHuberFixedPoint (env N) c (firstSamples x ω N) q (some Q) tol 1) Q →
          R < frobDist Q 0 := by
  have := h.prob
  obtain ⟨hl, hb⟩ := complexHuber_beta_pos hc ⟨hq0, hq1⟩ hp
  filter_upwards [h.huber_unbounded hl hb h4, h.inside_spans hμ MeasurableSet.univ
    (by rw [measure_univ]; exact one_ne_zero)] with ω h1 h2 R
  obtain ⟨N₀, hN₀⟩ := eventually_atTop.1 ((h1 R).and h2)
  refine ⟨N₀, fun N hN => ?_⟩
  obtain ⟨h3, h5⟩ := hN₀ N hN
  have hsp : Spans (firstSamples x ω N) := fun v hv => h5 v fun i _ => hv i
  refine ⟨?_, fun Q tol hQ hr => ?_⟩
  · obtain ⟨Q, hQ, hfix⟩ := huber_exists hl hb hp _ hsp
    refine ⟨Q, hQ, by rw [frobDist_eq, sub_zero]; exact h3 Q hQ hfix, fun tol iterMax => ?_⟩
    obtain ⟨sigma, result, delta, iteration, h6, h7, h8, -⟩ := C34_complex (.huber q) (env N) (hs N)
      c hc _ hp hsp ⟨hq0, hq1⟩ (some Q) (fun S hS => by cases hS; exact hQ) tol iterMax
    have h9 : result = sigma :=
      FMat.fin.inj (h8.symm.trans (C30_none "None" (by decide +kernel) (.fin sigma)))
    have h10 : sigma = Q := h7.result.trans (mIter_fixed hfix iteration)
    rw [h9, h10] at h6
    exact ⟨delta, iteration, _, h6⟩
  · rw [frobDist_eq, sub_zero]
    exact h3 Q hQ ((run_one_complex_eq (.huber q) (hs N) hc hp ⟨hq0, hq1⟩ rfl hQ tol Q).1 hr)

/-- Complex data, no finite fourth moment: the estimates have no limit. -/
theorem C124_nolimit_complex {x : ℕ → Ω → Fin p → ℂ} {μ : Measure (Fin p → ℂ)}
    (h : IIDSamples P x μ) (hμ : NullSubspaces μ) (hp : 0 < p) (c : Chi2) (hc : c.Ok) (q : ℝ)
    (hq0 : 0 < q) (hq1 : q < 1) (h4 : ¬ FourthMoment μ)
    (env : (N : ℕ) → NumEnv N p ℂ) (hs : ∀ N, (env N).eigh.Ok) :
    ∀ᵐ ω ∂P, ∀ S : Matrix (Fin p) (Fin p) ℂ, ¬ TendsTo (fun N init tol iterMax =>
      complexHuberFixedPoint (env N) c (firstSamples x ω N) q init tol iterMax) S := by
  filter_upwards [C124_blowup_complex h hμ hp c hc q hq0 hq1 h4 env hs] with ω hω S hS
  obtain ⟨N₀, hN₀⟩ := hω (frobDist S 0 + 1)
  obtain ⟨N₁, hN₁⟩ := hS 1 one_pos
  obtain ⟨⟨Q, hQ, hR, h1⟩, -⟩ := hN₀ (max N₀ N₁) (le_max_left _ _)
  obtain ⟨tol₀, K, -, h3⟩ := hN₁ (max N₀ N₁) (le_max_right _ _) (some Q)
    (fun S hS => by cases hS; exact hQ)
  obtain ⟨result, d, i, w, h5, h6⟩ := h3 tol₀ K le_rfl le_rfl
  obtain ⟨d', i', w', h7⟩ := h1 tol₀ K
  have h5' := h7.symm.trans h5
  have h8 : Q = result := FMat.fin.inj (FPOut.mk.inj (Except.ok.inj h5')).1
  rw [← h8] at h6
  have h11 := frobDist_triangle Q S 0
  linarith

/-- Complex data, elliptical law: the estimates have a limit if and only if the law has a finite fourth
moment. -/
theorem C124_elliptical_complex {x : ℕ → Ω → Fin p → ℂ} {μ : Measure (Fin p → ℂ)}
    (h : IIDSamples P x μ) (hμ : NullSubspaces μ) (hp : 0 < p) (c : Chi2) (hc : c.Ok) (q : ℝ)
    (hq0 : 0 < q) (hq1 : q < 1) (S : Matrix (Fin p) (Fin p) ℂ) (hS : S.PosDef)
    (hE : EllipticalLaw μ S) (hin : ∀ t, 0 < t → μ {x | qf S x < t} ≠ 0)
    (env : (N : ℕ) → NumEnv N p ℂ) (hs : ∀ N, (env N).eigh.Ok) :
    (FourthMoment μ → ∃ κ : ℝ, 0 < κ ∧ ∀ᵐ ω ∂P, TendsTo (fun N init tol iterMax =>
      complexHuberFixedPoint (env N) c (firstSamples x ω N) q init tol iterMax) ((κ : ℂ) • S)) ∧
    (¬ FourthMoment μ → ∀ᵐ ω ∂P, ∀ S' : Matrix (Fin p) (Fin p) ℂ,
      ¬ TendsTo (fun N init tol iterMax =>
        complexHuberFixedPoint (env N) c (firstSamples x ω N) q init tol iterMax) S') := by
  refine ⟨fun h4 => ?_, fun h4 => C124_nolimit_complex h hμ hp c hc q hq0 hq1 h4 env hs⟩
  obtain ⟨κ, hκ, -, hlim⟩ := C122_elliptical_complex h hμ hp c hc q hq0 hq1 _ _ rfl rfl S hS hE h4 hin
    env hs
  exact ⟨κ, hκ, hlim⟩

/-- Samples of the complex multivariate t law with `df` degrees of freedom and scatter matrix `S`: for
`df > 4` the estimates tend to a multiple of `S`, for `df ≤ 4` they have no limit. -/
theorem C124_t_complex {x : ℕ → Ω → Fin p → ℂ} (hp : 0 < p) (c : Chi2) (hc : c.Ok) (q : ℝ)
    (hq0 : 0 < q) (hq1 : q < 1) (df : ℝ) (hdf : 0 < df) (S : Matrix (Fin p) (Fin p) ℂ)
    (hS : S.PosDef) (h : IIDSamples P x (lawOf fun x => Real.exp (ctLogDensity df 0 S x)))
    (env : (N : ℕ) → NumEnv N p ℂ) (hs : ∀ N, (env N).eigh.Ok) :
    (4 < df → ∃ κ : ℝ, 0 < κ ∧ ∀ᵐ ω ∂P, TendsTo (fun N init tol iterMax =>
      complexHuberFixedPoint (env N) c (firstSamples x ω N) q init tol iterMax) ((κ : ℂ) • S)) ∧
    (df ≤ 4 → ∀ᵐ ω ∂P, ∀ S' : Matrix (Fin p) (Fin p) ℂ,
      ¬ TendsTo (fun N init tol iterMax =>
        complexHuberFixedPoint (env N) c (firstSamples x ω N) q init tol iterMax) S') := by
  have h0 : qf S 0 = 0 := by simp [qf]
  have h1 := C124_elliptical_complex h (lawOf_null_cplx _) hp c hc q hq0 hq1 S hS (cplxT_elliptical df hS)
    (fun t ht => lawOf_open (cplxT_measurable df S) (fun _ => Real.exp_pos _)
      (isOpen_lt (continuous_qf S) continuous_const) ⟨0, by simpa [h0] using ht⟩) env hs
  have h2 := cplxT_fourth hdf hp hS
  exact ⟨fun hd => h1.1 (h2.2 hd), fun hd => h1.2 fun hf => absurd (h2.1 hf) (not_lt.2 hd)⟩

/-! ## The hypotheses are met -/

theorem chiCdf_nonpos {k : ℕ} {x : ℝ} (hx : x ≤ 0) : chiCdf k x = 0 := by
  unfold chiCdf
  rw [integral_Iic_eq_integral_Iio]
  refine setIntegral_eq_zero_of_forall_eq_zero fun t ht => ?_
  have : ¬ 0 ≤ t := not_le.2 (lt_of_lt_of_le ht hx)
  simp [chiPdf, gammaPDFReal, this]

theorem chiCdf_continuous {k : ℕ} (hk : 0 < k) : Continuous (chiCdf k) := by
  have h := (chiPdf_integrable hk).1
  have e : chiCdf k = fun x => ∫ t in (0 : ℝ)..x, chiPdf k t := by
    funext x
    have h1 := intervalIntegral.integral_Iic_sub_Iic (μ := volume) (f := chiPdf k) (a := 0) (b := x)
      h.integrableOn h.integrableOn
    have h2 : chiCdf k 0 = 0 := chiCdf_nonpos le_rfl
    unfold chiCdf at h2 ⊢
    rw [h2, sub_zero] at h1
    exact h1
  rw [e]
  exact intervalIntegral.continuous_primitive (fun a b => h.intervalIntegrable) 0

/-- The chi-square law has quantiles of all orders. -/
theorem chi_quantile {k : ℕ} (hk : 0 < k) {q : ℝ} (h0 : 0 < q) (h1 : q < 1) :
    ∃ x, 0 < x ∧ chiCdf k x = q := by
  have hk' : (0 : ℝ) < (k : ℝ) / 2 := by positivity
  have := isProbabilityMeasure_gammaMeasure hk' (r := 1 / 2) (by norm_num)
  have e : ∀ x, chiCdf k x = ProbabilityTheory.cdf (gammaMeasure ((k : ℝ) / 2) (1 / 2)) x := fun x => by
    rw [cdf_gammaMeasure_eq_integral hk' (by norm_num)]; rfl
  obtain ⟨b, hb⟩ := ((tendsto_cdf_atTop (gammaMeasure ((k : ℝ) / 2) (1 / 2))).eventually_const_lt
    h1).exists
  obtain ⟨x, hx⟩ := mem_range_of_exists_le_of_exists_ge (c := q) (chiCdf_continuous hk)
    ⟨0, by rw [chiCdf_nonpos le_rfl]; exact h0.le⟩ ⟨b, by rw [e]; exact hb.le⟩
  refine ⟨x, ?_, hx⟩
  by_contra hn
  rw [chiCdf_nonpos (not_lt.1 hn)] at hx
  exact h0.ne hx

/-- The exact chi-square functions exist, and have the properties asked of them. -/
theorem chi2_exact : ∃ c : Chi2, c.Exact ∧ c.Ok := by
  classical
  let c : Chi2 := ⟨fun q k => if h : 0 < k ∧ 0 < q ∧ q < 1 then
      (chi_quantile h.1 h.2.1 h.2.2).choose else 0,
    fun x k => (gammaMeasure ((k : ℝ) / 2) (1 / 2)).real (Set.Iic x)⟩
  have hE : ∀ x k, 0 < k → c.cdf x k = chiCdf k x := fun x k hk => by
    have hk' : (0 : ℝ) < (k : ℝ) / 2 := by positivity
    have := isProbabilityMeasure_gammaMeasure hk' (r := 1 / 2) (by norm_num)
    simp only [c]
    rw [← cdf_eq_real, cdf_gammaMeasure_eq_integral hk' (by norm_num)]
    rfl
  have hq : ∀ q k, 0 < q → q < 1 → 0 < k → 0 < c.ppf q k ∧ chiCdf k (c.ppf q k) = q :=
    fun q k h0 h1 hk => by
      simp only [c]
      rw [dif_pos ⟨hk, h0, h1⟩]
      exact (chi_quantile hk h0 h1).choose_spec
  refine ⟨c, ⟨fun _ _ _ => rfl, fun q k h0 h1 hk => by rw [hE _ _ hk, (hq q k h0 h1 hk).2]⟩,
    fun k => ?_, fun q k h0 h1 hk => (hq q k h0 h1 hk).1, fun _ _ => measureReal_nonneg⟩
  simp only [c]
  rw [dif_neg (by simp)]

/-- Real normal and t laws meet the hypotheses of `C122_elliptical_real` (`df > 4`), the complex
ones those of `C122_elliptical_complex`. -/
theorem C122_laws (hp : 0 < p) {df : ℝ} (hdf : 4 < df) :
    (∀ S : Matrix (Fin p) (Fin p) ℝ, S.PosDef →
      (FourthMoment (lawOf fun x => Real.exp (normalLogDensity 0 S x)) ∧
        ∀ t, 0 < t → lawOf (fun x => Real.exp (normalLogDensity 0 S x)) {x | qf S x < t} ≠ 0) ∧
      FourthMoment (lawOf fun x => Real.exp (tLogDensity df 0 S x)) ∧
        ∀ t, 0 < t → lawOf (fun x => Real.exp (tLogDensity df 0 S x)) {x | qf S x < t} ≠ 0) ∧
    ∀ S : Matrix (Fin p) (Fin p) ℂ, S.PosDef →
      (FourthMoment (lawOf fun x => Real.exp (cnormalLogDensity 0 S x)) ∧
        ∀ t, 0 < t → lawOf (fun x => Real.exp (cnormalLogDensity 0 S x)) {x | qf S x < t} ≠ 0) ∧
      FourthMoment (lawOf fun x => Real.exp (ctLogDensity df 0 S x)) ∧
        ∀ t, 0 < t → lawOf (fun x => Real.exp (ctLogDensity df 0 S x)) {x | qf S x < t} ≠ 0 := by
  have hd : 0 < df := by linarith
  refine ⟨fun S hS => ⟨⟨realN_fourth hp hS, fun t ht => lawOf_open
      (Real.measurable_exp.comp (normal_measurable 0 S)) (fun _ => Real.exp_pos _)
      (isOpen_lt (continuous_qf S) continuous_const) ⟨0, by simpa [qf] using ht⟩⟩,
      (realT_fourth hd hp hS).2 hdf, fun t ht => lawOf_open
      (realT_measurable hd hS) (fun _ => Real.exp_pos _)
      (isOpen_lt (continuous_qf S) continuous_const) ⟨0, by simpa [qf] using ht⟩⟩,
    fun S hS => ⟨⟨cplxN_fourth hp hS, fun t ht => lawOf_open
      (Real.measurable_exp.comp (cnormal_measurable 0 S)) (fun _ => Real.exp_pos _)
      (isOpen_lt (continuous_qf S) continuous_const) ⟨0, by simpa [qf] using ht⟩⟩,
      (cplxT_fourth hd hp hS).2 hdf, fun t ht => lawOf_open
      (cplxT_measurable df S) (fun _ => Real.exp_pos _)
      (isOpen_lt (continuous_qf S) continuous_const) ⟨0, by simpa [qf] using ht⟩⟩⟩

theorem realN_prob {S : Matrix (Fin p) (Fin p) ℝ} (hS : S.PosDef) :
    IsProbabilityMeasure (lawOf fun x => Real.exp (normalLogDensity 0 S x)) := by
  rw [show (fun x => Real.exp (normalLogDensity 0 S x)) = ell (gNormal p) 0 S from
    funext fun x => exp_normalLogDensity 0 hS x]
  exact ell_prob (gNormal_moments p).toRadialMass hS

/-- Bivariate normal samples, `q = 0.9`, exact chi-square functions: the Huber estimates tend to
`κ I` with `κ > 1`. -/
example (env : (N : ℕ) → NumEnv N 2 ℝ) (hs : ∀ N, (env N).eigh.Ok) :
    ∃ (c : Chi2) (P : Measure (ℕ → Fin 2 → ℝ)) (κ : ℝ), c.Exact ∧ IsProbabilityMeasure P ∧ 1 < κ ∧
      ∀ᵐ ω ∂P, TendsTo (fun N init tol iterMax => huberFixedPoint (env N) c
        (firstSamples (fun i (ω : ℕ → Fin 2 → ℝ) => ω i) ω N) (9 / 10) init tol iterMax) (κ • 1) := by
  obtain ⟨c, hx, hc⟩ := chi2_exact
  have h1 : (1 : Matrix (Fin 2) (Fin 2) ℝ).PosDef := PosDef.one
  have hpr := realN_prob h1
  have h := iid_exists (lawOf fun x => Real.exp (normalLogDensity 0 (1 : Matrix (Fin 2) (Fin 2) ℝ) x))
  obtain ⟨κ, hκ, hv⟩ := C123_real_violated two_pos c hc hx (9 / 10) (by norm_num) (by norm_num) 1 h1 h
    env hs
  exact ⟨c, _, κ, hx, inferInstance, hκ, by filter_upwards [hv] with ω a using a.1⟩

/-- Bivariate t samples with 4 degrees of freedom (covariance `2 I`): the Huber estimates have no
limit. -/
example (env : (N : ℕ) → NumEnv N 2 ℝ) (hs : ∀ N, (env N).eigh.Ok) :
    ∃ (c : Chi2) (P : Measure (ℕ → Fin 2 → ℝ)), c.Exact ∧ IsProbabilityMeasure P ∧
      ∀ᵐ ω ∂P, ∀ S, ¬ TendsTo (fun N init tol iterMax => huberFixedPoint (env N) c
        (firstSamples (fun i (ω : ℕ → Fin 2 → ℝ) => ω i) ω N) (9 / 10) init tol iterMax) S := by
  obtain ⟨c, hx, hc⟩ := chi2_exact
  have h1 : (1 : Matrix (Fin 2) (Fin 2) ℝ).PosDef := PosDef.one
  have hpr := realT_prob four_pos h1
  have h := iid_exists (lawOf fun x => Real.exp (tLogDensity 4 0 (1 : Matrix (Fin 2) (Fin 2) ℝ) x))
  exact ⟨c, _, hx, inferInstance, (C124_t_real two_pos c hc (9 / 10) (by norm_num) (by norm_num) 4
    four_pos 1 h1 h env hs).2 le_rfl⟩

end
end RS
