import Verif.Lemmas.StudentLaw
import Verif.Lemmas.HuberEll
import Verif.Props.EmpClt

/-
How far the Student-t estimates are from their limit (C174).
-/
set_option autoImplicit false

namespace RS
open Matrix ComplexOrder Filter Topology MeasureTheory ProbabilityTheory

section
variable {𝕜 : Type} [RCLike 𝕜] [MeasurableSpace 𝕜] {p : ℕ}

/-- From every positive definite start, the results of the calls are as close to `T` as one wants, if
`tol` is small enough and `iter_max` large enough. -/
def SettlesAt (run : Option (Matrix (Fin p) (Fin p) 𝕜) → ℝ → ℤ → Py (FPOut p 𝕜))
    (T : Matrix (Fin p) (Fin p) 𝕜) : Prop :=
  ∀ init : Option (Matrix (Fin p) (Fin p) 𝕜), (∀ S ∈ init, S.PosDef) → ∀ ε : ℝ, 0 < ε →
    ∃ (tol₀ : ℝ) (K : ℕ), 0 < tol₀ ∧ ∀ (tol : ℝ) (iterMax : ℤ), tol ≤ tol₀ → K ≤ iterMax →
      ∃ result delta iteration warned,
        run init tol iterMax = .ok ⟨.fin result, delta, iteration, warned⟩ ∧ frobDist result T < ε

/-- The linear equation whose solution `K` gives the first-order term of `Re tr(H^H (T - S))`:
`S K S - E[(ν + p) / (ν + q)² (Re x^H K x) x x^H] = S H S` with `q = x^H S⁻¹ x`. -/
def InfluenceEq (nu : ℝ) (μ : Measure (Fin p → 𝕜)) (S H K : Matrix (Fin p) (Fin p) 𝕜) : Prop :=
  ∀ a b, (S * K * S) a b - ∫ x, (((nu + p) / (nu + qf S x) ^ 2 *
    RCLike.re (star x ⬝ᵥ (K *ᵥ x)) : ℝ) : 𝕜) * (x a * star (x b)) ∂μ = (S * H * S) a b

theorem influence_iff {nu : ℝ} {μ : Measure (Fin p → 𝕜)} {S H K : Matrix (Fin p) (Fin p) 𝕜} :
    InfluenceEq nu μ S H K ↔ jac nu μ S K = S * H * S :=
  ⟨fun h => by ext a b; exact h a b, fun h a b => congrFun (congrFun h a) b⟩

/-- `Re x^H K x` with the weight of the estimator: the influence of a sample `x`. -/
noncomputable def influence (nu : ℝ) (S K : Matrix (Fin p) (Fin p) 𝕜) (x : Fin p → 𝕜) : ℝ :=
  (nu + p) / (nu + qf S x) * RCLike.re (star x ⬝ᵥ (K *ᵥ x))

variable [BorelSpace 𝕜] {Ω : Type*} [MeasurableSpace Ω] {P : Measure Ω} [IsProbabilityMeasure P]
  {x : ℕ → Ω → Fin p → 𝕜} {μ : Measure (Fin p → 𝕜)}

open Classical in
/-- The solution for the first `N` samples. -/
noncomputable def solOf (nu : ℝ) (S : Matrix (Fin p) (Fin p) 𝕜) (x : ℕ → Ω → Fin p → 𝕜) (N : ℕ) (ω : Ω) :
    Matrix (Fin p) (Fin p) 𝕜 :=
  if h : p ≤ N ∧ ∃ Q : Matrix (Fin p) (Fin p) 𝕜, Q.PosDef ∧
    mStep (wStudent nu p) (firstSamples x ω N) Q = Q then h.2.choose else S

omit [MeasurableSpace 𝕜] [BorelSpace 𝕜] [MeasurableSpace Ω] in
theorem solOf_spec {nu : ℝ} (hnu : 0 < nu) (hp : 0 < p) (S : Matrix (Fin p) (Fin p) 𝕜) {N : ℕ}
    (hN : p ≤ N) {ω : Ω} (hg : GeneralPosition (firstSamples x ω N)) : (solOf nu S x N ω).PosDef ∧
      mStep (wStudent nu p) (firstSamples x ω N) (solOf nu S x N ω) = solOf nu S x N ω := by
  obtain ⟨Q, h1, h2⟩ := student_exists hnu hp (firstSamples x ω N) (generalPosition_student hg hN hnu)
  have h : p ≤ N ∧ ∃ Q : Matrix (Fin p) (Fin p) 𝕜, Q.PosDef ∧
    mStep (wStudent nu p) (firstSamples x ω N) Q = Q := ⟨hN, Q, h1, h2⟩
  rw [solOf, dif_pos h]
  exact h.2.choose_spec

theorem solOf_clt (h : IIDSamples P x μ) (hμ : NullSubspaces μ) (hp : 0 < p) {nu : ℝ} (hnu : 0 < nu)
    {S : Matrix (Fin p) (Fin p) 𝕜} (hS : S.PosDef) (hf : PopFixed nu μ S)
    {H K : Matrix (Fin p) (Fin p) 𝕜} (hK : InfluenceEq nu μ S H K) :
    TendstoInDistribution (fun (N : ℕ) ω => √N * RCLike.re (Hᴴ * (solOf nu S x N ω - S)).trace)
      atTop id (fun _ => P) (gaussianReal 0 Var[influence nu S K; μ].toNNReal) := by
  have := h.prob
  refine student_clt h hμ hp hnu hS hf (T := solOf nu S x) (fun N hN => ?_) (fun N hN ω => ?_)
    (influence_iff.1 hK)
  · filter_upwards [h.generalPosition hμ] with ω hg using solOf_spec hnu hp S hN (hg N)
  · rw [solOf, dif_neg fun h => absurd h.1 (not_le.2 hN)]

/-- The equation for `K` has exactly one solution, for every `H`. -/
theorem C174_influence [IsProbabilityMeasure μ] (hμ : NullSubspaces μ) {nu : ℝ} (hnu : 0 < nu)
    (S : Matrix (Fin p) (Fin p) 𝕜) (hS : S.PosDef) (hf : PopFixed nu μ S)
    (H : Matrix (Fin p) (Fin p) 𝕜) : ∃! K, InfluenceEq nu μ S H K := by
  obtain ⟨K, hK, hu⟩ := (jac_bij hμ hnu hS hf).existsUnique (S * H * S)
  exact ⟨K, influence_iff.2 hK, fun L hL => hu L (influence_iff.1 hL)⟩

/-- For an elliptical law the solution for `H = S⁻¹`, which measures the scale of the estimates, is
`K = S⁻¹ / (1 - c)` with `c p = E[(ν + p) q² / (ν + q)²]`. -/
theorem C174_scale [IsProbabilityMeasure μ] (hp : 0 < p) {nu : ℝ} (hnu : 0 < nu)
    (S : Matrix (Fin p) (Fin p) 𝕜) (hS : S.PosDef) (hE : EllipticalLaw μ S) (c : ℝ) (hc1 : c ≠ 1)
    (hc : ∫ x, (nu + p) * (qf S x / (nu + qf S x)) ^ 2 ∂μ = c * p) :
    InfluenceEq nu μ S S⁻¹ ((((1 - c)⁻¹ : ℝ) : 𝕜) • S⁻¹) ∧
    ∀ x, influence nu S ((((1 - c)⁻¹ : ℝ) : 𝕜) • S⁻¹) x =
      (1 - c)⁻¹ * ((nu + p) * (qf S x / (nu + qf S x))) := by
  have hSd := (Matrix.isUnit_iff_isUnit_det S).1 hS.isUnit
  have hq : ∀ x, 0 < nu + qf S x := fun x => by linarith [qf_nonneg hS x]
  have hre : ∀ x : Fin p → 𝕜, RCLike.re (star x ⬝ᵥ (((((1 - c)⁻¹ : ℝ) : 𝕜) • S⁻¹) *ᵥ x)) =
      (1 - c)⁻¹ * qf S x := fun x => by
    rw [smul_mulVec, dotProduct_smul, smul_eq_mul, RCLike.re_ofReal_mul]
    rfl
  refine ⟨fun a b => ?_, fun x => ?_⟩
  · have hwm : Measurable fun q : ℝ => (nu + p) / (nu + q) ^ 2 * ((1 - c)⁻¹ * q) := by fun_prop
    have ew : ∀ x : Fin p → 𝕜, (nu + p) / (nu + qf S x) ^ 2 * ((1 - c)⁻¹ * qf S x) * qf S x =
        (1 - c)⁻¹ * ((nu + p) * (qf S x / (nu + qf S x)) ^ 2) := fun x => by
      have := (hq x).ne'
      field_simp
    have hb : Integrable (fun x => (nu + p) * (qf S x / (nu + qf S x)) ^ 2) μ := by
      refine (integrable_const (nu + p)).mono' ?_ (Eventually.of_forall fun x => ?_)
      · have := measurable_qf S
        exact Measurable.aestronglyMeasurable (by fun_prop)
      · have h0 := qf_nonneg hS x
        have h1 : qf S x / (nu + qf S x) ≤ 1 := by rw [div_le_one (hq x)]; linarith
        have h2 : 0 ≤ qf S x / (nu + qf S x) := div_nonneg h0 (hq x).le
        have h3 : 0 ≤ nu + (p : ℝ) := by positivity
        rw [Real.norm_of_nonneg (by positivity)]
        exact mul_le_of_le_one_right h3 (pow_le_one₀ h2 h1)
    obtain ⟨-, hm⟩ := elliptical_moment hp hwm hS hE (by simp only [ew]; exact hb.const_mul _)
    simp only [ew] at hm
    rw [integral_const_mul, hc] at hm
    have hm' := congrFun (congrFun hm a) b
    simp only [wMoment, of_apply] at hm'
    simp only [hre]
    rw [hm']
    have hp' : (p : ℝ) ≠ 0 := by exact_mod_cast hp.ne'
    have e1 : (1 - c)⁻¹ * (c * p) / p = (1 - c)⁻¹ - 1 := by
      have : 1 - c ≠ 0 := sub_ne_zero.2 hc1.symm
      field_simp
      ring
    rw [e1, Matrix.mul_smul, Matrix.smul_mul, mul_nonsing_inv _ hSd, Matrix.one_mul, Matrix.smul_apply,
      Matrix.smul_apply, smul_eq_mul, smul_eq_mul, RCLike.ofReal_sub, RCLike.ofReal_one]
    ring
  · rw [influence, hre]
    ring

end

section
variable {p : ℕ} {Ω : Type*} [MeasurableSpace Ω] {P : Measure Ω} [IsProbabilityMeasure P]

private def noChi2s : Chi2 := ⟨fun q _ => q, fun _ _ => 0⟩
private theorem noChi2s_ok : noChi2s.Ok :=
  ⟨fun _ => rfl, fun _ _ h _ _ => h, fun _ _ => le_rfl⟩

theorem settles_real {N : ℕ} {X : Matrix (Fin N) (Fin p) ℝ} (hp : 0 < p) {df : ℝ} (hdf : 0 < df)
    (hX : Spans X) {T : Matrix (Fin p) (Fin p) ℝ} (hT : T.PosDef)
    (hfix : mStep (wStudent (df / 2) p) X T = T) (env : NumEnv N p ℝ) (hs : env.eigh.Ok) :
    SettlesAt (fun init tol iterMax => studentFixedPoint env X df init tol iterMax) T := by
  intro init hi ε hε
  have hr := (run_one_real_eq (.student df) hs noChi2s_ok hp hdf rfl hT 0 T).2 hfix
  obtain ⟨r, C, hr0, hr1, h2⟩ := C83_real env hs _ hp hX df hdf T hT 0 hr init hi
  exact C112_real (.student df) env hs noChi2s noChi2s_ok _ hp hX hdf init hi T (fun ε hε => by
      obtain ⟨K, hK⟩ := geometric_small (C := C) hr0 hr1 hε
      refine ⟨K, fun tol iterMax => ?_⟩
      obtain ⟨result, delta, iteration, warned, h5, h6⟩ := h2 tol iterMax
      exact ⟨result, delta, iteration, warned, h5, fun hk => h6.trans_lt (hK iteration hk)⟩) ε hε

theorem settles_complex {N : ℕ} {X : Matrix (Fin N) (Fin p) ℂ} (hp : 0 < p) {df : ℝ} (hdf : 0 < df)
    (hX : Spans X) {T : Matrix (Fin p) (Fin p) ℂ} (hT : T.PosDef)
    (hfix : mStep (wStudent df p) X T = T) (env : NumEnv N p ℂ) (hs : env.eigh.Ok) :
    SettlesAt (fun init tol iterMax => complexStudentFixedPoint env X df init tol iterMax) T := by
  intro init hi ε hε
  have hr := (run_one_complex_eq (.student df) hs noChi2s_ok hp hdf rfl hT 0 T).2 hfix
  obtain ⟨r, C, hr0, hr1, h2⟩ := C83_complex env hs _ hp hX df hdf T hT 0 hr init hi
  exact C112_complex (.student df) env hs noChi2s noChi2s_ok _ hp hX hdf init hi T (fun ε hε => by
      obtain ⟨K, hK⟩ := geometric_small (C := C) hr0 hr1 hε
      refine ⟨K, fun tol iterMax => ?_⟩
      obtain ⟨result, delta, iteration, warned, h5, h6⟩ := h2 tol iterMax
      exact ⟨result, delta, iteration, warned, h5, fun hk => h6.trans_lt (hK iteration hk)⟩) ε hε

/-- Real data. Independent samples of a law for which `S` solves the population equation of C121
(`ν = df/2`): almost surely the calls on the first `N ≥ p` samples settle at a matrix `T N`, and every
linear function `tr(H^T ·)` of `√N (T N - S)` converges in distribution to a centred normal law, with
the variance of the influence `(ν + p) / (ν + x^T S⁻¹ x) · x^T K x` of one sample, where `K` is the
solution of the influence equation for `H`. -/
theorem C174_real {x : ℕ → Ω → Fin p → ℝ} {μ : Measure (Fin p → ℝ)} (h : IIDSamples P x μ)
    (hμ : NullSubspaces μ) (hp : 0 < p) (df : ℝ) (hdf : 0 < df) (S : Matrix (Fin p) (Fin p) ℝ)
    (hS : S.PosDef) (hf : PopFixed (df / 2) μ S) :
    ∃ T : ℕ → Ω → Matrix (Fin p) (Fin p) ℝ,
      (∀ᵐ ω ∂P, ∀ N, p ≤ N → ∀ env : NumEnv N p ℝ, env.eigh.Ok →
        SettlesAt (fun init tol iterMax =>
          studentFixedPoint env (firstSamples x ω N) df init tol iterMax) (T N ω)) ∧
      ∀ H K : Matrix (Fin p) (Fin p) ℝ, InfluenceEq (df / 2) μ S H K →
        TendstoInDistribution (fun (N : ℕ) ω => √N * (Hᵀ * (T N ω - S)).trace) atTop id (fun _ => P)
          (gaussianReal 0 Var[influence (df / 2) S K; μ].toNNReal) := by
  refine ⟨solOf (df / 2) S x, ?_, fun H K hK => ?_⟩
  · filter_upwards [h.generalPosition hμ] with ω hg N hN env hs
    obtain ⟨h1, h2⟩ := solOf_spec (half_pos hdf) hp S hN (hg N)
    exact settles_real hp hdf (student_spans _ (generalPosition_student (hg N) hN (half_pos hdf))) h1 h2
      env hs
  · have := solOf_clt h hμ hp (half_pos hdf) hS hf hK
    rwa [conjTranspose_eq_transpose_of_trivial] at this

/-- Complex data, `ν = df`, with `Re tr(H^H ·)`, the conjugate transpose and `Re x^H K x`. -/
theorem C174_complex {x : ℕ → Ω → Fin p → ℂ} {μ : Measure (Fin p → ℂ)} (h : IIDSamples P x μ)
    (hμ : NullSubspaces μ) (hp : 0 < p) (df : ℝ) (hdf : 0 < df) (S : Matrix (Fin p) (Fin p) ℂ)
    (hS : S.PosDef) (hf : PopFixed df μ S) :
    ∃ T : ℕ → Ω → Matrix (Fin p) (Fin p) ℂ,
      (∀ᵐ ω ∂P, ∀ N, p ≤ N → ∀ env : NumEnv N p ℂ, env.eigh.Ok →
        SettlesAt (fun init tol iterMax =>
          complexStudentFixedPoint env (firstSamples x ω N) df init tol iterMax) (T N ω)) ∧
      ∀ H K : Matrix (Fin p) (Fin p) ℂ, InfluenceEq df μ S H K →
        TendstoInDistribution (fun (N : ℕ) ω => √N * (Hᴴ * (T N ω - S)).trace.re) atTop id (fun _ => P)
          (gaussianReal 0 Var[influence df S K; μ].toNNReal) := by
  refine ⟨solOf df S x, ?_, fun H K hK => solOf_clt h hμ hp hdf hS hf hK⟩
  filter_upwards [h.generalPosition hμ] with ω hg N hN env hs
  obtain ⟨h1, h2⟩ := solOf_spec hdf hp S hN (hg N)
  exact settles_complex hp hdf (student_spans _ (generalPosition_student (hg N) hN hdf)) h1 h2 env hs

/-- Confidence intervals, real data: the probability that `tr(H^T (T N - S))` is at most `t / √N` tends
to the probability of `[-t, t]` under the normal law of `C174_real`, if that is not degenerate. -/
theorem C174_interval {x : ℕ → Ω → Fin p → ℝ} {μ : Measure (Fin p → ℝ)} (h : IIDSamples P x μ)
    (hμ : NullSubspaces μ) (hp : 0 < p) (df : ℝ) (hdf : 0 < df) (S : Matrix (Fin p) (Fin p) ℝ)
    (hS : S.PosDef) (hf : PopFixed (df / 2) μ S) (H K : Matrix (Fin p) (Fin p) ℝ)
    (hK : InfluenceEq (df / 2) μ S H K) (v : NNReal) (hv : v ≠ 0)
    (hvar : Var[influence (df / 2) S K; μ] = v) (t : ℝ) :
    ∃ T : ℕ → Ω → Matrix (Fin p) (Fin p) ℝ,
      (∀ᵐ ω ∂P, ∀ N, p ≤ N → ∀ env : NumEnv N p ℝ, env.eigh.Ok →
        SettlesAt (fun init tol iterMax =>
          studentFixedPoint env (firstSamples x ω N) df init tol iterMax) (T N ω)) ∧
      Tendsto (fun N : ℕ => P {ω | |(Hᵀ * (T N ω - S)).trace| ≤ t / √N}) atTop
        (𝓝 (gaussianReal 0 v (Set.Icc (-t) t))) := by
  obtain ⟨T, h1, h2⟩ := C174_real h hμ hp df hdf S hS hf
  refine ⟨T, h1, interval_limit hv (limit_congr (h2 H K hK) rfl ?_) t⟩
  rw [hvar, Real.toNNReal_coe]

/-- Samples of the complex t law with `2 df` degrees of freedom, for which the estimator called with
`df` is consistent (C121): the scale `tr(S⁻¹ T N)` of the estimates is asymptotically normal with
variance `p (df + p + 1) / df`. -/
theorem C174_t_scale {x : ℕ → Ω → Fin p → ℂ} (hp : 0 < p) (df : ℝ) (hdf : 0 < df)
    (S : Matrix (Fin p) (Fin p) ℂ) (hS : S.PosDef)
    (h : IIDSamples P x (lawOf fun x => Real.exp (ctLogDensity (2 * df) 0 S x))) :
    ∃ T : ℕ → Ω → Matrix (Fin p) (Fin p) ℂ,
      (∀ᵐ ω ∂P, ∀ N, p ≤ N → ∀ env : NumEnv N p ℂ, env.eigh.Ok →
        SettlesAt (fun init tol iterMax =>
          complexStudentFixedPoint env (firstSamples x ω N) df init tol iterMax) (T N ω)) ∧
      TendstoInDistribution (fun (N : ℕ) ω => √N * ((S⁻¹ * T N ω).trace.re - p)) atTop id (fun _ => P)
        (gaussianReal 0 (p * (df + p + 1) / df).toNNReal) := by
  have hd : 0 < 2 * df := by linarith
  have := h.prob
  have hu := cplxT_u hd hS
  have hu2 := cplxT_u2 hd hS
  rw [mul_div_cancel_left₀ df two_ne_zero] at hu hu2
  have hE : EllipticalLaw (lawOf fun x => Real.exp (ctLogDensity (2 * df) 0 S x)) S := cplxT_elliptical _ hS
  have hf : PopFixed df (lawOf fun x => Real.exp (ctLogDensity (2 * df) 0 S x)) S := by
    refine elliptical_popFixed hdf.le hS hE ?_
    have hpt : ∀ x : Fin p → ℂ, (df + p) / (df + qf S x) * qf S x =
        (df + p) * (qf S x / (df + qf S x)) := fun x => by ring
    simp only [hpt]
    rw [integral_const_mul, hu]
    field_simp
  have hp' : (0 : ℝ) < p := by exact_mod_cast hp
  set c : ℝ := (p + 1) / (df + p + 1) with hc
  have hc1 : 1 - c = df / (df + p + 1) := by
    rw [hc]
    field_simp
    ring
  have hcne : c ≠ 1 := fun e => by
    rw [e, sub_self] at hc1
    exact absurd hc1.symm (by positivity)
  obtain ⟨hK, hinf⟩ := C174_scale hp hdf S hS hE c hcne (by
    rw [integral_const_mul, hu2, hc]
    field_simp)
  obtain ⟨T, h1, h2⟩ := C174_complex h (lawOf_null_cplx _) hp df hdf S hS hf
  refine ⟨T, h1, limit_congr (h2 _ _ hK) ?_ ?_⟩
  · funext N ω
    have hSd := (Matrix.isUnit_iff_isUnit_det S).1 hS.isUnit
    rw [hS.isHermitian.inv.eq, Matrix.mul_sub, nonsing_inv_mul _ hSd, trace_sub, trace_one,
      Fintype.card_fin, Complex.sub_re, Complex.natCast_re]
  · have hmu : MemLp (fun x => qf S x / (df + qf S x)) 2
        (lawOf fun x => Real.exp (ctLogDensity (2 * df) 0 S x)) := by
      have hm := measurable_qf S
      refine MemLp.of_bound (Measurable.aestronglyMeasurable (by fun_prop)) 1
        (Eventually.of_forall fun x => ?_)
      have h0 := qf_nonneg hS x
      have hq : 0 < df + qf S x := by linarith
      rw [Real.norm_of_nonneg (div_nonneg h0 hq.le), div_le_one hq]
      linarith
    rw [funext hinf, variance_const_mul, variance_const_mul, variance_eq_sub hmu]
    simp only [Pi.pow_apply]
    rw [hu2, hu, hc1]
    congr 1
    field_simp
    ring

/-! The hypotheses can be met: samples of the bivariate t law with one degree of freedom (which has no
mean), real data and `df = 2`; and of the complex t law with two degrees of freedom, `df = 1`, where the
variance of the scale is `8`. -/

example : ∃ (P : Measure (ℕ → Fin 2 → ℝ)) (_ : IsProbabilityMeasure P),
    ∃ T : ℕ → (ℕ → Fin 2 → ℝ) → Matrix (Fin 2) (Fin 2) ℝ, (∀ᵐ ω ∂P, ∀ N, 2 ≤ N →
      ∀ env : NumEnv N 2 ℝ, env.eigh.Ok → SettlesAt (fun init tol iterMax => studentFixedPoint env
        (firstSamples (fun i (ω : ℕ → Fin 2 → ℝ) => ω i) ω N) 2 init tol iterMax) (T N ω)) ∧
      ∀ H : Matrix (Fin 2) (Fin 2) ℝ, ∃ v, TendstoInDistribution (fun (N : ℕ) ω =>
        √N * (Hᵀ * (T N ω - 1)).trace) atTop id (fun _ => P) (gaussianReal 0 v) := by
  have h1 : (1 : Matrix (Fin 2) (Fin 2) ℝ).PosDef := PosDef.one
  have hpr := realT_prob one_pos h1
  have h := iid_exists (lawOf fun x => Real.exp (tLogDensity 1 0 (1 : Matrix (Fin 2) (Fin 2) ℝ) x))
  have hf : PopFixed (2 / 2) (lawOf fun x => Real.exp (tLogDensity 1 0 (1 : Matrix (Fin 2) (Fin 2) ℝ) x)) 1 := by
    rw [div_self two_ne_zero]
    refine elliptical_popFixed zero_le_one h1 (realT_elliptical one_pos h1) ?_
    have hpt : ∀ x : Fin 2 → ℝ, (1 + ((2 : ℕ) : ℝ)) / (1 + qf (1 : Matrix (Fin 2) (Fin 2) ℝ) x) *
        qf (1 : Matrix (Fin 2) (Fin 2) ℝ) x = (1 + ((2 : ℕ) : ℝ)) *
          (qf (1 : Matrix (Fin 2) (Fin 2) ℝ) x / (1 + qf (1 : Matrix (Fin 2) (Fin 2) ℝ) x)) :=
      fun x => by ring
    simp only [hpt]
    rw [integral_const_mul, realT_u one_pos h1]
    norm_num
  obtain ⟨T, a1, a2⟩ := C174_real h (lawOf_null_real _) two_pos 2 two_pos 1 h1 hf
  refine ⟨_, inferInstance, T, a1, fun H => ?_⟩
  obtain ⟨K, hK, -⟩ := C174_influence (lawOf_null_real _) (by norm_num) 1 h1 hf H
  exact ⟨_, a2 H K hK⟩

example : ∃ (P : Measure (ℕ → Fin 2 → ℂ)) (_ : IsProbabilityMeasure P),
    ∃ T : ℕ → (ℕ → Fin 2 → ℂ) → Matrix (Fin 2) (Fin 2) ℂ, (∀ᵐ ω ∂P, ∀ N, 2 ≤ N →
      ∀ env : NumEnv N 2 ℂ, env.eigh.Ok → SettlesAt (fun init tol iterMax => complexStudentFixedPoint env
        (firstSamples (fun i (ω : ℕ → Fin 2 → ℂ) => ω i) ω N) 1 init tol iterMax) (T N ω)) ∧
      TendstoInDistribution (fun (N : ℕ) ω => √N * ((T N ω).trace.re - 2)) atTop id (fun _ => P)
        (gaussianReal 0 8) := by
  have h1 : (1 : Matrix (Fin 2) (Fin 2) ℂ).PosDef := PosDef.one
  have hpr := cplxT_prob (by norm_num : (0 : ℝ) < 2 * 1) h1
  have h := iid_exists (lawOf fun x => Real.exp (ctLogDensity (2 * 1) 0 (1 : Matrix (Fin 2) (Fin 2) ℂ) x))
  obtain ⟨T, a1, a2⟩ := C174_t_scale two_pos 1 one_pos 1 h1 h
  refine ⟨_, inferInstance, T, a1, limit_congr a2 ?_ ?_⟩
  · funext N ω
    rw [inv_one, Matrix.one_mul]
    norm_num
  · norm_num

end
end RS
