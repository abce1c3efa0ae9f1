import Verif.Lemmas.EmpDelta
import Verif.Props.Delta
import Verif.Lemmas.TFourth
import Verif.Lemmas.CorrInterval

/-
Coherences of the empirical covariance and of Tyler's estimator compared (C181).
-/
set_option autoImplicit false

namespace RS
open Matrix ComplexOrder Filter Topology MeasureTheory ProbabilityTheory

section
variable {p : ℕ} {Ω : Type*} [MeasurableSpace Ω] {P : Measure Ω} [IsProbabilityMeasure P]
  {x : ℕ → Ω → Fin p → ℂ} {μ : Measure (Fin p → ℂ)} {m : Fin p → ℂ} {S : Matrix (Fin p) (Fin p) ℂ}

omit [IsProbabilityMeasure P] in
theorem emp_mip_measurable (h : IIDSamples P x μ) (centered : Bool) (N : ℕ) (B : Matrix (Fin p) (Fin p) ℂ) :
    AEMeasurable (fun ω => mip B (complexEmpiricalCovariance (firstSamples x ω N) centered)) P := by
  have hx : ∀ (i : Fin N) a, Measurable fun ω => firstSamples x ω N i a := fun i a =>
    (measurable_pi_apply a).comp (h.meas i)
  refine (measurable_mip B fun a b => ?_).aemeasurable
  have hst : Measurable (star : ℂ → ℂ) := continuous_star.measurable
  cases centered with
  | true =>
    simp only [complexEmpiricalCovariance, if_true, dotCov_apply]
    exact (Finset.measurable_fun_sum _ fun i _ => (hx i a).mul (hst.comp (hx i b))).const_mul _
  | false =>
    rcases Nat.eq_zero_or_pos N with rfl | hN
    · have : ∀ ω, firstSamples x ω 0 = firstSamples (fun _ (_ : Unit) => 0) () 0 := fun ω =>
        Matrix.ext fun i => i.elim0
      simp only [this]
      exact measurable_const
    · simp only [complexEmpiricalCovariance, Bool.false_eq_true, if_false, npCov_apply hN _ 0, Pi.zero_apply, sub_zero]
      refine ((Finset.measurable_fun_sum _ fun i _ => (hx i a).mul (hst.comp (hx i b))).const_mul _).sub ?_
      exact ((Finset.measurable_fun_sum _ fun i _ => hx i a).const_mul _).mul
        (hst.comp ((Finset.measurable_fun_sum _ fun i _ => hx i b).const_mul _))

theorem emp_consistent (h : IIDSamples P x μ) (hM : MeanCov μ m S) (centered : Bool)
    (hm0 : centered = true → m = 0) :
    ∀ᵐ ω ∂P, Tendsto (fun N => complexEmpiricalCovariance (firstSamples x ω N) centered) atTop (𝓝 S) := by
  have e0 : (if centered then S + vecMulVec m (star m) else S) = S := by
    cases centered with
    | true => simp [hm0 rfl]
    | false => simp
  have := emp_limit h hM centered
  rwa [e0] at this

theorem emp_delta (h : IIDSamples P x μ) (hM : MeanCov μ m S) (h4 : FourthMoment μ)
    (hS : S.IsHermitian) (centered : Bool) (hm0 : centered = true → m = 0)
    (g : Matrix (Fin p) (Fin p) ℂ → ℝ) (H : Matrix (Fin p) (Fin p) ℂ) (hH : H.IsHermitian)
    (hm : Measurable (fun a : Fin p → Fin p → ℂ => g (of a))) (hg : HasGrad g S H) :
    TendstoInDistribution (fun (N : ℕ) ω => √N *
      (g (complexEmpiricalCovariance (firstSamples x ω N) centered) - g S)) atTop id (fun _ => P)
      (gaussianReal 0 Var[fun z => (star (z - m) ⬝ᵥ H *ᵥ (z - m)).re; μ].toNNReal) := by
  have := h.prob
  have e0 : (if centered then S + vecMulVec m (star m) else S) = S := by
    cases centered with
    | true => simp [hm0 rfl]
    | false => simp
  have e1 : (if centered then 0 else m) = m := by
    cases centered with
    | true => simp [hm0 rfl]
    | false => simp
  have hA := emp_consistent h hM centered hm0
  have hd : ∀ B, TendstoInDistribution (fun (N : ℕ) ω => √N *
      mip B (complexEmpiricalCovariance (firstSamples x ω N) centered - S)) atTop id (fun _ => P)
      (gaussianReal 0 Var[fun z => trForm B (outerC (z - m)); μ].toNNReal) := fun B =>
    limit_congr (emp_clt h hM h4 centered B) (by simp only [e0]; rfl) (by simp only [e1])
  have hherm : ∀ N ω, (complexEmpiricalCovariance (firstSamples x ω N) centered).IsHermitian := fun N ω =>
    (C25_posSemidef _ centered).isHermitian
  refine limit_congr (delta_of_limits hS hH hA hherm (emp_mip_measurable h centered) hd hm hg) rfl ?_
  congr 2
  funext z
  exact trForm_outer_herm hH _

/-- Any law with finite fourth moments, mean `m` and covariance `S`: smooth functions of the
covariance that `ComplexEmpiricalCovariance` computes. -/
theorem C181_delta (h : IIDSamples P x μ) (hM : MeanCov μ m S) (h4 : FourthMoment μ) (hp : 0 < p)
    (hS : S.IsHermitian) (centered : Bool) (hm0 : centered = true → m = 0) :
    ∃ C : ℕ → Ω → Matrix (Fin p) (Fin p) ℂ,
      (∀ N, 0 < N → ∀ ω, ∃ loc, complexEmpCovFit (.cplx (.d2 N p (firstSamples x ω N))) centered =
        .ok ⟨⟨p, loc⟩, .cplx (.d2 p p (C N ω))⟩) ∧
      ∀ (g : Matrix (Fin p) (Fin p) ℂ → ℝ) (H : Matrix (Fin p) (Fin p) ℂ), H.IsHermitian →
        Measurable (fun a : Fin p → Fin p → ℂ => g (of a)) → HasGrad g S H →
        TendstoInDistribution (fun (N : ℕ) ω => √N * (g (C N ω) - g S)) atTop id (fun _ => P)
          (gaussianReal 0 Var[fun z => (star (z - m) ⬝ᵥ H *ᵥ (z - m)).re; μ].toNNReal) := by
  have := h.prob
  exact ⟨fun N ω => complexEmpiricalCovariance (firstSamples x ω N) centered,
    fun N hN ω => emp_fit hN hp _ centered, emp_delta h hM h4 hS centered hm0⟩

/-- The fourth moment of an elliptical law in terms of that of `q(z) = z^H S⁻¹ z`. -/
theorem elliptical_var (hp : 0 < p) (hS : S.PosDef) (hE : EllipticalLaw μ S) (h4 : FourthMoment μ)
    {H : Matrix (Fin p) (Fin p) ℂ} (hH : H.IsHermitian) :
    ∫ z, (star z ⬝ᵥ H *ᵥ z).re ^ 2 ∂μ =
      ((H * S * (H * S)).trace.re + (H * S).trace.re ^ 2) * ((∫ z, qf S z ^ 2 ∂μ) / (p * (p + 1))) := by
  have hu := (isUnit_iff_isUnit_det _).1 hS.isUnit
  have i1 : S⁻¹ * S = 1 := Matrix.nonsing_inv_mul S hu
  have i2 : S * S⁻¹ = 1 := Matrix.mul_nonsing_inv S hu
  have hD : (S * H * S).IsHermitian := by
    rw [IsHermitian]
    simp only [conjTranspose_mul, hH.eq, hS.1.eq, Matrix.mul_assoc]
  obtain ⟨-, -, h3⟩ := elliptical_forms (w := fun _ => 1) hS hE measurable_const hD
  have e1 : S⁻¹ * (S * H * S) * S⁻¹ = H := by
    calc S⁻¹ * (S * H * S) * S⁻¹ = (S⁻¹ * S) * H * (S * S⁻¹) := by simp only [Matrix.mul_assoc]
      _ = H := by rw [i1, i2, Matrix.one_mul, Matrix.mul_one]
  have e2 : S⁻¹ * (S * H * S) = H * S := by
    calc S⁻¹ * (S * H * S) = (S⁻¹ * S) * H * S := by simp only [Matrix.mul_assoc]
      _ = H * S := by rw [i1, Matrix.one_mul]
  rw [e1, e2] at h3
  simp only [one_mul] at h3
  have h5 := h3 ((fourth_iff hS).1 h4)
  have hp' : (0 : ℝ) < p := by exact_mod_cast hp
  have hpp : (p : ℝ) * (p + 1) ≠ 0 := by positivity
  rw [mul_div_assoc', eq_div_iff hpp, ← h5]
  ring

/-- Squared coherences by the empirical covariance, samples of an elliptical law with mean zero,
covariance `S` and finite fourth moments: the variance is `2 κ γ² (1 - γ²)²`, where
`κ = E[(z^H S⁻¹ z)²] / (p (p + 1))`; whether or not the mean is estimated. -/
theorem C181_coherence (h : IIDSamples P x μ) (hp : 0 < p) (hS : S.PosDef) (hE : EllipticalLaw μ S)
    (hM : MeanCov μ 0 S) (h4 : FourthMoment μ) (centered : Bool) :
    ∃ C : ℕ → Ω → Matrix (Fin p) (Fin p) ℂ,
      (∀ N, 0 < N → ∀ ω, ∃ loc, complexEmpCovFit (.cplx (.d2 N p (firstSamples x ω N))) centered =
        .ok ⟨⟨p, loc⟩, .cplx (.d2 p p (C N ω))⟩) ∧
      ∀ i j, TendstoInDistribution (fun (N : ℕ) ω => √N * (coherence2 i j (C N ω) - coherence2 i j S)) atTop id
        (fun _ => P) (gaussianReal 0 (2 * ((∫ z, (star z ⬝ᵥ S⁻¹ *ᵥ z).re ^ 2 ∂μ) / (p * (p + 1))) *
          (coherence2 i j S * (1 - coherence2 i j S) ^ 2)).toNNReal) := by
  have hpr := h.prob
  obtain ⟨C, h1, h2⟩ := C181_delta h hM h4 hp hS.isHermitian centered fun _ => rfl
  refine ⟨C, h1, fun i j => limit_congr (h2 _ _ (cohGrad_herm i j hS) (coherence2_measurable i j)
    (coh_hasGrad i j hS)) rfl ?_⟩
  obtain ⟨e1, e2⟩ := cohGrad_trace i j hS
  have hH := cohGrad_herm i j hS
  congr 1
  have hmem : MemLp (fun z : Fin p → ℂ => (star z ⬝ᵥ cohGrad i j S *ᵥ z).re) 2 μ := by
    have := trForm_memLp h4 (cohGrad i j S) 0
    simp only [sub_zero, trForm, outerC, trForm_outer_herm hH] at this
    exact this
  have hmean : ∫ z, (star z ⬝ᵥ cohGrad i j S *ᵥ z).re ∂μ = 0 := by
    have := trForm_mean (fun a b => hM.outer_centred a b) (cohGrad i j S)
    simp only [sub_zero, trForm, outerC, trForm_outer_herm hH] at this
    rw [this, hH.eq, e1]
  simp only [sub_zero]
  rw [variance_eq_sub hmem]
  simp only [Pi.pow_apply]
  rw [elliptical_var hp hS hE h4 hH, hmean, e1, e2]
  change _ * ((∫ z, (star z ⬝ᵥ S⁻¹ *ᵥ z).re ^ 2 ∂μ) / _) - _ = _
  ring

/-- Which of the two to use, elliptical laws with covariance `S`: the limit variance of every squared
coherence by Tyler's estimator is smaller than that by the empirical covariance if and only if
`E[(z^H S⁻¹ z)²] > (p + 1)²`. -/
theorem C181_compare (h : IIDSamples P x μ) (hμ : NullSubspaces μ) (hp : 0 < p) (hS : S.PosDef)
    (hE : EllipticalLaw μ S) (hM : MeanCov μ 0 S) (h4 : FourthMoment μ) (centered : Bool)
    (name : String) (hname : name = "trace" ∨ name = "determinant" ∨ name = "element") :
    ∃ C T : ℕ → Ω → Matrix (Fin p) (Fin p) ℂ,
      (∀ N, 0 < N → ∀ ω, ∃ loc, complexEmpCovFit (.cplx (.d2 N p (firstSamples x ω N))) centered =
        .ok ⟨⟨p, loc⟩, .cplx (.d2 p p (C N ω))⟩) ∧
      (∀ᵐ ω ∂P, ∀ N, p < N → ∀ env : NumEnv N p ℂ, env.eigh.Ok →
        SettlesAt (fun init tol iterMax =>
          complexTylerFixedPoint env (firstSamples x ω N) init tol iterMax name) (T N ω)) ∧
      ∀ i j, i ≠ j → S i j ≠ 0 → ∃ v w : NNReal,
        TendstoInDistribution (fun (N : ℕ) ω => √N * (coherence2 i j (C N ω) - coherence2 i j S)) atTop id
          (fun _ => P) (gaussianReal 0 v) ∧
        TendstoInDistribution (fun (N : ℕ) ω => √N * (coherence2 i j (T N ω) - coherence2 i j S)) atTop id
          (fun _ => P) (gaussianReal 0 w) ∧
        (w < v ↔ ((p : ℝ) + 1) ^ 2 < ∫ z, (star z ⬝ᵥ S⁻¹ *ᵥ z).re ^ 2 ∂μ) := by
  obtain ⟨C, c1, c2⟩ := C181_coherence h hp hS hE hM h4 centered
  obtain ⟨T, t1, t2⟩ := C178_coherence_tyler h hμ hp S hS hE name hname
  refine ⟨C, T, c1, t1, fun i j hij h0 => ⟨_, _, c2 i j, t2 i j, ?_⟩⟩
  have hp' : (0 : ℝ) < p := by exact_mod_cast hp
  have hc : 0 < coherence2 i j S * (1 - coherence2 i j S) ^ 2 :=
    mul_pos (coherence2_pos hS h0) (pow_pos (sub_pos.2 (coherence2_lt hS hij)) 2)
  set c := coherence2 i j S * (1 - coherence2 i j S) ^ 2
  set I := ∫ z, (star z ⬝ᵥ S⁻¹ *ᵥ z).re ^ 2 ∂μ
  rw [← not_le, Real.toNNReal_le_toNNReal_iff (by positivity), not_le, mul_lt_mul_iff_left₀ hc,
    mul_lt_mul_iff_right₀ two_pos, lt_div_iff₀ (by positivity),
    show (1 + 1 / (p : ℝ)) * (p * (p + 1)) = (p + 1) ^ 2 by field_simp]

/-- Normal samples: the variance is `2 γ² (1 - γ²)²`. -/
theorem C181_normal (hp : 0 < p) (hS : S.PosDef)
    (h : IIDSamples P x (lawOf fun z => Real.exp (cnormalLogDensity 0 S z))) (centered : Bool) :
    ∃ C : ℕ → Ω → Matrix (Fin p) (Fin p) ℂ,
      (∀ N, 0 < N → ∀ ω, ∃ loc, complexEmpCovFit (.cplx (.d2 N p (firstSamples x ω N))) centered =
        .ok ⟨⟨p, loc⟩, .cplx (.d2 p p (C N ω))⟩) ∧
      ∀ i j, TendstoInDistribution (fun (N : ℕ) ω => √N * (coherence2 i j (C N ω) - coherence2 i j S)) atTop id
        (fun _ => P) (gaussianReal 0 (2 * (coherence2 i j S * (1 - coherence2 i j S) ^ 2)).toNNReal) := by
  have hp' : (0 : ℝ) < p := by exact_mod_cast hp
  obtain ⟨C, c1, c2⟩ := C181_coherence h hp hS (cplxN_elliptical hS) (cplxN_meanCov hS) (cplxN_fourth hp hS) centered
  refine ⟨C, c1, fun i j => limit_congr (c2 i j) rfl ?_⟩
  have e : ∫ z, (star z ⬝ᵥ S⁻¹ *ᵥ z).re ^ 2 ∂lawOf (fun z => Real.exp (cnormalLogDensity 0 S z)) = p * (p + 1) :=
    cplxN_qf_sq hp hS
  rw [e, div_self (by positivity), mul_one]

/-- The fourth moment of the t law with `ν > 4` degrees of freedom, whose covariance is `ν / (ν - 2) S`. -/
theorem cplxT_scaled_sq (hp : 0 < p) (hS : S.PosDef) {ν : ℝ} (hν : 4 < ν) :
    ∫ z, (star z ⬝ᵥ (((ν / (ν - 2) : ℝ) : ℂ) • S)⁻¹ *ᵥ z).re ^ 2
      ∂lawOf (fun z => Real.exp (ctLogDensity ν 0 S z)) = p * (p + 1) * ((ν - 2) / (ν - 4)) := by
  have hν0 : 0 < ν := by linarith
  have hν2 : 0 < ν - 2 := by linarith
  have hν4 : 0 < ν - 4 := by linarith
  have hc : 0 < ν / (ν - 2) := by positivity
  have e1 : ∀ z : Fin p → ℂ, (star z ⬝ᵥ (((ν / (ν - 2) : ℝ) : ℂ) • S)⁻¹ *ᵥ z).re ^ 2 =
      ((ν - 2) / ν) ^ 2 * qf S z ^ 2 := fun z => by
    change qf ((((ν / (ν - 2) : ℝ)) : ℂ) • S) z ^ 2 = _
    rw [show ((((ν / (ν - 2) : ℝ)) : ℂ) • S) = (RCLike.ofReal (K := ℂ) (ν / (ν - 2))) • S from rfl,
      qf_smul hS hc]
    field_simp
  simp only [e1]
  rw [integral_const_mul, cplxT_qf_sq hp hS hν]
  field_simp

/-- Samples of the complex t law with `ν > 4` degrees of freedom: the variance is
`2 (ν - 2) / (ν - 4) γ² (1 - γ²)²` for the empirical covariance. -/
theorem C181_t (hp : 0 < p) (hS : S.PosDef) (ν : ℝ) (hν : 4 < ν)
    (h : IIDSamples P x (lawOf fun z => Real.exp (ctLogDensity ν 0 S z))) (centered : Bool) :
    ∃ C : ℕ → Ω → Matrix (Fin p) (Fin p) ℂ,
      (∀ N, 0 < N → ∀ ω, ∃ loc, complexEmpCovFit (.cplx (.d2 N p (firstSamples x ω N))) centered =
        .ok ⟨⟨p, loc⟩, .cplx (.d2 p p (C N ω))⟩) ∧
      ∀ i j, TendstoInDistribution (fun (N : ℕ) ω => √N * (coherence2 i j (C N ω) - coherence2 i j S)) atTop id
        (fun _ => P) (gaussianReal 0 (2 * ((ν - 2) / (ν - 4)) *
          (coherence2 i j S * (1 - coherence2 i j S) ^ 2)).toNNReal) := by
  have hp' : (0 : ℝ) < p := by exact_mod_cast hp
  have hν0 : 0 < ν := by linarith
  have hν2 : 0 < ν - 2 := by linarith
  have hν4 : 0 < ν - 4 := by linarith
  have hc : 0 < ν / (ν - 2) := by positivity
  have hS' : (((ν / (ν - 2) : ℝ) : ℂ) • S).PosDef := hS.smul (by exact_mod_cast hc)
  obtain ⟨C, c1, c2⟩ := C181_coherence h hp hS' (elliptical_smul (cplxT_elliptical ν hS) hc)
    (cplxT_meanCov hS (by linarith)) ((cplxT_fourth hν0 hp hS).2 hν) centered
  refine ⟨C, c1, fun i j => limit_congr (c2 i j) ?_ ?_⟩
  · rw [coherence2_smul i j S hc]
  · have e := cplxT_scaled_sq hp hS hν
    rw [e, coherence2_smul i j S hc, mul_div_cancel_left₀ _ (by positivity)]

/-- The factors of the empirical covariance (`C181_t`), of Tyler's estimator (`C178_coherence_tyler`) and of
the Student-t estimator with `df = ν / 2` (`C178_coherence_student`) on these samples: Tyler's estimator
has the smaller variance exactly if `ν < 2 p + 4`, the Student-t estimator always has. -/
theorem C181_t_factors (hp : 0 < p) (ν : ℝ) (hν : 4 < ν) :
    (1 + 1 / (p : ℝ) < (ν - 2) / (ν - 4) ↔ ν < 2 * p + 4) ∧
    1 + 1 / (ν / 2 + (p : ℝ)) < (ν - 2) / (ν - 4) := by
  have hp' : (0 : ℝ) < p := by exact_mod_cast hp
  have hν4 : 0 < ν - 4 := by linarith
  have e : (ν - 2) / (ν - 4) = 1 + 2 / (ν - 4) := by field_simp; ring
  rw [e, add_lt_add_iff_left, add_lt_add_iff_left, div_lt_div_iff₀ hp' hν4, div_lt_div_iff₀ (by linarith) hν4]
  constructor
  · constructor <;> intro h <;> linarith
  · linarith

/-- Non-vacuity: samples of the t law with six degrees of freedom, two channels with squared coherence
`1/4`; the variance is `9/16`, and that of Tyler's estimator `27/64`. -/
example : ∃ (P : Measure (ℕ → Fin 2 → ℂ)) (_ : IsProbabilityMeasure P)
    (C T : ℕ → (ℕ → Fin 2 → ℂ) → Matrix (Fin 2) (Fin 2) ℂ),
    (∀ N, 0 < N → ∀ ω, ∃ loc, complexEmpCovFit (.cplx (.d2 N 2
      (firstSamples (fun i (ω : ℕ → Fin 2 → ℂ) => ω i) ω N))) false = .ok ⟨⟨2, loc⟩, .cplx (.d2 2 2 (C N ω))⟩) ∧
    TendstoInDistribution (fun (N : ℕ) ω => √N * (coherence2 0 1 (C N ω) - 1 / 4)) atTop id
      (fun _ => P) (gaussianReal 0 (9 / 16)) ∧
    TendstoInDistribution (fun (N : ℕ) ω => √N * (coherence2 0 1 (T N ω) - 1 / 4)) atTop id
      (fun _ => P) (gaussianReal 0 (27 / 64)) := by
  have hpr := cplxT_prob (df := 6) (by norm_num) two_one_posDef'
  have h := iid_exists (lawOf fun x => Real.exp (ctLogDensity 6 0
    (!![2, 1; 1, 2] : Matrix (Fin 2) (Fin 2) ℂ) x))
  obtain ⟨C, a1, a2⟩ := C181_t two_pos two_one_posDef' 6 (by norm_num) h false
  obtain ⟨T, -, b2⟩ := C178_coherence_tyler h (lawOf_null_cplx _) two_pos _ two_one_posDef'
    (cplxT_elliptical _ two_one_posDef') "trace" (Or.inl rfl)
  refine ⟨_, inferInstance, C, T, a1, limit_congr (a2 0 1) ?_ ?_, limit_congr (b2 0 1) ?_ ?_⟩
  · rw [two_one_coh]
  · rw [two_one_coh]
    apply NNReal.eq
    rw [Real.coe_toNNReal _ (by norm_num)]
    norm_num
  · rw [two_one_coh]
  · rw [two_one_coh]
    apply NNReal.eq
    rw [Real.coe_toNNReal _ (by norm_num)]
    norm_num

end
end RS
