import Verif.Lemmas.CorrInterval
import Verif.Props.Delta

/-
Confidence intervals for correlations and coherences that hold for all elliptical laws (C179).
-/
set_option autoImplicit false

namespace RS
open Matrix ComplexOrder Filter Topology MeasureTheory ProbabilityTheory

section
variable {p : ℕ} {Ω : Type*} [MeasurableSpace Ω] {P : Measure Ω} [IsProbabilityMeasure P]

theorem tylerVar_smul {𝕜 : Type} [RCLike 𝕜] (b : ℝ) (name : String) {S H : Matrix (Fin p) (Fin p) 𝕜}
    (h : RCLike.re (H * S).trace = 0) (c : ℝ) :
    tylerVar b name S ((c : 𝕜) • H) = c ^ 2 * (b * (p + b) / p * RCLike.re (H * S * (H * S)).trace) := by
  have h' : RCLike.re (((c : 𝕜) • H) * S).trace = 0 := by
    rw [Matrix.smul_mul, trace_smul, smul_eq_mul, RCLike.re_ofReal_mul, h, mul_zero]
  rw [tylerVar, shapePart_zero name h', Matrix.smul_mul, Matrix.smul_mul, Matrix.mul_smul, smul_smul, trace_smul,
    smul_eq_mul, ← RCLike.ofReal_mul, RCLike.re_ofReal_mul]
  ring

/-- From a limit law with variance 1 to the probability of the interval. -/
theorem interval_tanh {z : ℕ → Ω → ℝ} {r s : ℝ} (hr : |r| < 1) (hs : 0 < s)
    (h : TendstoInDistribution (fun (N : ℕ) ω => √N * (z N ω / s - Real.artanh r / s)) atTop id (fun _ => P)
      (gaussianReal 0 1)) (q : ℝ) :
    Tendsto (fun N : ℕ => P {ω | Real.tanh (z N ω - q * s / √N) ≤ r ∧ r ≤ Real.tanh (z N ω + q * s / √N)}) atTop
      (𝓝 (gaussianReal 0 1 (Set.Icc (-q) q))) := by
  refine (interval_limit one_ne_zero h q).congr fun N => ?_
  congr 1
  ext ω
  simp only [Set.mem_ofPred_eq]
  rw [tanh_between hr, ← sub_div, abs_div, abs_of_pos hs, div_le_iff₀ hs, div_mul_eq_mul_div]

/-- Tyler's estimator, real data. For every elliptical law, with or without moments, the interval with
ends `tanh(artanh r_N ± q √(1 + 2/p) / √N)`, where `r_N` is the correlation of variables `i ≠ j` in the
estimate, contains the correlation `ρ` of the scatter matrix with a probability that tends to the one of
`[-q, q]` under the standard normal law. -/
theorem C179_tyler {x : ℕ → Ω → Fin p → ℝ} {μ : Measure (Fin p → ℝ)} (h : IIDSamples P x μ)
    (hμ : NullSubspaces μ) (hp : 0 < p) (S : Matrix (Fin p) (Fin p) ℝ) (hS : S.PosDef) (hE : EllipticalLaw μ S)
    (name : String) (hname : name = "trace" ∨ name = "determinant" ∨ name = "element") :
    ∃ T : ℕ → Ω → Matrix (Fin p) (Fin p) ℝ,
      (∀ᵐ ω ∂P, ∀ N, p < N → ∀ env : NumEnv N p ℝ, env.eigh.Ok →
        SettlesAt (fun init tol iterMax =>
          tylerFixedPoint env (firstSamples x ω N) init tol iterMax name) (T N ω)) ∧
      ∀ i j, i ≠ j → ∀ q : ℝ, Tendsto (fun N : ℕ => P {ω |
        Real.tanh (Real.artanh (correlation i j (T N ω)) - q * √(1 + 2 / p) / √N) ≤ correlation i j S ∧
        correlation i j S ≤ Real.tanh (Real.artanh (correlation i j (T N ω)) + q * √(1 + 2 / p) / √N)}) atTop
        (𝓝 (gaussianReal 0 1 (Set.Icc (-q) q))) := by
  have hp' : (0 : ℝ) < p := by exact_mod_cast hp
  have hv : (0 : ℝ) < 1 + 2 / p := by positivity
  have hs := Real.sqrt_pos.2 hv
  have hc := inv_pos.2 (toName_normalise hname hp hS).1
  have hS' := toName_posDef hname hp hS
  obtain ⟨T, a1, a2⟩ := C178_tyler_real h hμ hp (toName name S) hS' name hname
    (toName_normalised hname hp hS) (elliptical_smul hE hc)
  refine ⟨T, a1, fun i j hij q => interval_tanh (correlation_lt hS hij) hs ?_ q⟩
  have e : correlation i j (toName name S) = correlation i j S := correlation_smul i j S hc
  have hr : |correlation i j (toName name S)| < 1 := correlation_lt hS' hij
  have hd := (artanh_deriv hr).div_const √(1 + 2 / p)
  refine limit_congr (a2 (fun T => Real.artanh (correlation i j T) / √(1 + 2 / p)) _
    (herm_smul _ (corrGrad_herm i j _)) ?_ ((corr_hasGrad i j hS').comp hd)) ?_ ?_
  · exact (artanh_measurable.comp (correlation_measurable i j)).div_const _
  · rw [e]
  · obtain ⟨e1, e2⟩ := corrGrad_trace i j hS'
    have e3 : (1 : ℝ) - correlation i j (toName name S) ^ 2 ≠ 0 := by
      have := (sq_lt_one_iff_abs_lt_one _).2 hr
      linarith
    rw [tylerVar_smul 2 name e1]
    change (_ * (2 * ((p : ℝ) + 2) / p * (corrGrad i j (toName name S) * toName name S *
      (corrGrad i j (toName name S) * toName name S)).trace)).toNNReal = 1
    rw [e2, ← Real.toNNReal_one, div_pow, Real.sq_sqrt hv.le]
    congr 1
    field_simp

/-- The Student-t estimator on samples of the t law with `df/2` degrees of freedom, with
`√(1 + 2 / (df/2 + p))`. -/
theorem C179_student {x : ℕ → Ω → Fin p → ℝ} (hp : 0 < p) (df : ℝ) (hdf : 0 < df)
    (S : Matrix (Fin p) (Fin p) ℝ) (hS : S.PosDef)
    (h : IIDSamples P x (lawOf fun x => Real.exp (tLogDensity (df / 2) 0 S x))) :
    ∃ T : ℕ → Ω → Matrix (Fin p) (Fin p) ℝ,
      (∀ᵐ ω ∂P, ∀ N, p ≤ N → ∀ env : NumEnv N p ℝ, env.eigh.Ok →
        SettlesAt (fun init tol iterMax =>
          studentFixedPoint env (firstSamples x ω N) df init tol iterMax) (T N ω)) ∧
      ∀ i j, i ≠ j → ∀ q : ℝ, Tendsto (fun N : ℕ => P {ω |
        Real.tanh (Real.artanh (correlation i j (T N ω)) - q * √(1 + 2 / (df / 2 + p)) / √N) ≤ correlation i j S ∧
        correlation i j S ≤ Real.tanh (Real.artanh (correlation i j (T N ω)) + q * √(1 + 2 / (df / 2 + p)) / √N)})
        atTop (𝓝 (gaussianReal 0 1 (Set.Icc (-q) q))) := by
  have hp' : (0 : ℝ) < p := by exact_mod_cast hp
  have hv : (0 : ℝ) < 1 + 2 / (df / 2 + p) := by positivity
  have hs := Real.sqrt_pos.2 hv
  obtain ⟨T, a1, a2⟩ := C178_student_real hp df hdf S hS h
  refine ⟨T, a1, fun i j hij q => interval_tanh (correlation_lt hS hij) hs ?_ q⟩
  have hr : |correlation i j S| < 1 := correlation_lt hS hij
  have hd := (artanh_deriv hr).div_const √(1 + 2 / (df / 2 + p))
  refine limit_congr (a2 (fun T => Real.artanh (correlation i j T) / √(1 + 2 / (df / 2 + p))) _
    (herm_smul _ (corrGrad_herm i j _)) ?_ ((corr_hasGrad i j hS).comp hd)) rfl ?_
  · exact (artanh_measurable.comp (correlation_measurable i j)).div_const _
  · obtain ⟨e1, e2⟩ := corrGrad_trace i j hS
    have e3 : (1 : ℝ) - correlation i j S ^ 2 ≠ 0 := by
      have := (sq_lt_one_iff_abs_lt_one _).2 hr
      linarith
    rw [realLimitVar, Matrix.smul_mul, Matrix.smul_mul, Matrix.mul_smul, trace_smul, trace_smul, trace_smul, e1, e2,
      ← Real.toNNReal_one]
    congr 1
    simp only [smul_eq_mul, RCLike.ofReal_real_eq_id, id_eq, mul_zero, ne_eq, OfNat.ofNat_ne_zero,
      not_false_eq_true, zero_pow, zero_div, add_zero]
    generalize hw : √(1 + 2 / (df / 2 + p)) = w at *
    have hw2 : w ^ 2 = 1 + 2 / (df / 2 + p) := by rw [← hw, Real.sq_sqrt hv.le]
    have e4 : (df / 2 + p + 2) / (df / 2 + p) = w ^ 2 := by
      rw [hw2]
      field_simp
    rw [e4]
    field_simp

/-- Tyler's estimator, complex data: the interval with ends `tanh(artanh c_N ± q √((1 + 1/p) / 2) / √N)`
for the coherence `c` of two channels that are not uncorrelated. -/
theorem C179_coherence_tyler {x : ℕ → Ω → Fin p → ℂ} {μ : Measure (Fin p → ℂ)} (h : IIDSamples P x μ)
    (hμ : NullSubspaces μ) (hp : 0 < p) (S : Matrix (Fin p) (Fin p) ℂ) (hS : S.PosDef) (hE : EllipticalLaw μ S)
    (name : String) (hname : name = "trace" ∨ name = "determinant" ∨ name = "element") :
    ∃ T : ℕ → Ω → Matrix (Fin p) (Fin p) ℂ,
      (∀ᵐ ω ∂P, ∀ N, p < N → ∀ env : NumEnv N p ℂ, env.eigh.Ok →
        SettlesAt (fun init tol iterMax =>
          complexTylerFixedPoint env (firstSamples x ω N) init tol iterMax name) (T N ω)) ∧
      ∀ i j, i ≠ j → S i j ≠ 0 → ∀ q : ℝ, Tendsto (fun N : ℕ => P {ω |
        Real.tanh (Real.artanh √(coherence2 i j (T N ω)) - q * √((1 + 1 / p) / 2) / √N) ≤ √(coherence2 i j S) ∧
        √(coherence2 i j S) ≤ Real.tanh (Real.artanh √(coherence2 i j (T N ω)) + q * √((1 + 1 / p) / 2) / √N)})
        atTop (𝓝 (gaussianReal 0 1 (Set.Icc (-q) q))) := by
  have hp' : (0 : ℝ) < p := by exact_mod_cast hp
  have hv : (0 : ℝ) < (1 + 1 / p) / 2 := by positivity
  have hs := Real.sqrt_pos.2 hv
  have hc := inv_pos.2 (toName_normalise hname hp hS).1
  have hS' := toName_posDef hname hp hS
  obtain ⟨T, a1, a2⟩ := C178_tyler_complex h hμ hp (toName name S) hS' name hname
    (toName_normalised hname hp hS) (elliptical_smul hE hc)
  refine ⟨T, a1, fun i j hij h0 q => ?_⟩
  have e : coherence2 i j (toName name S) = coherence2 i j S := coherence2_smul i j S hc
  have g0 := coherence2_pos hS h0
  have g1 := coherence2_lt hS hij
  refine interval_tanh ?_ hs ?_ q
  · rw [abs_of_nonneg (Real.sqrt_nonneg _), Real.sqrt_lt' one_pos, one_pow]
    exact g1
  rw [← e] at g0 g1
  have hd := (artanh_sqrt_deriv g0 g1).div_const √((1 + 1 / p) / 2)
  refine limit_congr (a2 (fun T => Real.artanh √(coherence2 i j T) / √((1 + 1 / p) / 2)) _
    (herm_smul _ (cohGrad_herm i j hS')) ?_ ((coh_hasGrad i j hS').comp hd)) ?_ ?_
  · exact (artanh_measurable.comp (coherence2_measurable i j).sqrt).div_const _
  · rw [e]
  · obtain ⟨e1, e2⟩ := cohGrad_trace i j hS'
    have e3 : 1 - coherence2 i j (toName name S) ≠ 0 := by linarith
    rw [tylerVar_smul 1 name e1]
    change (_ * (1 * ((p : ℝ) + 1) / p * (cohGrad i j (toName name S) * toName name S *
      (cohGrad i j (toName name S) * toName name S)).trace.re)).toNNReal = 1
    rw [e2, ← Real.toNNReal_one, div_pow, Real.sq_sqrt hv.le, div_pow, mul_pow, mul_pow, Real.sq_sqrt g0.le]
    congr 1
    field_simp

/-- The Student-t estimator on samples of the complex t law with `2 df` degrees of freedom, with
`√((1 + 1 / (df + p)) / 2)`. -/
theorem C179_coherence_student {x : ℕ → Ω → Fin p → ℂ} (hp : 0 < p) (df : ℝ) (hdf : 0 < df)
    (S : Matrix (Fin p) (Fin p) ℂ) (hS : S.PosDef)
    (h : IIDSamples P x (lawOf fun x => Real.exp (ctLogDensity (2 * df) 0 S x))) :
    ∃ T : ℕ → Ω → Matrix (Fin p) (Fin p) ℂ,
      (∀ᵐ ω ∂P, ∀ N, p ≤ N → ∀ env : NumEnv N p ℂ, env.eigh.Ok →
        SettlesAt (fun init tol iterMax =>
          complexStudentFixedPoint env (firstSamples x ω N) df init tol iterMax) (T N ω)) ∧
      ∀ i j, i ≠ j → S i j ≠ 0 → ∀ q : ℝ, Tendsto (fun N : ℕ => P {ω |
        Real.tanh (Real.artanh √(coherence2 i j (T N ω)) - q * √((1 + 1 / (df + p)) / 2) / √N) ≤
          √(coherence2 i j S) ∧
        √(coherence2 i j S) ≤
          Real.tanh (Real.artanh √(coherence2 i j (T N ω)) + q * √((1 + 1 / (df + p)) / 2) / √N)})
        atTop (𝓝 (gaussianReal 0 1 (Set.Icc (-q) q))) := by
  have hp' : (0 : ℝ) < p := by exact_mod_cast hp
  have hv : (0 : ℝ) < (1 + 1 / (df + p)) / 2 := by positivity
  have hs := Real.sqrt_pos.2 hv
  obtain ⟨T, a1, a2⟩ := C178_student_complex hp df hdf S hS h
  refine ⟨T, a1, fun i j hij h0 q => ?_⟩
  have g0 := coherence2_pos hS h0
  have g1 := coherence2_lt hS hij
  refine interval_tanh ?_ hs ?_ q
  · rw [abs_of_nonneg (Real.sqrt_nonneg _), Real.sqrt_lt' one_pos, one_pow]
    exact g1
  have hd := (artanh_sqrt_deriv g0 g1).div_const √((1 + 1 / (df + p)) / 2)
  refine limit_congr (a2 (fun T => Real.artanh √(coherence2 i j T) / √((1 + 1 / (df + p)) / 2)) _
    (herm_smul _ (cohGrad_herm i j hS)) ?_ ((coh_hasGrad i j hS).comp hd)) rfl ?_
  · exact (artanh_measurable.comp (coherence2_measurable i j).sqrt).div_const _
  · obtain ⟨e1, e2⟩ := cohGrad_trace i j hS
    have e3 : 1 - coherence2 i j S ≠ 0 := by linarith
    rw [limitVar, Matrix.smul_mul, Matrix.smul_mul, Matrix.mul_smul, smul_smul, trace_smul, trace_smul,
      smul_eq_mul, smul_eq_mul]
    change (_ * ((((_ : ℝ) : ℂ) * ((_ : ℝ) : ℂ) * _).re + (((_ : ℝ) : ℂ) * _).re ^ 2 / df)).toNNReal = 1
    rw [← Complex.ofReal_mul, Complex.re_ofReal_mul, Complex.re_ofReal_mul, e1, e2, mul_zero,
      zero_pow two_ne_zero, zero_div, add_zero, ← pow_two]
    simp only [Algebra.algebraMap_self, RingHom.id_apply]
    rw [div_pow, Real.sq_sqrt hv.le, div_pow, mul_pow, mul_pow,
      Real.sq_sqrt g0.le, ← Real.toNNReal_one]
    congr 1
    field_simp

/-! The hypotheses can be met: the bivariate t law with one degree of freedom, which has no mean, and
correlation `1/2` (squared coherence `1/4` in the complex case). -/

example : ∃ (P : Measure (ℕ → Fin 2 → ℝ)) (_ : IsProbabilityMeasure P),
    (∃ T : ℕ → (ℕ → Fin 2 → ℝ) → Matrix (Fin 2) (Fin 2) ℝ, (∀ᵐ ω ∂P, ∀ N, 2 < N →
      ∀ env : NumEnv N 2 ℝ, env.eigh.Ok → SettlesAt (fun init tol iterMax => tylerFixedPoint env
        (firstSamples (fun i (ω : ℕ → Fin 2 → ℝ) => ω i) ω N) init tol iterMax "trace") (T N ω)) ∧
      Tendsto (fun N : ℕ => P {ω | Real.tanh (Real.artanh (correlation 0 1 (T N ω)) - 2 * √2 / √N) ≤ 1 / 2 ∧
        1 / 2 ≤ Real.tanh (Real.artanh (correlation 0 1 (T N ω)) + 2 * √2 / √N)}) atTop
        (𝓝 (gaussianReal 0 1 (Set.Icc (-2) 2)))) ∧
    ∃ T : ℕ → (ℕ → Fin 2 → ℝ) → Matrix (Fin 2) (Fin 2) ℝ, (∀ᵐ ω ∂P, ∀ N, 2 ≤ N →
      ∀ env : NumEnv N 2 ℝ, env.eigh.Ok → SettlesAt (fun init tol iterMax => studentFixedPoint env
        (firstSamples (fun i (ω : ℕ → Fin 2 → ℝ) => ω i) ω N) 2 init tol iterMax) (T N ω)) ∧
      Tendsto (fun N : ℕ => P {ω | Real.tanh (Real.artanh (correlation 0 1 (T N ω)) - 2 * √(5 / 3) / √N) ≤ 1 / 2 ∧
        1 / 2 ≤ Real.tanh (Real.artanh (correlation 0 1 (T N ω)) + 2 * √(5 / 3) / √N)}) atTop
        (𝓝 (gaussianReal 0 1 (Set.Icc (-2) 2))) := by
  have hd : (0 : ℝ) < 2 / 2 := by norm_num
  have hpr := realT_prob hd two_one_posDef
  have h := iid_exists (lawOf fun x => Real.exp (tLogDensity (2 / 2) 0
    (!![2, 1; 1, 2] : Matrix (Fin 2) (Fin 2) ℝ) x))
  obtain ⟨T, a1, a2⟩ := C179_tyler h (lawOf_null_real _) two_pos _ two_one_posDef
    (realT_elliptical hd two_one_posDef) "trace" (Or.inl rfl)
  obtain ⟨T', b1, b2⟩ := C179_student two_pos 2 two_pos _ two_one_posDef h
  have a3 := a2 0 1 (by decide) 2
  have b3 := b2 0 1 (by decide) 2
  rw [two_one_corr, show (1 + 2 / ((2 : ℕ) : ℝ)) = 2 by norm_num] at a3
  rw [two_one_corr, show (1 + 2 / ((2 : ℝ) / 2 + ((2 : ℕ) : ℝ))) = 5 / 3 by norm_num] at b3
  exact ⟨_, inferInstance, ⟨T, a1, a3⟩, T', b1, b3⟩

example : ∃ (P : Measure (ℕ → Fin 2 → ℂ)) (_ : IsProbabilityMeasure P),
    (∃ T : ℕ → (ℕ → Fin 2 → ℂ) → Matrix (Fin 2) (Fin 2) ℂ, (∀ᵐ ω ∂P, ∀ N, 2 < N →
      ∀ env : NumEnv N 2 ℂ, env.eigh.Ok → SettlesAt (fun init tol iterMax => complexTylerFixedPoint env
        (firstSamples (fun i (ω : ℕ → Fin 2 → ℂ) => ω i) ω N) init tol iterMax "trace") (T N ω)) ∧
      Tendsto (fun N : ℕ => P {ω |
        Real.tanh (Real.artanh √(coherence2 0 1 (T N ω)) - 2 * √(3 / 4) / √N) ≤ √(1 / 4) ∧
        √(1 / 4) ≤ Real.tanh (Real.artanh √(coherence2 0 1 (T N ω)) + 2 * √(3 / 4) / √N)}) atTop
        (𝓝 (gaussianReal 0 1 (Set.Icc (-2) 2)))) ∧
    ∃ T : ℕ → (ℕ → Fin 2 → ℂ) → Matrix (Fin 2) (Fin 2) ℂ, (∀ᵐ ω ∂P, ∀ N, 2 ≤ N →
      ∀ env : NumEnv N 2 ℂ, env.eigh.Ok → SettlesAt (fun init tol iterMax => complexStudentFixedPoint env
        (firstSamples (fun i (ω : ℕ → Fin 2 → ℂ) => ω i) ω N) 1 init tol iterMax) (T N ω)) ∧
      Tendsto (fun N : ℕ => P {ω |
        Real.tanh (Real.artanh √(coherence2 0 1 (T N ω)) - 2 * √(2 / 3) / √N) ≤ √(1 / 4) ∧
        √(1 / 4) ≤ Real.tanh (Real.artanh √(coherence2 0 1 (T N ω)) + 2 * √(2 / 3) / √N)}) atTop
        (𝓝 (gaussianReal 0 1 (Set.Icc (-2) 2))) := by
  have hd : (0 : ℝ) < 2 * 1 := by norm_num
  have hpr := cplxT_prob hd two_one_posDef'
  have h := iid_exists (lawOf fun x => Real.exp (ctLogDensity (2 * 1) 0
    (!![2, 1; 1, 2] : Matrix (Fin 2) (Fin 2) ℂ) x))
  obtain ⟨T, a1, a2⟩ := C179_coherence_tyler h (lawOf_null_cplx _) two_pos _ two_one_posDef'
    (cplxT_elliptical _ two_one_posDef') "trace" (Or.inl rfl)
  obtain ⟨T', b1, b2⟩ := C179_coherence_student two_pos 1 one_pos _ two_one_posDef' h
  have a3 := a2 0 1 (by decide) (by simp) 2
  have b3 := b2 0 1 (by decide) (by simp) 2
  rw [two_one_coh, show (1 + 1 / ((2 : ℕ) : ℝ)) / 2 = 3 / 4 by norm_num] at a3
  rw [two_one_coh, show (1 + 1 / ((1 : ℝ) + ((2 : ℕ) : ℝ))) / 2 = 2 / 3 by norm_num] at b3
  exact ⟨_, inferInstance, ⟨T, a1, a3⟩, T', b1, b3⟩

end
end RS
