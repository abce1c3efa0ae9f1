import Verif.Lemmas.Corr
import Verif.Props.TylerClt
import Verif.Props.StudentEffReal

/-
The limit laws of smooth functions of the estimates, of correlations and of coherences (C178).
-/
set_option autoImplicit false

namespace RS
open Matrix ComplexOrder Filter Topology MeasureTheory ProbabilityTheory

section
variable {𝕜 : Type} [RCLike 𝕜] [MeasurableSpace 𝕜] [BorelSpace 𝕜] {p : ℕ} {Ω : Type*} [MeasurableSpace Ω]
  {P : Measure Ω} [IsProbabilityMeasure P] {x : ℕ → Ω → Fin p → 𝕜} {μ : Measure (Fin p → 𝕜)}

omit [IsProbabilityMeasure P] in
theorem measurable_of_mip {g : Matrix (Fin p) (Fin p) 𝕜 → ℝ} (hm : Measurable fun a : Fin p → Fin p → 𝕜 => g (of a))
    {A : Ω → Matrix (Fin p) (Fin p) 𝕜} (h : ∀ H, AEMeasurable (fun ω => mip H (A ω)) P) (c : ℝ) :
    AEMeasurable (fun ω => g (A ω) - c) P :=
  (hm.comp_aemeasurable (aemeasurable_of_mip h)).sub_const c

theorem student_delta (h : IIDSamples P x μ) (hμ : NullSubspaces μ) (hp : 0 < p) {nu : ℝ} (hnu : 0 < nu)
    {S : Matrix (Fin p) (Fin p) 𝕜} (hS : S.PosDef) (hf : PopFixed nu μ S)
    {H K : Matrix (Fin p) (Fin p) 𝕜} (hH : H.IsHermitian) (hK : jac nu μ S K = S * H * S)
    {g : Matrix (Fin p) (Fin p) 𝕜 → ℝ} (hm : Measurable fun a : Fin p → Fin p → 𝕜 => g (of a))
    (hg : HasGrad g S H) :
    TendstoInDistribution (fun (N : ℕ) ω => √N * (g (solOf nu S x N ω) - g S))
      atTop id (fun _ => P) (gaussianReal 0 Var[wScore nu S K; μ].toNNReal) := by
  have := h.prob
  have h1 : ∀ N, p ≤ N → ∀ᵐ ω ∂P, (solOf nu S x N ω).PosDef ∧
      mStep (wStudent nu p) (firstSamples x ω N) (solOf nu S x N ω) = solOf nu S x N ω := fun N hN => by
    filter_upwards [h.generalPosition hμ] with ω hg using solOf_spec hnu hp S hN (hg N)
  refine student_clt_of h hμ hp hnu hS hf h1 hK (fun N => ?_) fun ω hT hpd ε hε =>
    hg.small hH hS.isHermitian hT (hpd.mono fun N hN => hN.isHermitian) hε
  exact measurable_of_mip hm (fun B => student_T_measurable h hnu h1 (fun N hN ω => by
    rw [solOf, dif_neg fun h => absurd h.1 (not_le.2 hN)]) B N) _

theorem tyler_delta {name : String} (hname : name = "trace" ∨ name = "determinant" ∨ name = "element") {b : ℝ}
    {S : Matrix (Fin p) (Fin p) 𝕜} (hF : SphereForms b μ S) (hb : 0 < b) (h : IIDSamples P x μ)
    (hμ : NullSubspaces μ) (hp : 0 < p) (hS : S.PosDef) (hf : PopFixed 0 μ S) (hn : Normalised name S)
    {H : Matrix (Fin p) (Fin p) 𝕜} (hH : H.IsHermitian)
    {g : Matrix (Fin p) (Fin p) 𝕜 → ℝ} (hm : Measurable fun a : Fin p → Fin p → 𝕜 => g (of a))
    (hg : HasGrad g S H) :
    TendstoInDistribution (fun (N : ℕ) ω => √N * (g (tylerSol name S x N ω) - g S))
      atTop id (fun _ => P) (gaussianReal 0 (tylerVar b name S H).toNNReal) := by
  have := h.prob
  rw [← tylerVar_eq b name hS hH]
  refine hF.clt_of hname hb h hμ hp hS hf hn hH (fun N => ?_) fun ω hT hpd ε hε =>
    hg.small hH hS.isHermitian hT (hpd.mono fun N hN => hN.isHermitian) hε
  exact measurable_of_mip hm (fun B => tylerSol_measurable hname h hμ hp S B N) _

end

section
variable {p : ℕ} {Ω : Type*} [MeasurableSpace Ω] {P : Measure Ω} [IsProbabilityMeasure P]

/-- Real data, Tyler's estimator on samples of any elliptical law (C177): if `g` is measurable and has
gradient `H` at `S`, then `√N (g (T N) - g S)` converges in distribution to the centred normal law with
the variance of C177 for `H`. -/
theorem C178_tyler_real {x : ℕ → Ω → Fin p → ℝ} {μ : Measure (Fin p → ℝ)} (h : IIDSamples P x μ)
    (hμ : NullSubspaces μ) (hp : 0 < p) (S : Matrix (Fin p) (Fin p) ℝ) (hS : S.PosDef)
    (name : String) (hname : name = "trace" ∨ name = "determinant" ∨ name = "element")
    (hn : Normalised name S) (hE : EllipticalLaw μ S) :
    ∃ T : ℕ → Ω → Matrix (Fin p) (Fin p) ℝ,
      (∀ᵐ ω ∂P, ∀ N, p < N → ∀ env : NumEnv N p ℝ, env.eigh.Ok →
        SettlesAt (fun init tol iterMax =>
          tylerFixedPoint env (firstSamples x ω N) init tol iterMax name) (T N ω)) ∧
      ∀ (g : Matrix (Fin p) (Fin p) ℝ → ℝ) (H : Matrix (Fin p) (Fin p) ℝ), H.IsHermitian →
        Measurable (fun a : Fin p → Fin p → ℝ => g (of a)) → HasGrad g S H →
        TendstoInDistribution (fun (N : ℕ) ω => √N * (g (T N ω) - g S)) atTop id (fun _ => P)
          (gaussianReal 0 (tylerVar 2 name S H).toNNReal) := by
  have := h.prob
  refine ⟨tylerSol name S x, ?_, fun g H hH hm hg => tyler_delta hname (sphere_real hμ hp hS hE) two_pos h hμ hp
    hS (elliptical_tyler hμ hp hS hE) hn hH hm hg⟩
  filter_upwards [h.generalPosition hμ] with ω hg N hN env hs
  obtain ⟨Q, a1, a2, a3⟩ := tylerSol_spec name hp S hN (hg N)
  rw [a3]
  exact tyler_settles_real hname hp hN (hg N) a1 a2 env hs

/-- Complex data, Tyler's estimator. -/
theorem C178_tyler_complex {x : ℕ → Ω → Fin p → ℂ} {μ : Measure (Fin p → ℂ)} (h : IIDSamples P x μ)
    (hμ : NullSubspaces μ) (hp : 0 < p) (S : Matrix (Fin p) (Fin p) ℂ) (hS : S.PosDef)
    (name : String) (hname : name = "trace" ∨ name = "determinant" ∨ name = "element")
    (hn : Normalised name S) (hE : EllipticalLaw μ S) :
    ∃ T : ℕ → Ω → Matrix (Fin p) (Fin p) ℂ,
      (∀ᵐ ω ∂P, ∀ N, p < N → ∀ env : NumEnv N p ℂ, env.eigh.Ok →
        SettlesAt (fun init tol iterMax =>
          complexTylerFixedPoint env (firstSamples x ω N) init tol iterMax name) (T N ω)) ∧
      ∀ (g : Matrix (Fin p) (Fin p) ℂ → ℝ) (H : Matrix (Fin p) (Fin p) ℂ), H.IsHermitian →
        Measurable (fun a : Fin p → Fin p → ℂ => g (of a)) → HasGrad g S H →
        TendstoInDistribution (fun (N : ℕ) ω => √N * (g (T N ω) - g S)) atTop id (fun _ => P)
          (gaussianReal 0 (tylerVar 1 name S H).toNNReal) := by
  have := h.prob
  refine ⟨tylerSol name S x, ?_, fun g H hH hm hg => tyler_delta hname (sphere_complex hμ hp hS hE) one_pos h hμ
    hp hS (elliptical_tyler hμ hp hS hE) hn hH hm hg⟩
  filter_upwards [h.generalPosition hμ] with ω hg N hN env hs
  obtain ⟨Q, a1, a2, a3⟩ := tylerSol_spec name hp S hN (hg N)
  rw [a3]
  exact tyler_settles_complex hname hp hN (hg N) a1 a2 env hs

/-- Real data, Student-t estimator on samples of the t law with `df/2` degrees of freedom: the limit has
the variance of C176 for the gradient, the smallest possible. -/
theorem C178_student_real {x : ℕ → Ω → Fin p → ℝ} (hp : 0 < p) (df : ℝ) (hdf : 0 < df)
    (S : Matrix (Fin p) (Fin p) ℝ) (hS : S.PosDef)
    (h : IIDSamples P x (lawOf fun x => Real.exp (tLogDensity (df / 2) 0 S x))) :
    ∃ T : ℕ → Ω → Matrix (Fin p) (Fin p) ℝ,
      (∀ᵐ ω ∂P, ∀ N, p ≤ N → ∀ env : NumEnv N p ℝ, env.eigh.Ok →
        SettlesAt (fun init tol iterMax =>
          studentFixedPoint env (firstSamples x ω N) df init tol iterMax) (T N ω)) ∧
      ∀ (g : Matrix (Fin p) (Fin p) ℝ → ℝ) (H : Matrix (Fin p) (Fin p) ℝ), H.IsHermitian →
        Measurable (fun a : Fin p → Fin p → ℝ => g (of a)) → HasGrad g S H →
        TendstoInDistribution (fun (N : ℕ) ω => √N * (g (T N ω) - g S)) atTop id (fun _ => P)
          (gaussianReal 0 (realLimitVar (df / 2) S H).toNNReal) := by
  have hnu := half_pos hdf
  refine ⟨solOf (df / 2) S x, ?_, fun g H hH hm hg => ?_⟩
  · filter_upwards [h.generalPosition (lawOf_null_real _)] with ω hg N hN env hs
    obtain ⟨h1, h2⟩ := solOf_spec hnu hp S hN (hg N)
    exact settles_real hp hdf (student_spans _ (generalPosition_student (hg N) hN hnu)) h1 h2 env hs
  · refine limit_congr (student_delta h (lawOf_null_real _) hp hnu hS (FR.tLaw_popFixed hnu hS) hH
      (FR.solK_solves hnu hp hS hH) hm hg) rfl ?_
    congr 1
    exact (FR.wScore_var hnu hp hS (FR.solK_herm hS hH)).trans (FR.effVar_eq hnu hp hS hH)

/-- Complex data, Student-t estimator on samples of the complex t law with `2 df` degrees of freedom. -/
theorem C178_student_complex {x : ℕ → Ω → Fin p → ℂ} (hp : 0 < p) (df : ℝ) (hdf : 0 < df)
    (S : Matrix (Fin p) (Fin p) ℂ) (hS : S.PosDef)
    (h : IIDSamples P x (lawOf fun x => Real.exp (ctLogDensity (2 * df) 0 S x))) :
    ∃ T : ℕ → Ω → Matrix (Fin p) (Fin p) ℂ,
      (∀ᵐ ω ∂P, ∀ N, p ≤ N → ∀ env : NumEnv N p ℂ, env.eigh.Ok →
        SettlesAt (fun init tol iterMax =>
          complexStudentFixedPoint env (firstSamples x ω N) df init tol iterMax) (T N ω)) ∧
      ∀ (g : Matrix (Fin p) (Fin p) ℂ → ℝ) (H : Matrix (Fin p) (Fin p) ℂ), H.IsHermitian →
        Measurable (fun a : Fin p → Fin p → ℂ => g (of a)) → HasGrad g S H →
        TendstoInDistribution (fun (N : ℕ) ω => √N * (g (T N ω) - g S)) atTop id (fun _ => P)
          (gaussianReal 0 (limitVar df S H).toNNReal) := by
  refine ⟨solOf df S x, ?_, fun g H hH hm hg => ?_⟩
  · filter_upwards [h.generalPosition (lawOf_null_cplx _)] with ω hg N hN env hs
    obtain ⟨h1, h2⟩ := solOf_spec hdf hp S hN (hg N)
    exact settles_complex hp hdf (student_spans _ (generalPosition_student (hg N) hN hdf)) h1 h2 env hs
  · refine limit_congr (student_delta h (lawOf_null_cplx _) hp hdf hS (tLaw_popFixed hdf hS) hH
      (solK_solves hdf hp hS hH) hm hg) rfl ?_
    congr 1
    exact (wScore_var hdf hp hS (solK_herm hS hH)).trans (effVar_eq hdf hp hS hH)

theorem correlation_measurable (i j : Fin p) :
    Measurable fun a : Fin p → Fin p → ℝ => correlation i j (of a) := by
  simp only [correlation, of_apply]
  fun_prop

theorem coherence2_measurable (i j : Fin p) :
    Measurable fun a : Fin p → Fin p → ℂ => coherence2 i j (of a) := by
  simp only [coherence2, of_apply]
  fun_prop

theorem correlation_smul (i j : Fin p) (S : Matrix (Fin p) (Fin p) ℝ) {c : ℝ} (hc : 0 < c) :
    correlation i j (c • S) = correlation i j S := by
  simp only [correlation, Matrix.smul_apply, smul_eq_mul]
  rw [show c * S i i * (c * S j j) = c ^ 2 * (S i i * S j j) by ring, Real.sqrt_mul (sq_nonneg c),
    Real.sqrt_sq hc.le, mul_div_mul_left _ _ hc.ne']

theorem coherence2_smul (i j : Fin p) (S : Matrix (Fin p) (Fin p) ℂ) {c : ℝ} (hc : 0 < c) :
    coherence2 i j ((c : ℂ) • S) = coherence2 i j S := by
  simp only [coherence2, Matrix.smul_apply, smul_eq_mul, norm_mul, Complex.re_ofReal_mul, Complex.norm_real,
    Real.norm_eq_abs, abs_of_pos hc]
  rw [mul_pow, show c * (S i i).re * (c * (S j j).re) = c ^ 2 * ((S i i).re * (S j j).re) by ring,
    mul_div_mul_left _ _ (pow_pos hc 2).ne']

theorem shapePart_zero {𝕜 : Type} [RCLike 𝕜] (name : String) {S H : Matrix (Fin p) (Fin p) 𝕜}
    (h : RCLike.re (H * S).trace = 0) : shapePart name S H = H := by
  rw [shapePart, h, RCLike.ofReal_zero, zero_smul, sub_zero]

/-- Correlations by Tyler's estimator, real data: for every elliptical law with scatter matrix `S`, with
or without moments, and every normalisation, the estimated correlation `r_N` of the variables `i` and `j`
satisfies: `√N (r_N - ρ)` converges in distribution to the centred normal law with variance
`(1 + 2/p) (1 - ρ²)²`. -/
theorem C178_correlation_tyler {x : ℕ → Ω → Fin p → ℝ} {μ : Measure (Fin p → ℝ)} (h : IIDSamples P x μ)
    (hμ : NullSubspaces μ) (hp : 0 < p) (S : Matrix (Fin p) (Fin p) ℝ) (hS : S.PosDef) (hE : EllipticalLaw μ S)
    (name : String) (hname : name = "trace" ∨ name = "determinant" ∨ name = "element") :
    ∃ T : ℕ → Ω → Matrix (Fin p) (Fin p) ℝ,
      (∀ᵐ ω ∂P, ∀ N, p < N → ∀ env : NumEnv N p ℝ, env.eigh.Ok →
        SettlesAt (fun init tol iterMax =>
          tylerFixedPoint env (firstSamples x ω N) init tol iterMax name) (T N ω)) ∧
      ∀ i j, TendstoInDistribution (fun (N : ℕ) ω => √N * (correlation i j (T N ω) - correlation i j S)) atTop id
        (fun _ => P) (gaussianReal 0 ((1 + 2 / p) * (1 - correlation i j S ^ 2) ^ 2).toNNReal) := by
  have hp' : (0 : ℝ) < p := by exact_mod_cast hp
  have hc := inv_pos.2 (toName_normalise hname hp hS).1
  obtain ⟨T, a1, a2⟩ := C178_tyler_real h hμ hp (toName name S) (toName_posDef hname hp hS) name hname
    (toName_normalised hname hp hS) (elliptical_smul hE hc)
  have hS' := toName_posDef hname hp hS
  refine ⟨T, a1, fun i j => limit_congr (a2 _ _ (corrGrad_herm i j _) (correlation_measurable i j)
    (corr_hasGrad i j hS')) ?_ ?_⟩
  · have : correlation i j (toName name S) = correlation i j S := correlation_smul i j S hc
    rw [this]
  · obtain ⟨e1, e2⟩ := corrGrad_trace i j hS'
    have : correlation i j (toName name S) = correlation i j S := correlation_smul i j S hc
    congr 2
    rw [tylerVar, shapePart_zero name e1]
    change 2 * ((p : ℝ) + 2) / p * (corrGrad i j (toName name S) * toName name S *
      (corrGrad i j (toName name S) * toName name S)).trace = _
    rw [e2, this]
    field_simp

/-- Correlations by the Student-t estimator, samples of the t law with `nu = df/2` degrees of freedom: the
variance is `(1 + 2 / (nu + p)) (1 - ρ²)²`. -/
theorem C178_correlation_student {x : ℕ → Ω → Fin p → ℝ} (hp : 0 < p) (df : ℝ) (hdf : 0 < df)
    (S : Matrix (Fin p) (Fin p) ℝ) (hS : S.PosDef)
    (h : IIDSamples P x (lawOf fun x => Real.exp (tLogDensity (df / 2) 0 S x))) :
    ∃ T : ℕ → Ω → Matrix (Fin p) (Fin p) ℝ,
      (∀ᵐ ω ∂P, ∀ N, p ≤ N → ∀ env : NumEnv N p ℝ, env.eigh.Ok →
        SettlesAt (fun init tol iterMax =>
          studentFixedPoint env (firstSamples x ω N) df init tol iterMax) (T N ω)) ∧
      ∀ i j, TendstoInDistribution (fun (N : ℕ) ω => √N * (correlation i j (T N ω) - correlation i j S)) atTop id
        (fun _ => P) (gaussianReal 0 ((1 + 2 / (df / 2 + p)) * (1 - correlation i j S ^ 2) ^ 2).toNNReal) := by
  have hp' : (0 : ℝ) < p := by exact_mod_cast hp
  obtain ⟨T, a1, a2⟩ := C178_student_real hp df hdf S hS h
  refine ⟨T, a1, fun i j => limit_congr (a2 _ _ (corrGrad_herm i j _) (correlation_measurable i j)
    (corr_hasGrad i j hS)) rfl ?_⟩
  obtain ⟨e1, e2⟩ := corrGrad_trace i j hS
  congr 2
  rw [realLimitVar, e1, e2]
  field_simp
  ring

/-- Squared coherences by Tyler's estimator, complex data, any elliptical law: the variance is
`2 (1 + 1/p) γ² (1 - γ²)²`. -/
theorem C178_coherence_tyler {x : ℕ → Ω → Fin p → ℂ} {μ : Measure (Fin p → ℂ)} (h : IIDSamples P x μ)
    (hμ : NullSubspaces μ) (hp : 0 < p) (S : Matrix (Fin p) (Fin p) ℂ) (hS : S.PosDef) (hE : EllipticalLaw μ S)
    (name : String) (hname : name = "trace" ∨ name = "determinant" ∨ name = "element") :
    ∃ T : ℕ → Ω → Matrix (Fin p) (Fin p) ℂ,
      (∀ᵐ ω ∂P, ∀ N, p < N → ∀ env : NumEnv N p ℂ, env.eigh.Ok →
        SettlesAt (fun init tol iterMax =>
          complexTylerFixedPoint env (firstSamples x ω N) init tol iterMax name) (T N ω)) ∧
      ∀ i j, TendstoInDistribution (fun (N : ℕ) ω => √N * (coherence2 i j (T N ω) - coherence2 i j S)) atTop id
        (fun _ => P) (gaussianReal 0
          (2 * (1 + 1 / p) * (coherence2 i j S * (1 - coherence2 i j S) ^ 2)).toNNReal) := by
  have hp' : (0 : ℝ) < p := by exact_mod_cast hp
  have hc := inv_pos.2 (toName_normalise hname hp hS).1
  obtain ⟨T, a1, a2⟩ := C178_tyler_complex h hμ hp (toName name S) (toName_posDef hname hp hS) name hname
    (toName_normalised hname hp hS) (elliptical_smul hE hc)
  have hS' := toName_posDef hname hp hS
  refine ⟨T, a1, fun i j => limit_congr (a2 _ _ (cohGrad_herm i j hS') (coherence2_measurable i j)
    (coh_hasGrad i j hS')) ?_ ?_⟩
  · have : coherence2 i j (toName name S) = coherence2 i j S := coherence2_smul i j S hc
    rw [this]
  · obtain ⟨e1, e2⟩ := cohGrad_trace i j hS'
    have : coherence2 i j (toName name S) = coherence2 i j S := coherence2_smul i j S hc
    congr 2
    rw [tylerVar, shapePart_zero name e1]
    change 1 * ((p : ℝ) + 1) / p * (cohGrad i j (toName name S) * toName name S *
      (cohGrad i j (toName name S) * toName name S)).trace.re = _
    rw [e2, this]
    field_simp

/-- Squared coherences by the Student-t estimator, samples of the complex t law with `2 df` degrees of
freedom: the variance is `2 (1 + 1 / (df + p)) γ² (1 - γ²)²`. -/
theorem C178_coherence_student {x : ℕ → Ω → Fin p → ℂ} (hp : 0 < p) (df : ℝ) (hdf : 0 < df)
    (S : Matrix (Fin p) (Fin p) ℂ) (hS : S.PosDef)
    (h : IIDSamples P x (lawOf fun x => Real.exp (ctLogDensity (2 * df) 0 S x))) :
    ∃ T : ℕ → Ω → Matrix (Fin p) (Fin p) ℂ,
      (∀ᵐ ω ∂P, ∀ N, p ≤ N → ∀ env : NumEnv N p ℂ, env.eigh.Ok →
        SettlesAt (fun init tol iterMax =>
          complexStudentFixedPoint env (firstSamples x ω N) df init tol iterMax) (T N ω)) ∧
      ∀ i j, TendstoInDistribution (fun (N : ℕ) ω => √N * (coherence2 i j (T N ω) - coherence2 i j S)) atTop id
        (fun _ => P) (gaussianReal 0
          (2 * (1 + 1 / (df + p)) * (coherence2 i j S * (1 - coherence2 i j S) ^ 2)).toNNReal) := by
  have hp' : (0 : ℝ) < p := by exact_mod_cast hp
  obtain ⟨T, a1, a2⟩ := C178_student_complex hp df hdf S hS h
  refine ⟨T, a1, fun i j => limit_congr (a2 _ _ (cohGrad_herm i j hS) (coherence2_measurable i j)
    (coh_hasGrad i j hS)) rfl ?_⟩
  obtain ⟨e1, e2⟩ := cohGrad_trace i j hS
  congr 2
  rw [limitVar, e1, e2]
  field_simp
  ring

/-! The hypotheses can be met: independent samples of the bivariate t law with one degree of freedom,
which has no mean, and correlation `1/2`. Tyler's estimates have limit variance `9/8`, Student's (called
with `df = 2`) `15/16`. For the complex t law and squared coherence `1/4`: `27/64` and `3/8`. -/

theorem two_one_posDef : (!![2, 1; 1, 2] : Matrix (Fin 2) (Fin 2) ℝ).PosDef := by
  apply PosDef.of_dotProduct_mulVec_pos
  · ext i j; fin_cases i <;> fin_cases j <;> simp
  · intro x hx
    have : 0 < x 0 ^ 2 + x 1 ^ 2 := by
      by_contra h
      apply hx
      have h0 : x 0 = 0 := by nlinarith [sq_nonneg (x 0), sq_nonneg (x 1)]
      have h1 : x 1 = 0 := by nlinarith [sq_nonneg (x 0), sq_nonneg (x 1)]
      funext i; fin_cases i <;> simp [h0, h1]
    simp [dotProduct, mulVec, Fin.sum_univ_two]
    nlinarith [sq_nonneg (x 0 + x 1)]

theorem two_one_corr : correlation 0 1 (!![2, 1; 1, 2] : Matrix (Fin 2) (Fin 2) ℝ) = 1 / 2 := by
  simp only [correlation, of_apply, cons_val', cons_val_zero, cons_val_one, cons_val_fin_one]
  rw [Real.sqrt_mul_self (by norm_num)]

example : ∃ (P : Measure (ℕ → Fin 2 → ℝ)) (_ : IsProbabilityMeasure P),
    (∃ T : ℕ → (ℕ → Fin 2 → ℝ) → Matrix (Fin 2) (Fin 2) ℝ, (∀ᵐ ω ∂P, ∀ N, 2 < N →
      ∀ env : NumEnv N 2 ℝ, env.eigh.Ok → SettlesAt (fun init tol iterMax => tylerFixedPoint env
        (firstSamples (fun i (ω : ℕ → Fin 2 → ℝ) => ω i) ω N) init tol iterMax "element") (T N ω)) ∧
      TendstoInDistribution (fun (N : ℕ) ω => √N * (correlation 0 1 (T N ω) - 1 / 2)) atTop id
        (fun _ => P) (gaussianReal 0 (9 / 8))) ∧
    ∃ T : ℕ → (ℕ → Fin 2 → ℝ) → Matrix (Fin 2) (Fin 2) ℝ, (∀ᵐ ω ∂P, ∀ N, 2 ≤ N →
      ∀ env : NumEnv N 2 ℝ, env.eigh.Ok → SettlesAt (fun init tol iterMax => studentFixedPoint env
        (firstSamples (fun i (ω : ℕ → Fin 2 → ℝ) => ω i) ω N) 2 init tol iterMax) (T N ω)) ∧
      TendstoInDistribution (fun (N : ℕ) ω => √N * (correlation 0 1 (T N ω) - 1 / 2)) atTop id
        (fun _ => P) (gaussianReal 0 (15 / 16)) := by
  have hd : (0 : ℝ) < 2 / 2 := by norm_num
  have hpr := realT_prob hd two_one_posDef
  have h := iid_exists (lawOf fun x => Real.exp (tLogDensity (2 / 2) 0
    (!![2, 1; 1, 2] : Matrix (Fin 2) (Fin 2) ℝ) x))
  obtain ⟨T, a1, a2⟩ := C178_correlation_tyler h (lawOf_null_real _) two_pos _ two_one_posDef
    (realT_elliptical hd two_one_posDef) "element" (Or.inr (Or.inr rfl))
  obtain ⟨T', b1, b2⟩ := C178_correlation_student two_pos 2 two_pos _ two_one_posDef h
  refine ⟨_, inferInstance, ⟨T, a1, limit_congr (a2 0 1) ?_ ?_⟩, T', b1, limit_congr (b2 0 1) ?_ ?_⟩
  · rw [two_one_corr]
  · rw [two_one_corr]
    apply NNReal.eq
    rw [Real.coe_toNNReal _ (by norm_num)]
    norm_num
  · rw [two_one_corr]
  · rw [two_one_corr]
    apply NNReal.eq
    rw [Real.coe_toNNReal _ (by norm_num)]
    norm_num

theorem two_one_posDef' : (!![2, 1; 1, 2] : Matrix (Fin 2) (Fin 2) ℂ).PosDef := by
  apply PosDef.of_dotProduct_mulVec_pos
  · ext i j; fin_cases i <;> fin_cases j <;> simp
  · intro x hx
    have : 0 < Complex.normSq (x 0) + Complex.normSq (x 1) := by
      by_contra h
      apply hx
      have h0 : x 0 = 0 := Complex.normSq_eq_zero.1 (by nlinarith [Complex.normSq_nonneg (x 0), Complex.normSq_nonneg (x 1)])
      have h1 : x 1 = 0 := Complex.normSq_eq_zero.1 (by nlinarith [Complex.normSq_nonneg (x 0), Complex.normSq_nonneg (x 1)])
      funext i; fin_cases i <;> simp [h0, h1]
    rw [Complex.normSq_apply, Complex.normSq_apply] at this
    rw [Complex.pos_iff]
    simp [dotProduct, mulVec, Fin.sum_univ_two]
    constructor
    · nlinarith [sq_nonneg ((x 0).re + (x 1).re), sq_nonneg ((x 0).im + (x 1).im)]
    · ring

theorem two_one_coh : coherence2 0 1 (!![2, 1; 1, 2] : Matrix (Fin 2) (Fin 2) ℂ) = 1 / 4 := by
  simp [coherence2]
  norm_num

example : ∃ (P : Measure (ℕ → Fin 2 → ℂ)) (_ : IsProbabilityMeasure P),
    (∃ T : ℕ → (ℕ → Fin 2 → ℂ) → Matrix (Fin 2) (Fin 2) ℂ, (∀ᵐ ω ∂P, ∀ N, 2 < N →
      ∀ env : NumEnv N 2 ℂ, env.eigh.Ok → SettlesAt (fun init tol iterMax => complexTylerFixedPoint env
        (firstSamples (fun i (ω : ℕ → Fin 2 → ℂ) => ω i) ω N) init tol iterMax "trace") (T N ω)) ∧
      TendstoInDistribution (fun (N : ℕ) ω => √N * (coherence2 0 1 (T N ω) - 1 / 4)) atTop id
        (fun _ => P) (gaussianReal 0 (27 / 64))) ∧
    ∃ T : ℕ → (ℕ → Fin 2 → ℂ) → Matrix (Fin 2) (Fin 2) ℂ, (∀ᵐ ω ∂P, ∀ N, 2 ≤ N →
      ∀ env : NumEnv N 2 ℂ, env.eigh.Ok → SettlesAt (fun init tol iterMax => complexStudentFixedPoint env
        (firstSamples (fun i (ω : ℕ → Fin 2 → ℂ) => ω i) ω N) 1 init tol iterMax) (T N ω)) ∧
      TendstoInDistribution (fun (N : ℕ) ω => √N * (coherence2 0 1 (T N ω) - 1 / 4)) atTop id
        (fun _ => P) (gaussianReal 0 (3 / 8)) := by
  have hd : (0 : ℝ) < 2 * 1 := by norm_num
  have hpr := cplxT_prob hd two_one_posDef'
  have h := iid_exists (lawOf fun x => Real.exp (ctLogDensity (2 * 1) 0
    (!![2, 1; 1, 2] : Matrix (Fin 2) (Fin 2) ℂ) x))
  obtain ⟨T, a1, a2⟩ := C178_coherence_tyler h (lawOf_null_cplx _) two_pos _ two_one_posDef'
    (cplxT_elliptical _ two_one_posDef') "trace" (Or.inl rfl)
  obtain ⟨T', b1, b2⟩ := C178_coherence_student two_pos 1 one_pos _ two_one_posDef' h
  refine ⟨_, inferInstance, ⟨T, a1, limit_congr (a2 0 1) ?_ ?_⟩, T', b1, limit_congr (b2 0 1) ?_ ?_⟩
  · rw [two_one_coh]
  · rw [two_one_coh]
    apply NNReal.eq
    rw [Real.coe_toNNReal _ (by norm_num)]
    norm_num
  · rw [two_one_coh]
  · rw [two_one_coh]
    apply NNReal.eq
    rw [Real.coe_toNNReal _ (by norm_num)]
    norm_num

end
end RS
