import Verif.Props.EmpInterval
import Verif.Lemmas.CplxLimit

/-
Testing whether two channels are uncorrelated with the coherence of an estimate (C183).
-/
set_option autoImplicit false

namespace RS
open Matrix ComplexOrder Filter Topology MeasureTheory ProbabilityTheory

section
variable {p : ℕ}

/-- A real projection of the complex coherence. -/
noncomputable def cohProj (u : ℂ) (i j : Fin p) (T : Matrix (Fin p) (Fin p) ℂ) : ℝ :=
  (star u * T i j).re / √((T i i).re * (T j j).re)

noncomputable def cohProjGrad (u : ℂ) (i j : Fin p) (S : Matrix (Fin p) (Fin p) ℂ) : Matrix (Fin p) (Fin p) ℂ :=
  single i j (u / ((2 * √((S i i).re * (S j j).re) : ℝ) : ℂ)) +
    single j i (star u / ((2 * √((S i i).re * (S j j).re) : ℝ) : ℂ))

theorem cohProjGrad_herm (u : ℂ) (i j : Fin p) (S : Matrix (Fin p) (Fin p) ℂ) :
    (cohProjGrad u i j S).IsHermitian := by
  rw [IsHermitian, cohProjGrad, conjTranspose_add]
  simp only [conjTranspose_single, star_div₀, RCLike.star_def, Complex.conj_ofReal, Complex.conj_conj]
  rw [add_comm]

theorem cohProj_measurable (u : ℂ) (i j : Fin p) :
    Measurable (fun a : Fin p → Fin p → ℂ => cohProj u i j (of a)) := by
  have he : ∀ k l, Measurable fun a : Fin p → Fin p → ℂ => a k l := fun k l =>
    (measurable_pi_apply l).comp (measurable_pi_apply k)
  exact (Complex.measurable_re.comp ((he i j).const_mul _)).div
    ((Complex.measurable_re.comp (he i i)).mul (Complex.measurable_re.comp (he j j))).sqrt

theorem cohProj_hasGrad (u : ℂ) (i j : Fin p) {S : Matrix (Fin p) (Fin p) ℂ} (hS : S.PosDef) (h0 : S i j = 0) :
    HasGrad (cohProj u i j) S (cohProjGrad u i j S) := by
  have ha : 0 < (S i i).re := (Complex.pos_iff.1 hS.diag_pos).1
  have hb : 0 < (S j j).re := (Complex.pos_iff.1 hS.diag_pos).1
  have hs : 0 < √((S i i).re * (S j j).re) := Real.sqrt_pos.2 (mul_pos ha hb)
  let e : Fin p → Fin p → (Fin p → Fin p → ℂ) →L[ℝ] ℂ := fun k l =>
    (ContinuousLinearMap.proj (R := ℝ) (φ := fun _ : Fin p => ℂ) l).comp
      (ContinuousLinearMap.proj (R := ℝ) (φ := fun _ : Fin p => Fin p → ℂ) k)
  have her : ∀ k l, HasFDerivAt (fun a : Fin p → Fin p → ℂ => (a k l).re) (Complex.reCLM.comp (e k l))
    (fun i j => S i j) := fun k l => (Complex.reCLM.comp (e k l)).hasFDerivAt
  have hei : ∀ k l, HasFDerivAt (fun a : Fin p → Fin p → ℂ => (a k l).im) (Complex.imCLM.comp (e k l))
    (fun i j => S i j) := fun k l => (Complex.imCLM.comp (e k l)).hasFDerivAt
  have h1 := ((her i j).const_mul u.re).add ((hei i j).const_mul u.im)
  have h2 := fderiv_inv' (((her i i).mul (her j j)).sqrt (mul_pos ha hb).ne') hs.ne'
  have h3 := h1.mul h2
  refine ⟨_, h3.congr_of_eventuallyEq (Eventually.of_forall fun a => ?_), fun D hD => ?_⟩
  · simp only [cohProj, of_apply, div_eq_mul_inv, Pi.mul_apply, Pi.add_apply]
    congr 1
    simp [Complex.mul_re]
  · have hD' : D j i = star (D i j) := (hD.apply j i).symm
    simp only [cohProjGrad, Matrix.add_mul, trace_add, trace_single_mul, smul_eq_mul, hD']
    rw [RCLike.re_to_complex, Complex.add_re, Complex.mul_re, Complex.mul_re, Complex.div_ofReal_re,
      Complex.div_ofReal_re, Complex.div_ofReal_im, Complex.div_ofReal_im]
    simp [e, h0]
    field_simp
    ring

theorem cohProjGrad_trace (u : ℂ) (i j : Fin p) {S : Matrix (Fin p) (Fin p) ℂ} (hS : S.PosDef) (h0 : S i j = 0) :
    (cohProjGrad u i j S * S).trace.re = 0 ∧
    (cohProjGrad u i j S * S * (cohProjGrad u i j S * S)).trace.re = ‖u‖ ^ 2 / 2 := by
  have h := hS.isHermitian
  have ha : 0 < (S i i).re := (Complex.pos_iff.1 hS.diag_pos).1
  have hb : 0 < (S j j).re := (Complex.pos_iff.1 hS.diag_pos).1
  have hca : S i i = ((S i i).re : ℂ) := (h.coe_re_apply_self i).symm
  have hcb : S j j = ((S j j).re : ℂ) := (h.coe_re_apply_self j).symm
  have h0' : S j i = 0 := by rw [← h.apply, h0, star_zero]
  have hs : 0 < √((S i i).re * (S j j).re) := Real.sqrt_pos.2 (mul_pos ha hb)
  have hs2 : √((S i i).re * (S j j).re) ^ 2 = (S i i).re * (S j j).re := Real.sq_sqrt (mul_pos ha hb).le
  have e1 : (cohProjGrad u i j S * S).trace = 0 := by
    simp only [cohProjGrad, Matrix.add_mul, trace_add, trace_single_mul, smul_eq_mul, h0, h0', mul_zero, add_zero]
  have e2 : (cohProjGrad u i j S * S * (cohProjGrad u i j S * S)).trace = ((‖u‖ ^ 2 / 2 : ℝ) : ℂ) := by
    simp only [cohProjGrad, Matrix.add_mul, Matrix.mul_add, trace_add, trace_four, h0, h0', mul_zero, zero_mul,
      zero_add, add_zero]
    rw [hca, hcb]
    simp only [Complex.ofReal_re]
    generalize √((S i i).re * (S j j).re) = s at *
    have hs' : (s : ℂ) ≠ 0 := by exact_mod_cast hs.ne'
    have hs2' : (s : ℂ) ^ 2 = ((S i i).re : ℂ) * ((S j j).re : ℂ) := by exact_mod_cast hs2
    have hu : u * star u = ((‖u‖ : ℝ) : ℂ) ^ 2 := Complex.mul_conj' u
    push_cast
    field_simp
    rw [hs2', ← hu]
    ring
  rw [e1, e2]
  exact ⟨rfl, Complex.ofReal_re _⟩

variable {Ω : Type*} [MeasurableSpace Ω] {P : Measure Ω} [IsProbabilityMeasure P]

/-- From the limits of the projections to the law of the squared coherence. -/
theorem coherence_tail {T : ℕ → Ω → Matrix (Fin p) (Fin p) ℂ} {i j : Fin p} {c : ℝ} (hc : 0 < c)
    (h : ∀ u : ℂ, TendstoInDistribution (fun (N : ℕ) ω => √N * (cohProj u i j (T N ω) - 0)) atTop id (fun _ => P)
      (gaussianReal 0 (c * ‖u‖ ^ 2 / 2).toNNReal)) {t : ℝ} (ht : 0 < t) :
    Tendsto (fun N : ℕ => P {ω | t ≤ N * coherence2 i j (T N ω)}) atTop
      (𝓝 (ENNReal.ofReal (Real.exp (-t / c)))) := by
  set W : ℕ → Ω → ℂ := fun N ω =>
    ((√N / √((T N ω i i).re * (T N ω j j).re) : ℝ) : ℂ) * T N ω i j with hWdef
  have hproj : ∀ (u : ℂ) (N : ℕ) (ω : Ω), (star u * W N ω).re = √N * (cohProj u i j (T N ω) - 0) := fun u N ω => by
    rw [hWdef, sub_zero, cohProj, mul_left_comm, Complex.re_ofReal_mul]
    ring
  have hW : ∀ N, AEMeasurable (W N) P := fun N => by
    have h1 := (h 1).forall_aemeasurable N
    have h2 := (h Complex.I).forall_aemeasurable N
    have : W N = fun ω => ((√N * (cohProj 1 i j (T N ω) - 0) : ℝ) : ℂ) +
        ((√N * (cohProj Complex.I i j (T N ω) - 0) : ℝ) : ℂ) * Complex.I := by
      funext ω
      rw [← hproj, ← hproj]
      refine Complex.ext ?_ ?_ <;> simp
    rw [this]
    exact (Complex.measurable_ofReal.comp_aemeasurable h1).add
      ((Complex.measurable_ofReal.comp_aemeasurable h2).mul_const _)
  have key := tail_of_projections hW hc (fun u => limit_congr (h u) (by
    funext N ω
    exact (hproj u N ω).symm) rfl) ht.le
  refine key.congr fun N => ?_
  congr 1
  ext ω
  simp only [Set.mem_ofPred_eq, hWdef, norm_mul, Complex.norm_real, Real.norm_eq_abs, mul_pow, sq_abs, div_pow,
    coherence2]
  rw [Real.sq_sqrt (Nat.cast_nonneg N)]
  rcases le_or_gt 0 ((T N ω i i).re * (T N ω j j).re) with hd | hd
  · rw [Real.sq_sqrt hd, div_mul_eq_mul_div, mul_div_assoc]
  · rw [Real.sqrt_eq_zero_of_nonpos hd.le, zero_pow two_ne_zero, div_zero, zero_mul]
    refine iff_of_false (not_le.2 ht) (not_le.2 (lt_of_le_of_lt ?_ ht))
    exact mul_nonpos_of_nonneg_of_nonpos (Nat.cast_nonneg N) (div_nonpos_of_nonneg_of_nonpos (sq_nonneg _) hd.le)

/-- Tyler's estimator, complex data of any elliptical law, two channels with `S i j = 0`: the probability
that `N` times the squared coherence in the estimate is at least `t` tends to `exp(-t / (1 + 1/p))`. -/
theorem C183_tyler {x : ℕ → Ω → Fin p → ℂ} {μ : Measure (Fin p → ℂ)} (h : IIDSamples P x μ)
    (hμ : NullSubspaces μ) (hp : 0 < p) (S : Matrix (Fin p) (Fin p) ℂ) (hS : S.PosDef) (hE : EllipticalLaw μ S)
    (name : String) (hname : name = "trace" ∨ name = "determinant" ∨ name = "element") :
    ∃ T : ℕ → Ω → Matrix (Fin p) (Fin p) ℂ,
      (∀ᵐ ω ∂P, ∀ N, p < N → ∀ env : NumEnv N p ℂ, env.eigh.Ok →
        SettlesAt (fun init tol iterMax =>
          complexTylerFixedPoint env (firstSamples x ω N) init tol iterMax name) (T N ω)) ∧
      ∀ i j, S i j = 0 → ∀ t : ℝ, 0 < t → Tendsto (fun N : ℕ => P {ω | t ≤ N * coherence2 i j (T N ω)}) atTop
        (𝓝 (ENNReal.ofReal (Real.exp (-t / (1 + 1 / p))))) := by
  have hp' : (0 : ℝ) < p := by exact_mod_cast hp
  have hc := inv_pos.2 (toName_normalise hname hp hS).1
  have hS' := toName_posDef hname hp hS
  obtain ⟨T, a1, a2⟩ := C178_tyler_complex h hμ hp (toName name S) hS' name hname
    (toName_normalised hname hp hS) (elliptical_smul hE hc)
  refine ⟨T, a1, fun i j h0 t ht => coherence_tail (by positivity) (fun u => ?_) ht⟩
  have h0' : toName name S i j = 0 := by
    rw [toName, Matrix.smul_apply, h0, smul_zero]
  refine limit_congr (a2 _ _ (cohProjGrad_herm u i j _) (cohProj_measurable u i j)
    (cohProj_hasGrad u i j hS' h0')) ?_ ?_
  · have : cohProj u i j (toName name S) = 0 := by rw [cohProj, h0', mul_zero, Complex.zero_re, zero_div]
    rw [this]
  · obtain ⟨e1, e2⟩ := cohProjGrad_trace u i j hS' h0'
    rw [tylerVar, shapePart_zero name e1]
    change (1 * ((p : ℝ) + 1) / p * (_ : ℂ).re).toNNReal = _
    rw [e2]
    congr 1
    field_simp

/-- The Student-t estimator on samples of the complex t law with `2 df` degrees of freedom. -/
theorem C183_student {x : ℕ → Ω → Fin p → ℂ} (hp : 0 < p) (df : ℝ) (hdf : 0 < df)
    (S : Matrix (Fin p) (Fin p) ℂ) (hS : S.PosDef)
    (h : IIDSamples P x (lawOf fun x => Real.exp (ctLogDensity (2 * df) 0 S x))) :
    ∃ T : ℕ → Ω → Matrix (Fin p) (Fin p) ℂ,
      (∀ᵐ ω ∂P, ∀ N, p ≤ N → ∀ env : NumEnv N p ℂ, env.eigh.Ok →
        SettlesAt (fun init tol iterMax =>
          complexStudentFixedPoint env (firstSamples x ω N) df init tol iterMax) (T N ω)) ∧
      ∀ i j, S i j = 0 → ∀ t : ℝ, 0 < t → Tendsto (fun N : ℕ => P {ω | t ≤ N * coherence2 i j (T N ω)}) atTop
        (𝓝 (ENNReal.ofReal (Real.exp (-t / (1 + 1 / (df + p)))))) := by
  have hp' : (0 : ℝ) < p := by exact_mod_cast hp
  obtain ⟨T, a1, a2⟩ := C178_student_complex hp df hdf S hS h
  refine ⟨T, a1, fun i j h0 t ht => coherence_tail (by positivity) (fun u => ?_) ht⟩
  refine limit_congr (a2 _ _ (cohProjGrad_herm u i j _) (cohProj_measurable u i j)
    (cohProj_hasGrad u i j hS h0)) ?_ ?_
  · have : cohProj u i j S = 0 := by rw [cohProj, h0, mul_zero, Complex.zero_re, zero_div]
    rw [this]
  · obtain ⟨e1, e2⟩ := cohProjGrad_trace u i j hS h0
    rw [limitVar]
    rw [e1, e2]
    congr 1
    field_simp
    ring

/-- The empirical covariance, samples of an elliptical law with mean zero, covariance `S` and finite fourth
moments. -/
theorem C183_empirical {x : ℕ → Ω → Fin p → ℂ} {μ : Measure (Fin p → ℂ)} {S : Matrix (Fin p) (Fin p) ℂ}
    (h : IIDSamples P x μ) (hp : 0 < p) (hS : S.PosDef) (hE : EllipticalLaw μ S)
    (hM : MeanCov μ 0 S) (h4 : FourthMoment μ) (centered : Bool) :
    ∃ C : ℕ → Ω → Matrix (Fin p) (Fin p) ℂ,
      (∀ N, 0 < N → ∀ ω, ∃ loc, complexEmpCovFit (.cplx (.d2 N p (firstSamples x ω N))) centered =
        .ok ⟨⟨p, loc⟩, .cplx (.d2 p p (C N ω))⟩) ∧
      ∀ i j, S i j = 0 → ∀ t : ℝ, 0 < t → Tendsto (fun N : ℕ => P {ω | t ≤ N * coherence2 i j (C N ω)}) atTop
        (𝓝 (ENNReal.ofReal (Real.exp
          (-t / ((∫ z, (star z ⬝ᵥ S⁻¹ *ᵥ z).re ^ 2 ∂μ) / (p * (p + 1))))))) := by
  have hpr := h.prob
  have hp' : (0 : ℝ) < p := by exact_mod_cast hp
  have hκ : 0 < (∫ z, (star z ⬝ᵥ S⁻¹ *ᵥ z).re ^ 2 ∂μ) / (p * (p + 1)) :=
    div_pos (meanCov_qf_sq_pos hp hS hM h4) (by positivity)
  obtain ⟨C, h1, h2⟩ := C181_delta h hM h4 hp hS.isHermitian centered fun _ => rfl
  refine ⟨C, h1, fun i j h0 t ht => coherence_tail hκ (fun u => ?_) ht⟩
  have hG := cohProjGrad_herm u i j S
  refine limit_congr (h2 _ _ hG (cohProj_measurable u i j) (cohProj_hasGrad u i j hS h0)) ?_ ?_
  · have : cohProj u i j S = 0 := by rw [cohProj, h0, mul_zero, Complex.zero_re, zero_div]
    rw [this]
  obtain ⟨e1, e2⟩ := cohProjGrad_trace u i j hS h0
  congr 1
  have hmem : MemLp (fun z : Fin p → ℂ => (star z ⬝ᵥ cohProjGrad u i j S *ᵥ z).re) 2 μ := by
    have := trForm_memLp h4 (cohProjGrad u i j S) 0
    simp only [sub_zero, trForm, outerC, trForm_outer_herm hG] at this
    exact this
  have hmean : ∫ z, (star z ⬝ᵥ cohProjGrad u i j S *ᵥ z).re ∂μ = 0 := by
    have := trForm_mean (fun a b => hM.outer_centred a b) (cohProjGrad u i j S)
    simp only [sub_zero, trForm, outerC, trForm_outer_herm hG] at this
    rw [this, hG.eq, e1]
  simp only [sub_zero]
  rw [variance_eq_sub hmem]
  simp only [Pi.pow_apply]
  rw [elliptical_var hp hS hE h4 hG, hmean, e1, e2]
  change _ * ((∫ z, (star z ⬝ᵥ S⁻¹ *ᵥ z).re ^ 2 ∂μ) / _) - _ = _
  ring

/-- The test with level `α`: by Tyler's estimator the threshold `(1 + 1/p) log(1/α)` has the false alarm
rate `α` in the limit, whatever the elliptical law. -/
theorem C183_level {x : ℕ → Ω → Fin p → ℂ} {μ : Measure (Fin p → ℂ)} (h : IIDSamples P x μ)
    (hμ : NullSubspaces μ) (hp : 0 < p) (S : Matrix (Fin p) (Fin p) ℂ) (hS : S.PosDef) (hE : EllipticalLaw μ S)
    (name : String) (hname : name = "trace" ∨ name = "determinant" ∨ name = "element") :
    ∃ T : ℕ → Ω → Matrix (Fin p) (Fin p) ℂ,
      (∀ᵐ ω ∂P, ∀ N, p < N → ∀ env : NumEnv N p ℂ, env.eigh.Ok →
        SettlesAt (fun init tol iterMax =>
          complexTylerFixedPoint env (firstSamples x ω N) init tol iterMax name) (T N ω)) ∧
      ∀ i j, S i j = 0 → ∀ α : ℝ, 0 < α → α < 1 → Tendsto (fun N : ℕ =>
        P {ω | (1 + 1 / p) * Real.log (1 / α) ≤ N * coherence2 i j (T N ω)}) atTop (𝓝 (ENNReal.ofReal α)) := by
  have hp' : (0 : ℝ) < p := by exact_mod_cast hp
  obtain ⟨T, a1, a2⟩ := C183_tyler h hμ hp S hS hE name hname
  refine ⟨T, a1, fun i j h0 α hα hα1 => ?_⟩
  have hl : 0 < Real.log (1 / α) := Real.log_pos (by rw [lt_div_iff₀ hα]; linarith)
  have hexp : Real.exp (-Real.log (1 / α)) = α := by rw [one_div, Real.log_inv, neg_neg, Real.exp_log hα]
  have := a2 i j h0 ((1 + 1 / p) * Real.log (1 / α)) (by positivity)
  rwa [neg_div, mul_div_cancel_left₀ _ (by positivity), hexp] at this

/-- By the empirical covariance the threshold `log(1/α)` has the false alarm rate `α` on normal samples. -/
theorem C183_normal {x : ℕ → Ω → Fin p → ℂ} {S : Matrix (Fin p) (Fin p) ℂ} (hp : 0 < p) (hS : S.PosDef)
    (h : IIDSamples P x (lawOf fun z => Real.exp (cnormalLogDensity 0 S z))) (centered : Bool) :
    ∃ C : ℕ → Ω → Matrix (Fin p) (Fin p) ℂ,
      (∀ N, 0 < N → ∀ ω, ∃ loc, complexEmpCovFit (.cplx (.d2 N p (firstSamples x ω N))) centered =
        .ok ⟨⟨p, loc⟩, .cplx (.d2 p p (C N ω))⟩) ∧
      ∀ i j, S i j = 0 → ∀ α : ℝ, 0 < α → α < 1 → Tendsto (fun N : ℕ =>
        P {ω | Real.log (1 / α) ≤ N * coherence2 i j (C N ω)}) atTop (𝓝 (ENNReal.ofReal α)) := by
  have hp' : (0 : ℝ) < p := by exact_mod_cast hp
  obtain ⟨C, a1, a2⟩ := C183_empirical h hp hS (cplxN_elliptical hS) (cplxN_meanCov hS) (cplxN_fourth hp hS) centered
  refine ⟨C, a1, fun i j h0 α hα hα1 => ?_⟩
  have hl : 0 < Real.log (1 / α) := Real.log_pos (by rw [lt_div_iff₀ hα]; linarith)
  have hexp : Real.exp (-Real.log (1 / α)) = α := by rw [one_div, Real.log_inv, neg_neg, Real.exp_log hα]
  have e : ∫ z, (star z ⬝ᵥ S⁻¹ *ᵥ z).re ^ 2 ∂lawOf (fun z => Real.exp (cnormalLogDensity 0 S z)) = p * (p + 1) :=
    cplxN_qf_sq hp hS
  have := a2 i j h0 _ hl
  rwa [e, div_self (by positivity), div_one, hexp] at this

/-- On samples of the complex t law with `ν > 4` degrees of freedom this threshold has the false alarm rate
`α ^ ((ν - 4) / (ν - 2))`, which is larger than `α`. -/
theorem C183_t {x : ℕ → Ω → Fin p → ℂ} {S : Matrix (Fin p) (Fin p) ℂ} (hp : 0 < p) (hS : S.PosDef) (ν : ℝ)
    (hν : 4 < ν) (h : IIDSamples P x (lawOf fun z => Real.exp (ctLogDensity ν 0 S z))) (centered : Bool) :
    ∃ C : ℕ → Ω → Matrix (Fin p) (Fin p) ℂ,
      (∀ N, 0 < N → ∀ ω, ∃ loc, complexEmpCovFit (.cplx (.d2 N p (firstSamples x ω N))) centered =
        .ok ⟨⟨p, loc⟩, .cplx (.d2 p p (C N ω))⟩) ∧
      ∀ i j, S i j = 0 → ∀ α : ℝ, 0 < α → α < 1 → Tendsto (fun N : ℕ =>
        P {ω | Real.log (1 / α) ≤ N * coherence2 i j (C N ω)}) atTop
          (𝓝 (ENNReal.ofReal (α ^ ((ν - 4) / (ν - 2))))) ∧ α < α ^ ((ν - 4) / (ν - 2)) := by
  have hp' : (0 : ℝ) < p := by exact_mod_cast hp
  have hν0 : 0 < ν := by linarith
  have hν2 : 0 < ν - 2 := by linarith
  have hν4 : 0 < ν - 4 := by linarith
  have hc : 0 < ν / (ν - 2) := by positivity
  have hS' : (((ν / (ν - 2) : ℝ) : ℂ) • S).PosDef := hS.smul (by exact_mod_cast hc)
  obtain ⟨C, a1, a2⟩ := C183_empirical h hp hS' (elliptical_smul (cplxT_elliptical ν hS) hc)
    (cplxT_meanCov hS (by linarith)) ((cplxT_fourth hν0 hp hS).2 hν) centered
  refine ⟨C, a1, fun i j h0 α hα hα1 => ⟨?_, ?_⟩⟩
  · have hl : 0 < Real.log (1 / α) := Real.log_pos (by rw [lt_div_iff₀ hα]; linarith)
    have := a2 i j (by rw [Matrix.smul_apply, h0, smul_zero]) _ hl
    rw [cplxT_scaled_sq hp hS hν, mul_div_cancel_left₀ _ (by positivity)] at this
    rwa [Real.rpow_def_of_pos hα, show Real.log α * ((ν - 4) / (ν - 2)) =
      -Real.log (1 / α) / ((ν - 2) / (ν - 4)) by rw [one_div, Real.log_inv]; field_simp]
  · have e : (ν - 4) / (ν - 2) < 1 := by rw [div_lt_one hν2]; linarith
    calc α = α ^ (1 : ℝ) := (Real.rpow_one α).symm
      _ < _ := Real.rpow_lt_rpow_of_exponent_gt hα hα1 e

/-- Non-vacuity: two uncorrelated channels, t samples with five degrees of freedom, level `1/8`. With Tyler's
estimator the false alarm rate tends to `1/8`, with the empirical covariance to `1/2`. -/
example : ∃ (P : Measure (ℕ → Fin 2 → ℂ)) (_ : IsProbabilityMeasure P)
    (C T : ℕ → (ℕ → Fin 2 → ℂ) → Matrix (Fin 2) (Fin 2) ℂ),
    (∀ N, 0 < N → ∀ ω, ∃ loc, complexEmpCovFit (.cplx (.d2 N 2
      (firstSamples (fun i (ω : ℕ → Fin 2 → ℂ) => ω i) ω N))) false = .ok ⟨⟨2, loc⟩, .cplx (.d2 2 2 (C N ω))⟩) ∧
    (∀ᵐ ω ∂P, ∀ N, 2 < N → ∀ env : NumEnv N 2 ℂ, env.eigh.Ok →
      SettlesAt (fun init tol iterMax => complexTylerFixedPoint env
        (firstSamples (fun i (ω : ℕ → Fin 2 → ℂ) => ω i) ω N) init tol iterMax "trace") (T N ω)) ∧
    Tendsto (fun N : ℕ => P {ω | (1 + 1 / 2) * Real.log 8 ≤ N * coherence2 0 1 (T N ω)}) atTop
      (𝓝 (ENNReal.ofReal (1 / 8))) ∧
    Tendsto (fun N : ℕ => P {ω | Real.log 8 ≤ N * coherence2 0 1 (C N ω)}) atTop
      (𝓝 (ENNReal.ofReal (1 / 2))) := by
  have hS : (1 : Matrix (Fin 2) (Fin 2) ℂ).PosDef := PosDef.one
  have hpr := cplxT_prob (df := 5) (by norm_num) hS
  have h := iid_exists (lawOf fun x => Real.exp (ctLogDensity 5 0 (1 : Matrix (Fin 2) (Fin 2) ℂ) x))
  obtain ⟨C, a1, a2⟩ := C183_t two_pos hS 5 (by norm_num) h false
  obtain ⟨T, b1, b2⟩ := C183_level h (lawOf_null_cplx _) two_pos _ hS (cplxT_elliptical _ hS) "trace" (Or.inl rfl)
  have a3 := (a2 0 1 (by simp) (1 / 8) (by norm_num) (by norm_num)).1
  have b3 := b2 0 1 (by simp) (1 / 8) (by norm_num) (by norm_num)
  have e : ((1 : ℝ) / 8) ^ (((5 : ℝ) - 4) / (5 - 2)) = 1 / 2 := by
    rw [show ((1 : ℝ) / 8) = (1 / 2) ^ (3 : ℝ) by norm_num, ← Real.rpow_mul (by norm_num)]
    norm_num
  rw [e, one_div_one_div] at a3
  rw [one_div_one_div] at b3
  exact ⟨_, inferInstance, C, T, a1, b1, by exact_mod_cast b3, a3⟩

end
end RS
