import Verif.Lemmas.Steps

/-
Properties of the fixed-point estimators, part 1: normalisation, stopping, positivity
(C30-C34).
-/
set_option autoImplicit false

namespace RS
open Matrix ComplexOrder

section Norm
variable {𝕜 : Type} [RCLike 𝕜] {p : ℕ}

/-! ## C30: normalisation -/

theorem posDef_re_trace_pos {S : Matrix (Fin p) (Fin p) 𝕜} (hp : 0 < p) (hS : S.PosDef) :
    0 < RCLike.re S.trace ∧ ((RCLike.re S.trace : ℝ) : 𝕜) = S.trace := by
  have : Nonempty (Fin p) := ⟨⟨0, hp⟩⟩
  have h := RCLike.pos_iff.1 hS.trace_pos
  exact ⟨h.1, RCLike.ext (by simp) (by simp [h.2])⟩

theorem posDef_re_det_pos {S : Matrix (Fin p) (Fin p) 𝕜} (hS : S.PosDef) :
    0 < RCLike.re S.det ∧ ((RCLike.re S.det : ℝ) : 𝕜) = S.det := by
  have h := RCLike.pos_iff.1 hS.det_pos
  exact ⟨h.1, RCLike.ext (by simp) (by simp [h.2])⟩

theorem posDef_re_diag_pos {S : Matrix (Fin p) (Fin p) 𝕜} (hS : S.PosDef) (i : Fin p) :
    0 < RCLike.re (S i i) ∧ ((RCLike.re (S i i) : ℝ) : 𝕜) = S i i := by
  have h := RCLike.pos_iff.1 (hS.diag_pos (i := i))
  exact ⟨h.1, RCLike.ext (by simp) (by simp [h.2])⟩

/-- On positive definite matrices the normaliser is a positive real number. -/
theorem normFn_pos (name : String) (hp : 0 < p) {S : Matrix (Fin p) (Fin p) 𝕜} (hS : S.PosDef) :
    ∃ r : ℝ, 0 < r ∧ normFn name S = some (r : 𝕜) := by
  have hp' : (0 : ℝ) < p := by exact_mod_cast hp
  unfold normFn
  split_ifs with h1 h2 h3 h4 h5
  · exact ⟨_, div_pos (posDef_re_trace_pos hp hS).1 hp', rfl⟩
  · exact absurd (posDef_re_det_pos hS).1 (not_lt.2 h3.le)
  · exact ⟨_, Real.rpow_pos_of_pos (posDef_re_det_pos hS).1 _, rfl⟩
  · exact ⟨_, (posDef_re_diag_pos hS ⟨0, hp⟩).1, by rw [(posDef_re_diag_pos hS ⟨0, hp⟩).2]⟩
  · exact ⟨1, one_pos, by simp⟩
  · exact ⟨1, one_pos, by simp⟩

theorem normalise_pos (name : String) (hp : 0 < p) {S : Matrix (Fin p) (Fin p) 𝕜}
    (hS : S.PosDef) : ∃ r : ℝ, 0 < r ∧ normFn name S = some (r : 𝕜) ∧
      FMat.normalise name (.fin S) = .fin (((r⁻¹ : ℝ) : 𝕜) • S) := by
  obtain ⟨r, hr, h⟩ := normFn_pos name hp hS
  refine ⟨r, hr, h, ?_⟩
  have h0 : (r : 𝕜) ≠ 0 := by rw [Ne, RCLike.ofReal_eq_zero]; exact hr.ne'
  simp only [FMat.normalise, h, if_neg h0, RCLike.ofReal_inv]

/-- 'trace': trace `p`. -/
theorem C30_trace (hp : 0 < p) (S : Matrix (Fin p) (Fin p) 𝕜) (hS : S.PosDef) :
    ∃ c : ℝ, 0 < c ∧ FMat.normalise "trace" (.fin S) = .fin ((c : 𝕜) • S) ∧
      ((c : 𝕜) • S).trace = p := by
  obtain ⟨r, hr, h, h'⟩ := normalise_pos "trace" hp hS
  refine ⟨r⁻¹, inv_pos.2 hr, h', ?_⟩
  have hp' : (p : 𝕜) ≠ 0 := by exact_mod_cast hp.ne'
  simp only [normFn, if_true, Option.some.injEq] at h
  have h0 : (r : 𝕜) ≠ 0 := by rw [Ne, RCLike.ofReal_eq_zero]; exact hr.ne'
  have h2 : (r : 𝕜) = S.trace / p := by
    rw [← h, RCLike.ofReal_div, (posDef_re_trace_pos hp hS).2, RCLike.ofReal_natCast]
  rw [trace_smul, smul_eq_mul, RCLike.ofReal_inv]
  have h3 : S.trace = r * p := by rw [h2]; field_simp
  rw [h3]; field_simp

/-- 'determinant': determinant 1. -/
theorem C30_determinant (hp : 0 < p) (S : Matrix (Fin p) (Fin p) 𝕜) (hS : S.PosDef) :
    ∃ c : ℝ, 0 < c ∧ FMat.normalise "determinant" (.fin S) = .fin ((c : 𝕜) • S) ∧
      ((c : 𝕜) • S).det = 1 := by
  obtain ⟨r, hr, h, h'⟩ := normalise_pos "determinant" hp hS
  refine ⟨r⁻¹, inv_pos.2 hr, h', ?_⟩
  have hd := posDef_re_det_pos hS
  have e1 : ("determinant" = "trace") = False := by decide +kernel
  simp only [normFn, e1, if_false, if_true, if_neg (not_lt.2 hd.1.le), Option.some.injEq,
    RCLike.ofReal_inj] at h
  rw [det_smul, Fintype.card_fin, ← RCLike.ofReal_pow, ← hd.2, ← RCLike.ofReal_mul, ← h]
  have : ((RCLike.re S.det ^ (1 / (p : ℝ)))⁻¹) ^ p = (RCLike.re S.det)⁻¹ := by
    rw [inv_pow, one_div, Real.rpow_inv_natCast_pow hd.1.le hp.ne']
  rw [this, inv_mul_cancel₀ hd.1.ne', RCLike.ofReal_one]

/-- 'element': top-left entry 1. -/
theorem C30_element (hp : 0 < p) (S : Matrix (Fin p) (Fin p) 𝕜) (hS : S.PosDef) :
    ∃ c : ℝ, 0 < c ∧ FMat.normalise "element" (.fin S) = .fin ((c : 𝕜) • S) ∧
      ((c : 𝕜) • S) ⟨0, hp⟩ ⟨0, hp⟩ = 1 := by
  obtain ⟨r, hr, h, h'⟩ := normalise_pos "element" hp hS
  refine ⟨r⁻¹, inv_pos.2 hr, h', ?_⟩
  have e1 : ("element" = "trace") = False := by decide +kernel
  have e2 : ("element" = "determinant") = False := by decide +kernel
  simp only [normFn, e1, e2, if_false, if_true, dif_pos hp, Option.some.injEq] at h
  have h0 : (r : 𝕜) ≠ 0 := by rw [Ne, RCLike.ofReal_eq_zero]; exact hr.ne'
  rw [Matrix.smul_apply, h, smul_eq_mul, RCLike.ofReal_inv, inv_mul_cancel₀ h0]

/-- 'None' and every unknown name: unchanged, for every matrix. -/
theorem C30_none (name : String)
    (h : name ≠ "trace" ∧ name ≠ "determinant" ∧ name ≠ "element") (S : FMat p 𝕜) :
    S.normalise name = S := by
  cases S with
  | nan => rfl
  | fin S => simp [FMat.normalise, normFn, h.1, h.2.1, h.2.2]

/-! ## C31: scale freeness -/

theorem C31_scale_free (name : String)
    (hname : name = "trace" ∨ name = "determinant" ∨ name = "element") (hp : 0 < p)
    (S : Matrix (Fin p) (Fin p) 𝕜) (hS : S.PosDef) (c : ℝ) (hc : 0 < c) :
    FMat.normalise name (.fin ((c : 𝕜) • S)) = FMat.normalise name (.fin S) := by
  have hcS : ((c : 𝕜) • S).PosDef := hS.smul (by simpa using hc)
  obtain ⟨r, hr, h1, h2⟩ := normalise_pos name hp hS
  obtain ⟨r', hr', h1', h2'⟩ := normalise_pos name hp hcS
  have key : r' = c * r := by
    rcases hname with rfl | rfl | rfl
    · simp only [normFn, if_true, Option.some.injEq, RCLike.ofReal_inj] at h1 h1'
      rw [← h1, ← h1', trace_smul, smul_eq_mul, RCLike.re_ofReal_mul]; ring
    · have e1 : ("determinant" = "trace") = False := by decide +kernel
      have hd := posDef_re_det_pos hS
      have hd' := posDef_re_det_pos hcS
      simp only [normFn, e1, if_false, if_true, if_neg (not_lt.2 hd.1.le),
        if_neg (not_lt.2 hd'.1.le), Option.some.injEq, RCLike.ofReal_inj] at h1 h1'
      rw [← h1, ← h1', det_smul, Fintype.card_fin, ← RCLike.ofReal_pow, RCLike.re_ofReal_mul,
        Real.mul_rpow (pow_nonneg hc.le _) hd.1.le, one_div,
        Real.pow_rpow_inv_natCast hc.le hp.ne']
    · have e1 : ("element" = "trace") = False := by decide +kernel
      have e2 : ("element" = "determinant") = False := by decide +kernel
      simp only [normFn, e1, e2, if_false, if_true, dif_pos hp, Option.some.injEq,
        Matrix.smul_apply, smul_eq_mul] at h1 h1'
      rw [h1, ← RCLike.ofReal_mul, RCLike.ofReal_inj] at h1'
      exact h1'.symm
  rw [h2, h2', key, smul_smul, ← RCLike.ofReal_mul]
  congr 3
  field_simp

theorem C31_idempotent (name : String) (hp : 0 < p) (S : Matrix (Fin p) (Fin p) 𝕜)
    (hS : S.PosDef) :
    (FMat.normalise name (.fin S)).normalise name = FMat.normalise name (.fin S) := by
  by_cases hname : name = "trace" ∨ name = "determinant" ∨ name = "element"
  · obtain ⟨r, hr, h1, h2⟩ := normalise_pos name hp hS
    rw [h2, C31_scale_free name hname hp S hS _ (inv_pos.2 hr), h2]
  · push Not at hname
    rw [C30_none name hname, C30_none name hname]

theorem C31_posDef (name : String) (hp : 0 < p) (S : Matrix (Fin p) (Fin p) 𝕜) (hS : S.PosDef) :
    ∃ S' : Matrix (Fin p) (Fin p) 𝕜, FMat.normalise name (.fin S) = .fin S' ∧ S'.PosDef := by
  obtain ⟨r, hr, h1, h2⟩ := normalise_pos name hp hS
  exact ⟨_, h2, hS.smul (by rw [RCLike.ofReal_pos]; exact inv_pos.2 hr)⟩

/-- A concrete case of C30, C31: `diag(1, 4)` has normalisers `5/2`, `2`, `1`. -/
example : (diagonal ![1, 4] : Matrix (Fin 2) (Fin 2) ℝ).PosDef ∧
    (diagonal ![1, 4] : Matrix (Fin 2) (Fin 2) ℝ).trace = 5 ∧
    (diagonal ![1, 4] : Matrix (Fin 2) (Fin 2) ℝ).det = 4 := by
  refine ⟨?_, ?_, ?_⟩
  · rw [posDef_diagonal_iff]; intro i; fin_cases i <;> norm_num
  · simp [trace, Fin.sum_univ_two]; norm_num
  · simp [det_diagonal]

end Norm

/-! ## C32: stopping -/

section Stop
variable {N p : ℕ}

theorem runLoop_documented {𝕜 : Type} [RCLike 𝕜] (step : Matrix (Fin p) (Fin p) 𝕜 → Py (FMat p 𝕜))
    (tol : ℝ) (iterMax : ℤ) (init : Matrix (Fin p) (Fin p) 𝕜) :
    StopsAsDocumented step tol iterMax init id (runLoop step tol iterMax init) := by
  intro out h
  obtain ⟨⟨tr, h1⟩, h2⟩ := runLoop_run step tol iterMax init out h
  exact ⟨out.sigma, tr, h1, rfl, by rw [h2]; simp⟩

theorem C32_tyler (env : NumEnv N p ℝ) (X : Matrix (Fin N) (Fin p) ℝ)
    (init : Option (Matrix (Fin p) (Fin p) ℝ)) (tol : ℝ) (iterMax : ℤ) (name : String) :
    (∃ out, tylerFixedPoint env X init tol iterMax name = .ok out) ∧
    StopsAsDocumented (fun s => .ok (tylerStep env X s)) tol iterMax
      (init.getD (empiricalCovariance X)) (FMat.normalise name)
      (tylerFixedPoint env X init tol iterMax name) := by
  obtain ⟨o, ho⟩ := runLoop_total (fun s => .ok (tylerStep env X s)) tol iterMax
    (init.getD (empiricalCovariance X)) (fun M => ⟨_, rfl⟩)
  have he : tylerFixedPoint env X init tol iterMax name =
      .ok { o with sigma := o.sigma.normalise name } := by
    unfold tylerFixedPoint; simp only [ho]; rfl
  refine ⟨⟨_, he⟩, ?_⟩
  intro out h
  obtain ⟨sigma, tr, h1, h2, h3⟩ := runLoop_documented _ _ _ _ o ho
  rw [he] at h
  cases h
  exact ⟨sigma, tr, h1, by rw [h2]; rfl, h3⟩

theorem C32_complex_tyler (env : NumEnv N p ℂ) (X : Matrix (Fin N) (Fin p) ℂ)
    (init : Option (Matrix (Fin p) (Fin p) ℂ)) (tol : ℝ) (iterMax : ℤ) (name : String) :
    (∃ out, complexTylerFixedPoint env X init tol iterMax name = .ok out) ∧
    StopsAsDocumented (fun s => .ok (complexTylerStep env X s)) tol iterMax
      (init.getD (complexEmpiricalCovariance X true)) (FMat.normalise name)
      (complexTylerFixedPoint env X init tol iterMax name) := by
  obtain ⟨o, ho⟩ := runLoop_total (fun s => .ok (complexTylerStep env X s)) tol iterMax
    (init.getD (complexEmpiricalCovariance X true)) (fun M => ⟨_, rfl⟩)
  have he : complexTylerFixedPoint env X init tol iterMax name =
      .ok { o with sigma := o.sigma.normalise name } := by
    unfold complexTylerFixedPoint; simp only [ho]; rfl
  refine ⟨⟨_, he⟩, ?_⟩
  intro out h
  obtain ⟨sigma, tr, h1, h2, h3⟩ := runLoop_documented _ _ _ _ o ho
  rw [he] at h
  cases h
  exact ⟨sigma, tr, h1, by rw [h2]; rfl, h3⟩

theorem C32_student (env : NumEnv N p ℝ) (X : Matrix (Fin N) (Fin p) ℝ) (df : ℝ)
    (init : Option (Matrix (Fin p) (Fin p) ℝ)) (tol : ℝ) (iterMax : ℤ) :
    (df ≤ 0 → studentFixedPoint env X df init tol iterMax = .error .attributeError) ∧
    (0 < df → ∃ out, studentFixedPoint env X df init tol iterMax = .ok out) ∧
    StopsAsDocumented (fun s => .ok (studentStep env df X s)) tol iterMax
      (init.getD (empiricalCovariance X)) id (studentFixedPoint env X df init tol iterMax) := by
  refine ⟨fun h => by unfold studentFixedPoint; rw [if_pos h], fun h => ?_, ?_⟩
  · unfold studentFixedPoint
    rw [if_neg (not_le.2 h)]
    exact runLoop_total _ _ _ _ fun M => ⟨_, rfl⟩
  · unfold studentFixedPoint
    split_ifs
    · intro out h; cases h
    · exact runLoop_documented _ _ _ _

theorem C32_complex_student (env : NumEnv N p ℂ) (X : Matrix (Fin N) (Fin p) ℂ) (df : ℝ)
    (init : Option (Matrix (Fin p) (Fin p) ℂ)) (tol : ℝ) (iterMax : ℤ) :
    (df ≤ 0 → complexStudentFixedPoint env X df init tol iterMax = .error .attributeError) ∧
    (0 < df → ∃ out, complexStudentFixedPoint env X df init tol iterMax = .ok out) ∧
    StopsAsDocumented (fun s => .ok (complexStudentStep env df X s)) tol iterMax
      (init.getD (complexEmpiricalCovariance X true)) id
      (complexStudentFixedPoint env X df init tol iterMax) := by
  refine ⟨fun h => by unfold complexStudentFixedPoint; rw [if_pos h], fun h => ?_, ?_⟩
  · unfold complexStudentFixedPoint
    rw [if_neg (not_le.2 h)]
    exact runLoop_total _ _ _ _ fun M => ⟨_, rfl⟩
  · unfold complexStudentFixedPoint
    split_ifs
    · intro out h; cases h
    · exact runLoop_documented _ _ _ _

/-- For `0 < q < 1` and `p ≥ 1` the Huber parameters are positive. -/
theorem huberPar_pos (c : Chi2) (hc : c.Ok) (q : ℝ) (h0 : 0 < q) (h1 : q < 1) (hp : 0 < p) :
    ∃ lbda beta, huberPar c q p = .fin lbda beta ∧ 0 < lbda ∧ 0 < beta := by
  have hl := hc.ppf_pos q p h0 h1 hp
  have hp' : (0 : ℝ) < p := by exact_mod_cast hp
  refine ⟨c.ppf q p / 2, _, by unfold huberPar; rw [if_pos ⟨h0.le, h1⟩], by positivity, ?_⟩
  have := hc.cdf_nonneg (2 * (c.ppf q p / 2)) (p + 1)
  have h2 : 0 < 2 * (c.ppf q p / 2) * (1 - q) / p := by
    apply div_pos _ hp'
    exact mul_pos (by positivity) (by linarith)
  linarith

theorem complexHuberPar_pos (c : Chi2) (hc : c.Ok) (q : ℝ) (h0 : 0 < q) (h1 : q < 1) (hp : 0 < p) :
    ∃ lbda beta, complexHuberPar c q p = .fin lbda beta ∧ 0 < lbda ∧ 0 < beta := by
  have hl := hc.ppf_pos q (2 * p) h0 h1 (by omega)
  have hp' : (0 : ℝ) < p := by exact_mod_cast hp
  refine ⟨c.ppf q (2 * p) / 2, _, by unfold complexHuberPar; rw [if_pos ⟨h0.le, h1⟩],
    by positivity, ?_⟩
  have := hc.cdf_nonneg (2 * (c.ppf q (2 * p) / 2)) (2 * p + 2)
  have h2 : 0 < (c.ppf q (2 * p) / 2) * (1 - q) / p := by
    apply div_pos _ hp'
    exact mul_pos (by positivity) (by linarith)
  linarith

theorem C32_huber (env : NumEnv N p ℝ) (c : Chi2) (hc : c.Ok) (X : Matrix (Fin N) (Fin p) ℝ)
    (q : ℝ) (init : Option (Matrix (Fin p) (Fin p) ℝ)) (tol : ℝ) (iterMax : ℤ) :
    (0 < q → q < 1 → 0 < p → ∃ out, huberFixedPoint env c X q init tol iterMax = .ok out) ∧
    StopsAsDocumented (huberStep env (huberPar c q p) X) tol iterMax
      (init.getD (empiricalCovariance X)) id (huberFixedPoint env c X q init tol iterMax) := by
  refine ⟨fun h0 h1 hp => ?_, runLoop_documented _ _ _ _⟩
  obtain ⟨l, b, h, hl, hb⟩ := huberPar_pos (p := p) c hc q h0 h1 hp
  unfold huberFixedPoint
  refine runLoop_total _ _ _ _ fun M => ?_
  have hcc : ¬ (l ≤ 0 ∨ b < 0) := by rintro (h | h) <;> linarith
  simp only [h, huberStep, if_neg hcc]
  split_ifs <;> exact ⟨_, rfl⟩

theorem C32_complex_huber (env : NumEnv N p ℂ) (c : Chi2) (hc : c.Ok)
    (X : Matrix (Fin N) (Fin p) ℂ) (q : ℝ) (init : Option (Matrix (Fin p) (Fin p) ℂ)) (tol : ℝ)
    (iterMax : ℤ) :
    (0 < q → q < 1 → 0 < p → ∃ out, complexHuberFixedPoint env c X q init tol iterMax = .ok out) ∧
    StopsAsDocumented (complexHuberStep env (complexHuberPar c q p) X) tol iterMax
      (init.getD (complexEmpiricalCovariance X true)) id
      (complexHuberFixedPoint env c X q init tol iterMax) := by
  refine ⟨fun h0 h1 hp => ?_, runLoop_documented _ _ _ _⟩
  obtain ⟨l, b, h, hl, hb⟩ := complexHuberPar_pos (p := p) c hc q h0 h1 hp
  unfold complexHuberFixedPoint
  refine runLoop_total _ _ _ _ fun M => ?_
  have hcc : ¬ (l ≤ 0 ∨ b < 0) := by rintro (h | h) <;> linarith
  simp only [h, complexHuberStep, if_neg hcc]
  split_ifs <;> exact ⟨_, rfl⟩

/-- What a documented run says without iterations: the initial point and error infinity. -/
theorem C32_no_iteration {𝕜 : Type} [RCLike 𝕜] (step : Matrix (Fin p) (Fin p) 𝕜 → Py (FMat p 𝕜))
    (tol : ℝ) (iterMax : ℤ) (h : iterMax ≤ 0) (init : Matrix (Fin p) (Fin p) 𝕜)
    (final : FMat p 𝕜 → FMat p 𝕜) (r : Py (FPOut p 𝕜))
    (hr : StopsAsDocumented step tol iterMax init final r) (out : FPOut p 𝕜) (ho : r = .ok out) :
    out.sigma = final (.fin init) ∧ out.delta = .inf ∧ out.iteration = 0 := by
  obtain ⟨sigma, tr, h1, h2, h3⟩ := hr out ho
  have hb := h1.bound
  rw [max_eq_right h] at hb
  have h0 : out.iteration = 0 := by omega
  refine ⟨?_, h1.err_zero h0, h0⟩
  rw [h2, h1.result, h0, h1.start]

/-- With `q = 0` every Huber run with at least one iteration raises `AssertionError`. -/
theorem C32_huber_zero_quantile (env : NumEnv N p ℝ) (c : Chi2) (hc : c.Ok)
    (X : Matrix (Fin N) (Fin p) ℝ) (init : Option (Matrix (Fin p) (Fin p) ℝ)) (tol : ℝ)
    (iterMax : ℤ) (hi : 0 < iterMax) :
    huberFixedPoint env c X 0 init tol iterMax = .error .assertionError := by
  have h : ∀ init, fpLoop (huberStep env (huberPar c 0 p) X) tol iterMax ⟨.fin init, .inf, 0⟩ =
      .error .assertionError := fun init => by
    rw [fpLoop, if_pos ⟨trivial, by simpa using hi⟩]
    simp [stepSig, huberStep, huberPar, hc.ppf_zero]
  unfold huberFixedPoint runLoop
  simp only [h]
  rfl

/-! ## C33: the warning -/

/-- The expected property fails in both directions: Tyler's estimator on one sample `1`,
started at its own fixed point, warns although the error is `0`; on a zero sample it stops
with a NaN error and no warning. -/
theorem C33_violated (env : NumEnv 1 1 ℝ) (hs : env.eigh.Ok) :
    (∃ out, tylerFixedPoint env (1 : Matrix (Fin 1) (Fin 1) ℝ) (some 1) (1 / 10000) 1 "None" = .ok out ∧
      out.warned = true ∧ out.delta = .fin 0 ∧ ¬ out.delta.gt (1 / 10000)) ∧
    (∃ out, tylerFixedPoint env (0 : Matrix (Fin 1) (Fin 1) ℝ) (some 1) (1 / 10000) 30 "None" = .ok out ∧
      out.warned = false ∧ out.delta = .nan ∧ out.sigma = .nan) := by
  constructor
  · have hone : (1 : Matrix (Fin 1) (Fin 1) ℝ).PosDef := PosDef.one
    have hX : NonzeroSamples (1 : Matrix (Fin 1) (Fin 1) ℝ) := fun i h => by
      have := congrFun h i
      simp [sample] at this
    have hq : ∀ i, qf (1 : Matrix (Fin 1) (Fin 1) ℝ) (sample (1 : Matrix (Fin 1) (Fin 1) ℝ) i) = 1 := by
      intro i
      have hi : i = 0 := Subsingleton.elim _ _
      subst hi
      simp [qf, sample, dotProduct]
    have hm : mStep (wTyler 1) (1 : Matrix (Fin 1) (Fin 1) ℝ) 1 = 1 := by
      ext a b
      have ha : a = 0 := Subsingleton.elim _ _
      have hb : b = 0 := Subsingleton.elim _ _
      subst ha; subst hb
      rw [mStep, scatter_apply]
      simp [hq, wTyler]
    have hst := tylerStep_isMStep hs hX 1 hone
    rw [hm] at hst
    simp only [Except.ok.injEq] at hst
    have hf : frob (1 : Matrix (Fin 1) (Fin 1) ℝ) = 1 := by simp [frob]
    have hf0 : frob (0 : Matrix (Fin 1) (Fin 1) ℝ) = 0 := by simp [frob]
    have hl : fpLoop (fun s => .ok (tylerStep env 1 s)) (1 / 10000) 1
        ⟨.fin (1 : Matrix (Fin 1) (Fin 1) ℝ), .inf, 0⟩ = .ok ⟨.fin 1, .fin 0, 1⟩ := by
      rw [fpLoop, if_pos ⟨trivial, by simp⟩]
      simp only [stepSig, hst]
      rw [fpLoop, if_neg (by simp)]
      simp [relErr, hf, hf0]
    refine ⟨⟨.fin 1, .fin 0, 1, true⟩, ?_, rfl, rfl, by simp [Delta.gt]⟩
    unfold tylerFixedPoint runLoop
    simp only [Option.getD_some]
    rw [hl]
    change Except.ok _ = Except.ok _
    rw [C30_none "None" (by decide +kernel)]
    rfl
  · refine ⟨⟨.nan, .nan, 1, false⟩, ?_, rfl, rfl, rfl⟩
    · unfold tylerFixedPoint
      simp only [Option.getD_some]
      rw [runLoop_nan _ _ (by norm_num) _ (by rw [tylerStep_zero env 0 0 (fun _ => rfl)])]
      rfl

/-- Partial: for `iter_max ≥ 0` an error that exceeds the tolerance is always reported, and
without a warning the error does not exceed the tolerance. -/
theorem C33_partial {𝕜 : Type} [RCLike 𝕜] (step : Matrix (Fin p) (Fin p) 𝕜 → Py (FMat p 𝕜))
    (tol : ℝ) (iterMax : ℤ) (h : 0 ≤ iterMax) (init : Matrix (Fin p) (Fin p) 𝕜)
    (final : FMat p 𝕜 → FMat p 𝕜) (r : Py (FPOut p 𝕜))
    (hr : StopsAsDocumented step tol iterMax init final r) (out : FPOut p 𝕜) (ho : r = .ok out)
    (hd : out.delta.gt tol) : out.warned = true := by
  obtain ⟨sigma, tr, h1, h2, h3⟩ := hr out ho
  rw [h3]
  have hb := h1.bound
  rw [max_eq_left h] at hb
  by_contra hne
  exact h1.stopped (by omega) hd

end Stop
end RS
