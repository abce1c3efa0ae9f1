import Verif.Lemmas.TylerRounding
import Verif.Props.DataCont

/-
Rounding errors in the fixed-point estimators (C157, C158).
-/
set_option autoImplicit false

namespace RS
open Matrix ComplexOrder

section
variable {N p : ℕ}

/-! ## Specification -/

/-- Every stored matrix has the relative accuracy `u` in Frobenius norm and is Hermitian if the exact
one is; every stored error is non-negative and accurate up to `u (1 + error)`. The number `u` measures
a whole pass of the loop: round-off times the condition of what the pass computes. -/
structure Rounding.Within {𝕜 : Type} [RCLike 𝕜] (fl : Rounding p 𝕜) (u : ℝ) : Prop where
  start_hermitian : ∀ M, M.IsHermitian → (fl.start M).IsHermitian
  start : ∀ M, M.IsHermitian → frobDist (fl.start M) M ≤ u * frobDist M 0
  mat_hermitian : ∀ n M, M.IsHermitian → (fl.mat n M).IsHermitian
  mat : ∀ n M, M.IsHermitian → frobDist (fl.mat n M) M ≤ u * frobDist M 0
  err_nonneg : ∀ n d, 0 ≤ d → 0 ≤ fl.err n d
  err : ∀ n d, 0 ≤ d → |fl.err n d - d| ≤ u * (1 + d)

/-- Nothing is rounded. -/
def Rounding.exact (p : ℕ) (𝕜 : Type) : Rounding p 𝕜 := ⟨id, fun _ => id, fun _ => id⟩

/-- Calls with small enough rounding errors `u` behave like exact ones up to a multiple of `u`. They
return a positive definite matrix, as close to `S` as `r ^ iteration + u`; they reach every tolerance
above `C u`, in a number of iterations that grows like its logarithm; and the distance of the result to
`S` is bounded by the reported error and `u`. -/
def StableCalls {𝕜 : Type} [RCLike 𝕜] (call : Rounding p 𝕜 → ℝ → ℤ → Py (FPOut p 𝕜))
    (S : Matrix (Fin p) (Fin p) 𝕜) : Prop :=
  ∃ r C K u0 : ℝ, 0 ≤ r ∧ r < 1 ∧ 0 ≤ C ∧ 0 < u0 ∧ ∀ u : ℝ, 0 ≤ u → u ≤ u0 →
    ∀ fl : Rounding p 𝕜, fl.Within u → ∀ (tol : ℝ) (iterMax : ℤ),
    (∃ result delta iteration warned,
      call fl tol iterMax = .ok ⟨.fin result, delta, iteration, warned⟩ ∧ result.PosDef ∧
      frobDist result S ≤ C * (r ^ iteration + u)) ∧
    (0 < tol → C * u ≤ tol → tol ≤ 1 → K * (1 + Real.log (1 / tol)) < iterMax →
      ∃ result d iteration, call fl tol iterMax = .ok ⟨.fin result, .fin d, iteration, false⟩ ∧
        d ≤ tol ∧ iteration ≤ K * (1 + Real.log (1 / tol))) ∧
    (0 < iterMax → ∃ result d iteration warned,
      call fl tol iterMax = .ok ⟨.fin result, .fin d, iteration, warned⟩ ∧
      frobDist result S ≤ C * (d + u))

/-- What a call computes, given the sequence `A` of the matrices it would store and the normalisation of
the result: it goes on while the stored error exceeds the tolerance and there are iterations left. -/
def FollowsRun {𝕜 : Type} [RCLike 𝕜] (call : ℝ → ℤ → Py (FPOut p 𝕜)) (fl : Rounding p 𝕜)
    (A : ℕ → Matrix (Fin p) (Fin p) 𝕜) (post : FMat p 𝕜 → FMat p 𝕜) : Prop :=
  ∀ (tol : ℝ) (iterMax : ℤ), ∃ (k : ℕ) (e : ℕ → Delta),
    e 0 = .inf ∧ (∀ n, e (n + 1) = .fin (fl.err n (frobDist (A (n + 1)) (A n) / frobDist (A n) 0))) ∧
    call tol iterMax = .ok ⟨post (.fin (A k)), e k, k, decide ((k : ℤ) = iterMax)⟩ ∧
    (∀ j < k, (e j).gt tol ∧ (j : ℤ) < iterMax) ∧ ((e k).gt tol → iterMax ≤ k)

/-! ## Without rounding -/

theorem flLoop_exact {𝕜 : Type} [RCLike 𝕜] (step : Matrix (Fin p) (Fin p) 𝕜 → Py (FMat p 𝕜))
    (tol : ℝ) (iterMax : ℤ) (s : FPState p 𝕜) :
    flLoop (.exact p 𝕜) step tol iterMax s = fpLoop step tol iterMax s := by
  induction s using fpLoop.induct step tol iterMax with
  | case1 s h e he => rw [flLoop, fpLoop, if_pos h, if_pos h, he]
  | case2 s h new hn ih =>
    have e1 : (Rounding.exact p 𝕜).fmat s.iteration new = new := by cases new <;> rfl
    have e2 : ∀ d, (Rounding.exact p 𝕜).delta s.iteration d = d := fun d => by cases d <;> rfl
    rw [flLoop, fpLoop, if_pos h, if_pos h, hn]
    simp only [e1, e2]
    exact ih
  | case3 s h => rw [flLoop, fpLoop, if_neg h, if_neg h]

theorem flRunLoop_exact {𝕜 : Type} [RCLike 𝕜] (step : Matrix (Fin p) (Fin p) 𝕜 → Py (FMat p 𝕜))
    (tol : ℝ) (iterMax : ℤ) (sigma : Matrix (Fin p) (Fin p) 𝕜) :
    flRunLoop (.exact p 𝕜) step tol iterMax sigma = runLoop step tol iterMax sigma := by
  unfold flRunLoop runLoop
  rw [flLoop_exact]

/-- Without rounding the calls are the ones of the exact model. -/
theorem C157_exact :
    (∀ (env : NumEnv N p ℝ) X df init tol iterMax,
      studentFixedPointFl env (.exact p ℝ) X df init tol iterMax =
        studentFixedPoint env X df init tol iterMax) ∧
    (∀ (env : NumEnv N p ℂ) X df init tol iterMax,
      complexStudentFixedPointFl env (.exact p ℂ) X df init tol iterMax =
        complexStudentFixedPoint env X df init tol iterMax) := by
  refine ⟨fun env X df init tol iterMax => ?_, fun env X df init tol iterMax => ?_⟩
  · simp only [studentFixedPointFl, flRunLoop_exact]
    rfl
  · simp only [complexStudentFixedPointFl, flRunLoop_exact]
    rfl

/-- Without rounding the calls of Tyler's estimator are the ones of the exact model. -/
theorem C158_exact :
    (∀ (env : NumEnv N p ℝ) X init tol iterMax name,
      tylerFixedPointFl env (.exact p ℝ) X init tol iterMax name =
        tylerFixedPoint env X init tol iterMax name) ∧
    (∀ (env : NumEnv N p ℂ) X init tol iterMax name,
      complexTylerFixedPointFl env (.exact p ℂ) X init tol iterMax name =
        complexTylerFixedPoint env X init tol iterMax name) := by
  refine ⟨fun env X init tol iterMax name => ?_, fun env X init tol iterMax name => ?_⟩
  · simp only [tylerFixedPointFl, flRunLoop_exact]
    rfl
  · simp only [complexTylerFixedPointFl, flRunLoop_exact]
    rfl

theorem flSeq_of_within {𝕜 : Type} [RCLike 𝕜] {X : Matrix (Fin N) (Fin p) 𝕜} (hX : Spans X)
    {w : ℝ → ℝ} {u : ℝ} (hu : 0 ≤ u) {fl : Rounding p 𝕜} (hfl : fl.Within u)
    {init : Option (Matrix (Fin p) (Fin p) 𝕜)} (hi : ∀ A ∈ init, A.PosDef)
    {A : ℕ → Matrix (Fin p) (Fin p) 𝕜} (hA0 : A 0 = init.getD (fl.start (secondMoment X)))
    (hAs : ∀ k, A (k + 1) = fl.mat k (mStep w X (A k))) :
    FlSeq (mStep w X) (init.getD (secondMoment X)) u A := by
  have hM : ∀ T, (mStep w X T).IsHermitian := fun T => scatter_isHermitian _ _
  have hd0 : ∀ M : Matrix (Fin p) (Fin p) 𝕜, frobDist M 0 = frob M := fun M => by
    rw [frobDist_eq, sub_zero]
  refine ⟨fun k => ?_, ?_, fun k => ?_⟩
  · cases k with
    | zero =>
      rw [hA0]
      cases init with
      | none => exact hfl.start_hermitian _ (secondMoment_posDef hX).1
      | some T => exact (hi T rfl).1
    | succ k => rw [hAs]; exact hfl.mat_hermitian _ _ (hM _)
  · rw [hA0]
    cases init with
    | none =>
      have := hfl.start _ (secondMoment_posDef hX).1
      rwa [hd0] at this
    | some T =>
      simp only [Option.getD_some, sub_self]
      rw [(frob_eq_zero _).2 rfl]
      exact mul_nonneg hu (frob_nonneg _)
  · have := hfl.mat k _ (hM (A k))
    rwa [hd0, ← hAs] at this

/-! ## C157 -/

theorem contracting_stable {𝕜 : Type} [RCLike 𝕜] (hp : 0 < p) {w : ℝ → ℝ} {r : ℝ}
    {X : Matrix (Fin N) (Fin p) 𝕜} {S : Matrix (Fin p) (Fin p) 𝕜} (hX : Spans X) (hS : S.PosDef)
    (hc : Contracting (mStep w X) S r) (hr0 : 0 ≤ r) (hr1 : r < 1)
    {init : Option (Matrix (Fin p) (Fin p) 𝕜)}
    (hi : ∀ A ∈ init, A.PosDef) {step : Matrix (Fin p) (Fin p) 𝕜 → Py (FMat p 𝕜)}
    (hstep : IsMStep step w X) :
    StableCalls (fun fl tol iterMax =>
      flRunLoop fl step tol iterMax (init.getD (fl.start (secondMoment X)))) S := by
  have hi0 := getD_posDef hX hi
  obtain ⟨C, b, B, u0, hC, hb, hB, hu0, hmain⟩ := contracting_fl hp hS hi0 hc hr0 hr1
  obtain ⟨C', K, u1, hC', hu1, hle, hcalls⟩ := fl_calls (𝕜 := 𝕜) (p := p) hr0 hr1
    (by positivity : 0 ≤ (2 * C + 1) * (1 / b + B + 1)) hu0
  refine ⟨r, C', K, u1, hr0, hr1, hC', hu1, fun u hu huu fl hfl tol iterMax => ?_⟩
  obtain ⟨A, hA0, hAs⟩ : ∃ A : ℕ → Matrix (Fin p) (Fin p) 𝕜,
      A 0 = init.getD (fl.start (secondMoment X)) ∧
      ∀ k, A (k + 1) = fl.mat k (mStep w X (A k)) :=
    ⟨Nat.rec (init.getD (fl.start (secondMoment X)))
      (fun k M => fl.mat k (mStep w X M)), rfl, fun _ => rfl⟩
  have hseq : FlSeq (mStep w X) (init.getD (secondMoment X)) u A :=
    flSeq_of_within hX hu hfl hi hA0 hAs
  have hall := hmain u hu (huu.trans hle) A hseq.herm hseq.start fun k _ => hseq.step k
  have hpos : ∀ k, 0 < frob (A k) := fun k => hb.trans_le (hall k).2.1
  have hb0 : 0 ≤ 1 / b := by positivity
  have hrun : FlRun fl step A A S r ((2 * C + 1) * (1 / b + B + 1)) u := by
    refine ⟨fun k => ⟨_, hstep _ (hall k).1, (hAs k).symm⟩, hfl.err, hfl.err_nonneg, hpos,
      fun k => (hall k).1, fun k => ?_, fun k => ?_, fun k => ?_⟩
    · have h5 : 0 ≤ ((C + 1) + (2 * C + 1) * (1 / b + B)) * (r ^ k + u) := by positivity
      linarith [(hall k).2.2.2.1]
    · have e : A (k + 1) - A k = (A (k + 1) - S) - (A k - S) := by abel
      have h3 : r ^ (k + 1) ≤ r ^ k := pow_le_pow_of_le_one hr0 hr1.le (Nat.le_succ k)
      have h4 := mul_le_mul_of_nonneg_left h3 hC
      have h5 : 0 ≤ r ^ k := by positivity
      have h6 : frob (A (k + 1) - A k) ≤ (2 * C + 1) * (r ^ k + u) := by
        rw [e]
        refine (frob_sub_le _ _).trans ?_
        linarith [(hall k).2.2.2.1, (hall (k + 1)).2.2.2.1]
      have h7 : frob (A (k + 1) - A k) / frob (A k) ≤ (2 * C + 1) * (r ^ k + u) / b :=
        div_le_div₀ (by positivity) h6 hb (hall k).2.1
      have h8 : 0 ≤ (2 * C + 1) * (B + 1) * (r ^ k + u) := by positivity
      refine h7.trans ?_
      rw [div_eq_mul_one_div]
      linarith
    · have e : A (k + 1) - S = (A (k + 1) - A k) + (A k - S) := by abel
      have hd : 0 ≤ frob (A (k + 1) - A k) / frob (A k) := div_nonneg (frob_nonneg _) (hpos k).le
      have h6 : frob (A (k + 1) - A k) ≤ B * (frob (A (k + 1) - A k) / frob (A k)) := by
        have h7 := mul_le_mul_of_nonneg_right (hall k).2.2.1 hd
        rwa [mul_div_cancel₀ _ (hpos k).ne'] at h7
      have h5 : 0 ≤ C * (frob (A (k + 1) - A k) + u) :=
        mul_nonneg hC (add_nonneg (frob_nonneg _) hu)
      rw [e]
      refine (frob_add_le _ _).trans ?_
      set d := frob (A (k + 1) - A k) / frob (A k)
      have h8 : (C + 1) * (frob (A (k + 1) - A k) + u) ≤ (C + 1) * (B * d + u) :=
        mul_le_mul_of_nonneg_left (by linarith) (by linarith)
      have h9 : 0 ≤ C * (B * d + u) + (C + 1) * (B * u + d) + (2 * C + 1) * (1 / b) * (d + u) +
        C * (B * u + d) := by positivity
      linarith [(hall k).2.2.2.2]
  exact hcalls u hu huu fl step A A S tol iterMax _ hrun fun k δ w h => by
    show flRunLoop fl step tol iterMax (init.getD (fl.start (secondMoment X))) = _
    rw [← hA0]
    exact h

theorem student_stable {𝕜 : Type} [RCLike 𝕜] (hp : 0 < p) {nu : ℝ} (hnu : 0 < nu)
    {X : Matrix (Fin N) (Fin p) 𝕜} {S : Matrix (Fin p) (Fin p) 𝕜} (hX : Spans X) (hS : S.PosDef)
    (hfix : mStep (wStudent nu p) X S = S) {init : Option (Matrix (Fin p) (Fin p) 𝕜)}
    (hi : ∀ A ∈ init, A.PosDef) {step : Matrix (Fin p) (Fin p) 𝕜 → Py (FMat p 𝕜)}
    (hstep : IsMStep step (wStudent nu p) X) :
    StableCalls (fun fl tol iterMax =>
      flRunLoop fl step tol iterMax (init.getD (fl.start (secondMoment X)))) S := by
  obtain ⟨r, hr0, hr1, hc⟩ := student_contracting hnu X hS hfix
  exact contracting_stable hp hX hS hc hr0 hr1 hi hstep

/-- The Student-t estimator on real data that have an estimate (the condition of `C102_real`): its
calls are stable under rounding errors, from every positive definite starting point. -/
theorem C157_student_real (env : NumEnv N p ℝ) (hs : env.eigh.Ok) (X : Matrix (Fin N) (Fin p) ℝ)
    (hp : 0 < p) (df : ℝ) (hdf : 0 < df)
    (H : ∀ V : Submodule ℝ (Fin p → ℝ), V ≠ ⊤ →
      (df / 2 + p) * samplesIn X V < N * (df / 2 + Module.finrank ℝ V)) :
    ∃ S : Matrix (Fin p) (Fin p) ℝ, S.PosDef ∧
      EstimateOf (fun X init tol iterMax => studentFixedPoint env X df init tol iterMax) X S ∧
      ∀ init : Option (Matrix (Fin p) (Fin p) ℝ), (∀ A ∈ init, A.PosDef) →
        StableCalls (fun fl tol iterMax => studentFixedPointFl env fl X df init tol iterMax) S := by
  obtain ⟨S, hS, hfix⟩ := student_exists (half_pos hdf) hp X H
  have hsp := student_spans X H
  refine ⟨S, hS, estimateOf_student_real env hs X hp df hdf hsp hS hfix, fun init hi => ?_⟩
  have := student_stable hp (half_pos hdf) hsp hS hfix hi (studentStep_isMStep hs hdf X)
  rw [secondMoment_eq, ← empiricalCovariance_eq] at this
  simp only [studentFixedPointFl, if_neg (not_le.2 hdf)]
  exact this

/-- Complex data (the condition of `C102_complex`). -/
theorem C157_student_complex (env : NumEnv N p ℂ) (hs : env.eigh.Ok) (X : Matrix (Fin N) (Fin p) ℂ)
    (hp : 0 < p) (df : ℝ) (hdf : 0 < df)
    (H : ∀ V : Submodule ℂ (Fin p → ℂ), V ≠ ⊤ →
      (df + p) * samplesIn X V < N * (df + Module.finrank ℂ V)) :
    ∃ S : Matrix (Fin p) (Fin p) ℂ, S.PosDef ∧
      EstimateOf (fun X init tol iterMax => complexStudentFixedPoint env X df init tol iterMax) X S ∧
      ∀ init : Option (Matrix (Fin p) (Fin p) ℂ), (∀ A ∈ init, A.PosDef) →
        StableCalls (fun fl tol iterMax => complexStudentFixedPointFl env fl X df init tol iterMax)
          S := by
  obtain ⟨S, hS, hfix⟩ := student_exists hdf hp X H
  have hsp := student_spans X H
  refine ⟨S, hS, estimateOf_student_complex env hs X hp df hdf hsp hS hfix, fun init hi => ?_⟩
  have := student_stable hp hdf hsp hS hfix hi (complexStudentStep_isMStep hs hdf X)
  rw [secondMoment_eq, ← complexEmpiricalCovariance_eq] at this
  simp only [complexStudentFixedPointFl, if_neg (not_le.2 hdf)]
  exact this

theorem followsRun {𝕜 : Type} [RCLike 𝕜] {w : ℝ → ℝ} (hp : 0 < p) {X : Matrix (Fin N) (Fin p) 𝕜}
    {step : Matrix (Fin p) (Fin p) 𝕜 → Py (FMat p 𝕜)} (hstep : IsMStep step w X) {fl : Rounding p 𝕜}
    {A : ℕ → Matrix (Fin p) (Fin p) 𝕜} (hA : ∀ k, A (k + 1) = fl.mat k (mStep w X (A k)))
    (hP : ∀ k, (A k).PosDef) {call : ℝ → ℤ → Py (FPOut p 𝕜)} {post : FMat p 𝕜 → FMat p 𝕜}
    (hcall : ∀ tol iterMax out, flRunLoop fl step tol iterMax (A 0) = .ok out →
      call tol iterMax = .ok { out with sigma := post out.sigma }) :
    FollowsRun call fl A post := by
  intro tol iterMax
  obtain ⟨d, hd⟩ : ∃ d : ℕ → ℝ, d = fun n => fl.err n (frob (A (n + 1) - A n) / frob (A n)) := ⟨_, rfl⟩
  obtain ⟨k, k1, k2, k3, k4⟩ := flRunLoop_run (fl := fl) (step := step) (A := A) (d := d)
    (fun k => ⟨_, hstep _ (hP k), (hA k).symm⟩)
    (fun k => by rw [hd]; simp only [relErr, if_neg (frob_pos hp (hP k)).ne', Rounding.delta])
    tol iterMax
  refine ⟨k, seqDelta d, rfl, fun n => ?_, hcall _ _ _ k1, fun j hj => ⟨k2 j hj, ?_⟩, fun h => ?_⟩
  · rw [frobDist_eq, frobDist_eq, sub_zero]
    simp only [seqDelta, hd]
  · have := k4 (by omega)
    omega
  · by_contra hcon
    exact k3 (by omega) h

/-- With rounding errors the Student-t call stores the matrices one expects. -/
theorem C157_run_real (env : NumEnv N p ℝ) (hs : env.eigh.Ok) (X : Matrix (Fin N) (Fin p) ℝ)
    (hp : 0 < p) (df : ℝ) (hdf : 0 < df) (init : Option (Matrix (Fin p) (Fin p) ℝ))
    (fl : Rounding p ℝ) (A : ℕ → Matrix (Fin p) (Fin p) ℝ)
    (h0 : A 0 = init.getD (fl.start (secondMoment X)))
    (hA : ∀ k, A (k + 1) = fl.mat k (mStep (wStudent (df / 2) p) X (A k))) (hP : ∀ k, (A k).PosDef) :
    FollowsRun (fun tol iterMax => studentFixedPointFl env fl X df init tol iterMax) fl A id := by
  refine followsRun hp (studentStep_isMStep hs hdf X) hA hP fun tol iterMax out h => ?_
  rw [h0, secondMoment_eq, ← empiricalCovariance_eq] at h
  simp only [studentFixedPointFl, if_neg (not_le.2 hdf)]
  exact h

/-- Complex data. -/
theorem C157_run_complex (env : NumEnv N p ℂ) (hs : env.eigh.Ok) (X : Matrix (Fin N) (Fin p) ℂ)
    (hp : 0 < p) (df : ℝ) (hdf : 0 < df) (init : Option (Matrix (Fin p) (Fin p) ℂ))
    (fl : Rounding p ℂ) (A : ℕ → Matrix (Fin p) (Fin p) ℂ)
    (h0 : A 0 = init.getD (fl.start (secondMoment X)))
    (hA : ∀ k, A (k + 1) = fl.mat k (mStep (wStudent df p) X (A k))) (hP : ∀ k, (A k).PosDef) :
    FollowsRun (fun tol iterMax => complexStudentFixedPointFl env fl X df init tol iterMax) fl A id := by
  refine followsRun hp (complexStudentStep_isMStep hs hdf X) hA hP fun tol iterMax out h => ?_
  rw [h0, secondMoment_eq, ← complexEmpiricalCovariance_eq] at h
  simp only [complexStudentFixedPointFl, if_neg (not_le.2 hdf)]
  exact h

/-! ## C158 -/

theorem tyler_stable {𝕜 : Type} [RCLike 𝕜] (name : String)
    (hname : name = "trace" ∨ name = "determinant" ∨ name = "element") (hp : 0 < p)
    {X : Matrix (Fin N) (Fin p) 𝕜} {S S' : Matrix (Fin p) (Fin p) 𝕜} (hX : Spans X)
    (hn : NonzeroSamples X) (hI : Indecomposable X) (hS : S.PosDef)
    (hS' : FMat.normalise name (.fin S) = .fin S') (hfix : mStep (wTyler p) X S = S)
    {init : Option (Matrix (Fin p) (Fin p) 𝕜)} (hi : ∀ A ∈ init, A.PosDef)
    {step : Matrix (Fin p) (Fin p) 𝕜 → Py (FMat p 𝕜)} (hstep : IsMStep step (wTyler p) X)
    {call : Rounding p 𝕜 → ℝ → ℤ → Py (FPOut p 𝕜)}
    (hcall : ∀ fl tol iterMax out,
      flRunLoop fl step tol iterMax (init.getD (fl.start (secondMoment X))) = .ok out →
        call fl tol iterMax = .ok { out with sigma := out.sigma.normalise name }) :
    StableCalls call S' := by
  have hi0 := getD_posDef hX hi
  obtain ⟨r, C, u0, hr0, hr1, hC, hu0, hmain⟩ := tyler_fl name hname hp hX hn hI hS hS' hi0 hfix
  obtain ⟨C', K, u1, hC', hu1, hle, hcalls⟩ := fl_calls (𝕜 := 𝕜) (p := p) hr0 hr1 hC hu0
  refine ⟨r, C', K, u1, hr0, hr1, hC', hu1, fun u hu huu fl hfl tol iterMax => ?_⟩
  obtain ⟨A, hA0, hAs⟩ : ∃ A : ℕ → Matrix (Fin p) (Fin p) 𝕜,
      A 0 = init.getD (fl.start (secondMoment X)) ∧
      ∀ k, A (k + 1) = fl.mat k (mStep (wTyler p) X (A k)) :=
    ⟨Nat.rec (init.getD (fl.start (secondMoment X)))
      (fun k M => fl.mat k (mStep (wTyler p) X M)), rfl, fun _ => rfl⟩
  have hseq : FlSeq (mStep (wTyler p) X) (init.getD (secondMoment X)) u A :=
    flSeq_of_within hX hu hfl hi hA0 hAs
  obtain ⟨res, hres⟩ : ∃ res : ℕ → Matrix (Fin p) (Fin p) 𝕜, (∀ k, (A k).PosDef) →
      ∀ k, FMat.normalise name (.fin (A k)) = .fin (res k) ∧ (res k).PosDef := by
    by_cases h : ∀ k, (A k).PosDef
    · choose res h1 h2 using fun k => C31_posDef name hp (A k) (h k)
      exact ⟨res, fun _ k => ⟨h1 k, h2 k⟩⟩
    · exact ⟨A, fun h' => absurd h' h⟩
  have hall := hmain u A hu (huu.trans hle) hseq res fun h k => (hres h k).1
  have hP : ∀ k, (A k).PosDef := fun k => (hall k).1
  have hrun : FlRun fl step A res S' r C u :=
    ⟨fun k => ⟨_, hstep _ (hP k), (hAs k).symm⟩, hfl.err, hfl.err_nonneg, fun k => frob_pos hp (hP k),
      fun k => (hres hP k).2, fun k => (hall k).2.2.1, fun k => (hall k).2.1, fun k => (hall k).2.2.2⟩
  exact hcalls u hu huu fl step A res S' tol iterMax _ hrun fun k δ w h => by
    rw [hA0] at h
    rw [hcall fl tol iterMax _ h, (hres hP k).1]

/-- Tyler's estimator with one of the three normalisations, on real data whose estimate is unique up to a
factor (the condition of `C101_real`): its calls are stable under rounding errors, from every positive
definite starting point. The errors may change the scale of the iterates without limit; the
normalisation of the result removes it. -/
theorem C158_tyler_real (env : NumEnv N p ℝ) (hs : env.eigh.Ok) (X : Matrix (Fin N) (Fin p) ℝ)
    (hN : 0 < N) (hp : 0 < p) (hn : NonzeroSamples X)
    (H : ∀ V : Submodule ℝ (Fin p → ℝ), V ≠ ⊥ → V ≠ ⊤ →
      p * samplesIn X V < N * Module.finrank ℝ V) (name : String)
    (hname : name = "trace" ∨ name = "determinant" ∨ name = "element") :
    ∃ S : Matrix (Fin p) (Fin p) ℝ, S.PosDef ∧
      EstimateOf (fun X init tol iterMax => tylerFixedPoint env X init tol iterMax name) X S ∧
      ∀ init : Option (Matrix (Fin p) (Fin p) ℝ), (∀ A ∈ init, A.PosDef) →
        StableCalls (fun fl tol iterMax => tylerFixedPointFl env fl X init tol iterMax name) S := by
  obtain ⟨S, hS, hfix⟩ := tyler_exists hp hN X hn H
  obtain ⟨S', hS', hP'⟩ := C31_posDef name hp S hS
  refine ⟨S', hP', estimateOf_tyler_real env hs X hN hp hn H name hname hS hfix hS', fun init hi => ?_⟩
  refine tyler_stable name hname hp (tyler_spans hN X hn H) hn (count_indecomposable X H) hS hS' hfix hi
    (tylerStep_isMStep hs hn) fun fl tol iterMax out h => ?_
  rw [secondMoment_eq, ← empiricalCovariance_eq] at h
  simp only [tylerFixedPointFl, h]
  rfl

/-- Complex data (the condition of `C101_complex`). -/
theorem C158_tyler_complex (env : NumEnv N p ℂ) (hs : env.eigh.Ok) (X : Matrix (Fin N) (Fin p) ℂ)
    (hN : 0 < N) (hp : 0 < p) (hn : NonzeroSamples X)
    (H : ∀ V : Submodule ℂ (Fin p → ℂ), V ≠ ⊥ → V ≠ ⊤ →
      p * samplesIn X V < N * Module.finrank ℂ V) (name : String)
    (hname : name = "trace" ∨ name = "determinant" ∨ name = "element") :
    ∃ S : Matrix (Fin p) (Fin p) ℂ, S.PosDef ∧
      EstimateOf (fun X init tol iterMax => complexTylerFixedPoint env X init tol iterMax name) X S ∧
      ∀ init : Option (Matrix (Fin p) (Fin p) ℂ), (∀ A ∈ init, A.PosDef) →
        StableCalls (fun fl tol iterMax => complexTylerFixedPointFl env fl X init tol iterMax name)
          S := by
  obtain ⟨S, hS, hfix⟩ := tyler_exists hp hN X hn H
  obtain ⟨S', hS', hP'⟩ := C31_posDef name hp S hS
  refine ⟨S', hP', estimateOf_tyler_complex env hs X hN hp hn H name hname hS hfix hS',
    fun init hi => ?_⟩
  refine tyler_stable name hname hp (tyler_spans hN X hn H) hn (count_indecomposable X H) hS hS' hfix hi
    (complexTylerStep_isMStep hs hn) fun fl tol iterMax out h => ?_
  rw [secondMoment_eq, ← complexEmpiricalCovariance_eq] at h
  simp only [complexTylerFixedPointFl, h]
  rfl

/-- With rounding errors Tyler's call stores the matrices one expects. -/
theorem C158_run_real (env : NumEnv N p ℝ) (hs : env.eigh.Ok) (X : Matrix (Fin N) (Fin p) ℝ)
    (hp : 0 < p) (hn : NonzeroSamples X) (name : String) (init : Option (Matrix (Fin p) (Fin p) ℝ))
    (fl : Rounding p ℝ) (A : ℕ → Matrix (Fin p) (Fin p) ℝ)
    (h0 : A 0 = init.getD (fl.start (secondMoment X)))
    (hA : ∀ k, A (k + 1) = fl.mat k (mStep (wTyler p) X (A k))) (hP : ∀ k, (A k).PosDef) :
    FollowsRun (fun tol iterMax => tylerFixedPointFl env fl X init tol iterMax name) fl A
      (FMat.normalise name) := by
  refine followsRun hp (tylerStep_isMStep hs hn) hA hP fun tol iterMax out h => ?_
  rw [h0, secondMoment_eq, ← empiricalCovariance_eq] at h
  simp only [tylerFixedPointFl, h]
  rfl

/-- Complex data. -/
theorem C158_run_complex (env : NumEnv N p ℂ) (hs : env.eigh.Ok) (X : Matrix (Fin N) (Fin p) ℂ)
    (hp : 0 < p) (hn : NonzeroSamples X) (name : String) (init : Option (Matrix (Fin p) (Fin p) ℂ))
    (fl : Rounding p ℂ) (A : ℕ → Matrix (Fin p) (Fin p) ℂ)
    (h0 : A 0 = init.getD (fl.start (secondMoment X)))
    (hA : ∀ k, A (k + 1) = fl.mat k (mStep (wTyler p) X (A k))) (hP : ∀ k, (A k).PosDef) :
    FollowsRun (fun tol iterMax => complexTylerFixedPointFl env fl X init tol iterMax name) fl A
      (FMat.normalise name) := by
  refine followsRun hp (complexTylerStep_isMStep hs hn) hA hP fun tol iterMax out h => ?_
  rw [h0, secondMoment_eq, ← complexEmpiricalCovariance_eq] at h
  simp only [complexTylerFixedPointFl, h]
  rfl

/-! ## Examples -/

/-- An arithmetic that rounds: everything is stored a little too large. -/
def scaledUp (p : ℕ) (u : ℝ) : Rounding p ℝ :=
  ⟨fun M => (1 + u) • M, fun _ M => (1 + u) • M, fun _ d => (1 + u) * d⟩

theorem scaledUp_within {u : ℝ} (hu : 0 ≤ u) : (scaledUp p u).Within u := by
  have hd : ∀ M : Matrix (Fin p) (Fin p) ℝ, frobDist ((1 + u) • M) M ≤ u * frobDist M 0 := fun M => by
    have e : (1 + u) • M - M = ((u : ℝ) : ℝ) • M := by rw [add_smul, one_smul, add_sub_cancel_left]
    rw [frobDist_eq, frobDist_eq, sub_zero, e]
    exact le_of_eq ((frob_smul (𝕜 := ℝ) u M).trans (by rw [abs_of_nonneg hu]))
  refine ⟨fun M hM => hM.smul rfl, fun M _ => hd M, fun _ M hM => hM.smul rfl, fun _ M _ => hd M,
    fun _ d h => mul_nonneg (by linarith) h, fun _ d h => ?_⟩
  have e : (1 + u) * d - d = u * d := by ring
  show |(1 + u) * d - d| ≤ _
  rw [e, abs_of_nonneg (mul_nonneg hu h)]
  nlinarith

/-- The hypotheses can be met: three directions in the plane, every number stored a little too large.
If the errors are small enough the iteration still reaches the tolerance `1e-4`. -/
example (env : NumEnv 3 2 ℝ) (hs : env.eigh.Ok) :
    ∃ u : ℝ, 0 < u ∧ (scaledUp 2 u).Within u ∧ ∃ n : ℤ, ∀ iterMax, n < iterMax → ∃ result d iteration,
      studentFixedPointFl env (scaledUp 2 u) (mercedes ℝ) 3 none (1 / 10000) iterMax =
        .ok ⟨.fin result, .fin d, iteration, false⟩ ∧ d ≤ 1 / 10000 := by
  obtain ⟨S, -, -, h⟩ := C157_student_real env hs (mercedes ℝ) two_pos 3 (by norm_num)
    (generalPosition_student mercedes_generalPosition (by norm_num) (by norm_num))
  obtain ⟨r, C, K, u0, -, -, hC, hu0, h⟩ := h none (by simp)
  have hu : 0 < min u0 (1 / 10000 / (C + 1)) := lt_min hu0 (by positivity)
  refine ⟨_, hu, scaledUp_within hu.le, ?_⟩
  obtain ⟨n, hn⟩ := exists_nat_gt (K * (1 + Real.log (1 / (1 / 10000))))
  refine ⟨n, fun iterMax hm => ?_⟩
  have hm' : (n : ℝ) < (iterMax : ℝ) := by exact_mod_cast hm
  obtain ⟨-, h2, -⟩ := h _ hu.le (min_le_left _ _) _ (scaledUp_within hu.le) (1 / 10000) iterMax
  obtain ⟨result, d, iteration, a1, a2, -⟩ := h2 (by norm_num) (by
    have h3 := min_le_right u0 (1 / 10000 / (C + 1))
    rw [le_div_iff₀ (by linarith)] at h3
    linarith) (by norm_num) (hn.trans hm')
  exact ⟨result, d, iteration, a1, a2⟩

/-- The same with Tyler's estimator and the trace normalisation. -/
example (env : NumEnv 3 2 ℝ) (hs : env.eigh.Ok) :
    ∃ u : ℝ, 0 < u ∧ (scaledUp 2 u).Within u ∧ ∃ n : ℤ, ∀ iterMax, n < iterMax → ∃ result d iteration,
      tylerFixedPointFl env (scaledUp 2 u) (mercedes ℝ) none (1 / 10000) iterMax "trace" =
        .ok ⟨.fin result, .fin d, iteration, false⟩ ∧ d ≤ 1 / 10000 := by
  obtain ⟨S, -, -, h⟩ := C158_tyler_real env hs (mercedes ℝ) (by norm_num) two_pos
    (generalPosition_nonzero mercedes_generalPosition two_pos)
    (generalPosition_tyler mercedes_generalPosition (by norm_num)) "trace" (Or.inl rfl)
  obtain ⟨r, C, K, u0, -, -, hC, hu0, h⟩ := h none (by simp)
  have hu : 0 < min u0 (1 / 10000 / (C + 1)) := lt_min hu0 (by positivity)
  refine ⟨_, hu, scaledUp_within hu.le, ?_⟩
  obtain ⟨n, hn⟩ := exists_nat_gt (K * (1 + Real.log (1 / (1 / 10000))))
  refine ⟨n, fun iterMax hm => ?_⟩
  have hm' : (n : ℝ) < (iterMax : ℝ) := by exact_mod_cast hm
  obtain ⟨-, h2, -⟩ := h _ hu.le (min_le_left _ _) _ (scaledUp_within hu.le) (1 / 10000) iterMax
  obtain ⟨result, d, iteration, a1, a2, -⟩ := h2 (by norm_num) (by
    have h3 := min_le_right u0 (1 / 10000 / (C + 1))
    rw [le_div_iff₀ (by linarith)] at h3
    linarith) (by norm_num) (hn.trans hm')
  exact ⟨result, d, iteration, a1, a2⟩

/-- The matrices stored by a call whose results are all stored a little too large are positive
definite. -/
example (env : NumEnv 3 2 ℝ) (hs : env.eigh.Ok) : ∃ A : ℕ → Matrix (Fin 2) (Fin 2) ℝ,
    FollowsRun (fun tol iterMax => studentFixedPointFl env (scaledUp 2 (1 / 1000)) (mercedes ℝ) 3 none
      tol iterMax) (scaledUp 2 (1 / 1000)) A id := by
  have hX : Spans (mercedes ℝ) := student_spans (nu := 3 / 2) (mercedes ℝ)
    (generalPosition_student mercedes_generalPosition (by norm_num) (by norm_num))
  have hsc : ∀ M : Matrix (Fin 2) (Fin 2) ℝ, M.PosDef → ((1 + 1 / 1000 : ℝ) • M).PosDef := fun M hM =>
    hM.smul (by norm_num)
  let A : ℕ → Matrix (Fin 2) (Fin 2) ℝ := Nat.rec ((1 + 1 / 1000 : ℝ) • secondMoment (mercedes ℝ))
    fun _ M => (1 + 1 / 1000 : ℝ) • mStep (wStudent (3 / 2) 2) (mercedes ℝ) M
  refine ⟨A, C157_run_real env hs (mercedes ℝ) two_pos 3 (by norm_num) none _ A rfl (fun k => rfl)
    fun k => ?_⟩
  induction k with
  | zero => exact hsc _ (secondMoment_posDef hX)
  | succ k ih =>
    exact hsc _ (mStep_posDef _ _ hX _ fun i => wStudent_pos (mercedes ℝ) (by norm_num) ih i)

end
end RS
