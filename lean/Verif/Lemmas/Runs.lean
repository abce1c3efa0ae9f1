import Verif.Lemmas.Steps

/-! The outputs of the six fixed-point functions as iterates of the M-estimation step, and the
simulation argument behind invariance and equivariance. -/
set_option autoImplicit false

namespace RS
open Matrix ComplexOrder

section
variable {𝕜 : Type} [RCLike 𝕜] {N p : ℕ}

theorem secondMoment_eq (X : Matrix (Fin N) (Fin p) 𝕜) :
    secondMoment X = scatter (fun _ => 1) X := by
  simp [secondMoment, scatter]

theorem secondMoment_posDef {X : Matrix (Fin N) (Fin p) 𝕜} (hX : Spans X) :
    (secondMoment X).PosDef := by
  rw [secondMoment_eq]; exact scatter_posDef _ (fun _ => one_pos) X hX

theorem frob_pos (hp : 0 < p) {S : Matrix (Fin p) (Fin p) 𝕜} (hS : S.PosDef) : 0 < frob S := by
  unfold frob
  apply Real.sqrt_pos.2
  have h := hS.diag_pos (i := ⟨0, hp⟩)
  have h2 : 0 < ‖S ⟨0, hp⟩ ⟨0, hp⟩‖ ^ 2 := by
    have := norm_pos_iff.2 h.ne'
    positivity
  refine lt_of_lt_of_le h2 ?_
  refine le_trans ?_ (Finset.single_le_sum (f := fun i => ∑ j, ‖S i j‖ ^ 2)
    (fun i _ => Finset.sum_nonneg fun j _ => sq_nonneg _) (Finset.mem_univ (⟨0, hp⟩ : Fin p)))
  exact Finset.single_le_sum (f := fun j => ‖S ⟨0, hp⟩ j‖ ^ 2) (fun j _ => sq_nonneg _)
    (Finset.mem_univ (⟨0, hp⟩ : Fin p))

theorem relErr_fin (hp : 0 < p) {S : Matrix (Fin p) (Fin p) 𝕜} (hS : S.PosDef)
    (S' : Matrix (Fin p) (Fin p) 𝕜) :
    relErr (.fin S') (.fin S) = .fin (frob (S' - S) / frob S) := by
  simp only [relErr, if_neg (frob_pos hp hS).ne']

open Classical in
theorem runLoop_isMRun {step : Matrix (Fin p) (Fin p) 𝕜 → Py (FMat p 𝕜)} {w : ℝ → ℝ}
    {X : Matrix (Fin N) (Fin p) 𝕜} (hp : 0 < p) (h : IsMStep step w X) (hX : Spans X)
    (hw : PosWeights w X) (tol : ℝ) (iterMax : ℤ) {init : Matrix (Fin p) (Fin p) 𝕜}
    (hi : init.PosDef) :
    ∃ sigma delta iteration, runLoop step tol iterMax init =
      .ok ⟨.fin sigma, delta, iteration, (iteration : ℤ) == iterMax⟩ ∧
      IsMRun w X tol iterMax init sigma delta iteration := by
  obtain ⟨o1, ho1⟩ := runLoop_total (fun M => if M.PosDef then step M else .ok .nan) tol iterMax init
    (fun M => by
      by_cases hM : M.PosDef
      · rw [if_pos hM]; exact ⟨_, h M hM⟩
      · rw [if_neg hM]; exact ⟨_, rfl⟩)
  have hsim := runLoop_sim (fun M => if M.PosDef then step M else .ok .nan) step tol iterMax
    (fun a b => a = b ∧ a.PosDef) (fun a b hab => by
      obtain ⟨rfl, ha⟩ := hab
      obtain ⟨M', hM', hP⟩ := h.keeps hX hw a ha
      refine Or.inr (Or.inr ⟨M', M', by simp only [if_pos ha, hM'], hM', ⟨rfl, hP⟩, rfl⟩))
    init init ⟨rfl, hi⟩
  rcases hsim with ⟨e, h1, -⟩ | ⟨o, out, -, ho, -⟩
  · rw [ho1] at h1; cases h1
  obtain ⟨⟨tr, hr⟩, hwarn⟩ := runLoop_run step tol iterMax init out ho
  have key : ∀ k ≤ out.iteration, tr k = .fin (mIter w X init k) ∧ (mIter w X init k).PosDef := by
    intro k
    induction k with
    | zero => intro _; exact ⟨hr.start, hi⟩
    | succ k ih =>
      intro hk
      obtain ⟨h1, h2⟩ := ih (by omega)
      have hn := hr.next k (by omega)
      rw [h1, stepSig, h _ h2] at hn
      cases hn' : tr (k + 1) with
      | nan => rw [hn'] at hn; cases hn
      | fin M =>
        rw [hn'] at hn
        cases hn
        exact ⟨rfl, mStep_posDef w X hX _ (hw _ h2)⟩
  obtain ⟨sg, dl, it, wn⟩ := out
  simp only at hr hwarn key
  have hsg : sg = .fin (mIter w X init it) := by rw [hr.result, (key it le_rfl).1]
  subst hsg
  subst hwarn
  refine ⟨_, dl, it, ho, ⟨rfl, fun k hk => (key k hk).2, hr.err_zero, fun k hk => ?_,
    fun k hk => ?_, hr.bound, hr.stopped⟩⟩
  · rw [hr.err_succ' k hk, (key (k + 1) (by omega)).1, (key k (by omega)).1,
      relErr_fin hp (key k (by omega)).2]
    rfl
  · have := hr.continued' k hk
    rw [(key (k + 1) (by omega)).1, (key k (by omega)).1, relErr_fin hp (key k (by omega)).2] at this
    exact this

/-- Two M-estimation loops related by a bijection-like relation give related outputs. -/
theorem runLoop_transfer {𝕜' : Type} [RCLike 𝕜'] {N' p' : ℕ}
    {step : Matrix (Fin p) (Fin p) 𝕜 → Py (FMat p 𝕜)} {w : ℝ → ℝ} {X : Matrix (Fin N) (Fin p) 𝕜}
    {step' : Matrix (Fin p') (Fin p') 𝕜' → Py (FMat p' 𝕜')} {w' : ℝ → ℝ}
    {X' : Matrix (Fin N') (Fin p') 𝕜'}
    (h : IsMStep step w X) (hX : Spans X) (hw : PosWeights w X) (h' : IsMStep step' w' X')
    (f : Matrix (Fin p) (Fin p) 𝕜 → Matrix (Fin p') (Fin p') 𝕜')
    (hf : ∀ S, S.PosDef → (f S).PosDef)
    (hm : ∀ S, S.PosDef → mStep w' X' (f S) = f (mStep w X S))
    (he : ∀ a b, relErr (.fin (f a)) (.fin (f b)) = relErr (.fin a) (.fin b))
    (tol : ℝ) (iterMax : ℤ) {init : Matrix (Fin p) (Fin p) 𝕜} (hi : init.PosDef) :
    ∃ sigma delta iteration warned, sigma.PosDef ∧
      runLoop step tol iterMax init = .ok ⟨.fin sigma, delta, iteration, warned⟩ ∧
      runLoop step' tol iterMax (f init) = .ok ⟨.fin (f sigma), delta, iteration, warned⟩ := by
  classical
  obtain ⟨o1, ho1⟩ := runLoop_total (fun M => if M.PosDef then step M else .ok .nan) tol iterMax init
    (fun M => by
      by_cases hM : M.PosDef
      · rw [if_pos hM]; exact ⟨_, h M hM⟩
      · rw [if_neg hM]; exact ⟨_, rfl⟩)
  have hsim0 := runLoop_sim (fun M => if M.PosDef then step M else .ok .nan) step tol iterMax
    (fun a b => a = b ∧ a.PosDef) (fun a b hab => by
      obtain ⟨rfl, ha⟩ := hab
      obtain ⟨M', hM', hP⟩ := h.keeps hX hw a ha
      refine Or.inr (Or.inr ⟨M', M', by simp only [if_pos ha, hM'], hM', ⟨rfl, hP⟩, rfl⟩))
    init init ⟨rfl, hi⟩
  have hsim := runLoop_sim step step' tol iterMax (fun a b => a.PosDef ∧ b = f a)
    (fun a b hab => by
      obtain ⟨ha, rfl⟩ := hab
      refine Or.inr (Or.inr ⟨_, _, h a ha, h' _ (hf a ha), ⟨mStep_posDef w X hX a (hw a ha), hm a ha⟩, ?_⟩)
      rw [hm a ha, he])
    init (f init) ⟨hi, rfl⟩
  rcases hsim with ⟨e, h1, -⟩ | ⟨⟨s, d, i, wn⟩, ⟨s', d', i', wn'⟩, h1, h2, e1, e2, e3, h3⟩
  · rcases hsim0 with ⟨e', h2, -⟩ | ⟨o, out, -, ho, -⟩
    · rw [ho1] at h2; cases h2
    · rw [h1] at ho; cases ho
  · simp only at e1 e2 e3 h3
    subst e1 e2 e3
    rcases h3 with ⟨hn, -⟩ | ⟨a, b, rfl, rfl, ha, rfl⟩
    · exfalso
      rcases hsim0 with ⟨e', h2', -⟩ | ⟨o, out, _, ho, -, -, -, h5⟩
      · rw [ho1] at h2'; cases h2'
      · rw [h1] at ho
        cases ho
        rcases h5 with ⟨h6, h7⟩ | ⟨a, b, h6, h7, -⟩
        · obtain ⟨⟨tr, hr⟩, -⟩ := runLoop_run step tol iterMax init _ h1
          obtain ⟨M, hM, -⟩ := hr.invariant _ hi (h.keeps hX hw) i le_rfl
          have := hr.result
          simp only at this
          rw [hM, hn] at this
          cases this
        · simp only at h7; rw [hn] at h7; cases h7
    · exact ⟨a, d, i, wn, ha, h1, h2⟩

end

/-! ### The six functions -/

section
variable {N p : ℕ}

/-- The body of the loop. -/
noncomputable def RealEst.step (e : RealEst) (env : NumEnv N p ℝ) (c : Chi2)
    (X : Matrix (Fin N) (Fin p) ℝ) : Matrix (Fin p) (Fin p) ℝ → Py (FMat p ℝ) :=
  match e with
  | .tyler _ => fun s => .ok (tylerStep env X s)
  | .student df => fun s => .ok (studentStep env df X s)
  | .huber q => huberStep env (huberPar c q p) X

theorem huberPar_eq (c : Chi2) {q : ℝ} (h : 0 < q ∧ q < 1) :
    huberPar c q p = .fin (c.ppf q p / 2) (c.cdf (c.ppf q p) (p + 1) + c.ppf q p * (1 - q) / p) := by
  unfold huberPar
  rw [if_pos ⟨h.1.le, h.2⟩]
  have : 2 * (c.ppf q p / 2) = c.ppf q p := by ring
  simp only [this]

theorem complexHuberPar_eq (c : Chi2) {q : ℝ} (h : 0 < q ∧ q < 1) :
    complexHuberPar c q p = .fin (c.ppf q (2 * p) / 2)
      (c.cdf (c.ppf q (2 * p)) (2 * p + 2) + c.ppf q (2 * p) * (1 - q) / (2 * p)) := by
  unfold complexHuberPar
  rw [if_pos ⟨h.1.le, h.2⟩]
  have : 2 * (c.ppf q (2 * p) / 2) = c.ppf q (2 * p) := by ring
  simp only [this]
  congr 2
  field_simp

theorem huber_beta_pos {c : Chi2} (hc : c.Ok) {q : ℝ} (h : 0 < q ∧ q < 1) (hp : 0 < p) :
    0 < c.ppf q p / 2 ∧ 0 < c.cdf (c.ppf q p) (p + 1) + c.ppf q p * (1 - q) / p := by
  have hl := hc.ppf_pos q p h.1 h.2 hp
  have hp' : (0 : ℝ) < p := by exact_mod_cast hp
  have h1 : 0 < 1 - q := by linarith [h.2]
  have := hc.cdf_nonneg (c.ppf q p) (p + 1)
  exact ⟨by positivity, by positivity⟩

theorem complexHuber_beta_pos {c : Chi2} (hc : c.Ok) {q : ℝ} (h : 0 < q ∧ q < 1) (hp : 0 < p) :
    0 < c.ppf q (2 * p) / 2 ∧
      0 < c.cdf (c.ppf q (2 * p)) (2 * p + 2) + c.ppf q (2 * p) * (1 - q) / (2 * p) := by
  have hl := hc.ppf_pos q (2 * p) h.1 h.2 (by omega)
  have hp' : (0 : ℝ) < p := by exact_mod_cast hp
  have h1 : 0 < 1 - q := by linarith [h.2]
  have := hc.cdf_nonneg (c.ppf q (2 * p)) (2 * p + 2)
  exact ⟨by positivity, by positivity⟩

theorem RealEst.isMStep (e : RealEst) {env : NumEnv N p ℝ} (hs : env.eigh.Ok) {c : Chi2}
    (hc : c.Ok) {X : Matrix (Fin N) (Fin p) ℝ} (hp : 0 < p) (hv : e.Valid X) :
    IsMStep (e.step env c X) (e.weight c p) X ∧ PosWeights (e.weight c p) X := by
  cases e with
  | tyler _ => exact ⟨tylerStep_isMStep hs hv, fun S hS i => wTyler_pos hv hS i⟩
  | student df =>
    exact ⟨studentStep_isMStep hs hv X, fun S hS i => wStudent_pos X (half_pos hv) hS i⟩
  | huber q =>
    obtain ⟨h1, h2⟩ := huber_beta_pos hc hv hp
    refine ⟨?_, fun S hS i => wHuber_pos X h2 i⟩
    have := huberStep_isMStep hs h1 h2 X
    rw [← huberPar_eq c hv] at this
    exact this

theorem RealEst.run_eq (e : RealEst) (env : NumEnv N p ℝ) (c : Chi2)
    (X : Matrix (Fin N) (Fin p) ℝ) (hv : e.Valid X) (init : Option (Matrix (Fin p) (Fin p) ℝ))
    (tol : ℝ) (iterMax : ℤ) :
    e.run env c X init tol iterMax =
      (runLoop (e.step env c X) tol iterMax (init.getD (secondMoment X))).map
        fun o => { o with sigma := o.sigma.normalise e.normalisation } := by
  have hn : ∀ s : FMat p ℝ, s.normalise "None" = s := by
    intro s
    cases s with
    | nan => rfl
    | fin S =>
      have e1 : ("None" = "trace") = False := by decide +kernel
      have e2 : ("None" = "determinant") = False := by decide +kernel
      have e3 : ("None" = "element") = False := by decide +kernel
      simp [FMat.normalise, normFn, e1, e2, e3]
  rw [secondMoment_eq, ← empiricalCovariance_eq]
  cases e with
  | tyler nm =>
    simp only [RealEst.run, tylerFixedPoint, RealEst.step, RealEst.normalisation]
    cases runLoop (fun s => Except.ok (tylerStep env X s)) tol iterMax
      (init.getD (empiricalCovariance X)) <;> rfl
  | student df =>
    simp only [RealEst.run, studentFixedPoint, if_neg (not_le.2 (show 0 < df from hv)),
      RealEst.step, RealEst.normalisation, hn]
    cases runLoop (fun s => Except.ok (studentStep env df X s)) tol iterMax
      (init.getD (empiricalCovariance X)) <;> rfl
  | huber q =>
    simp only [RealEst.run, huberFixedPoint, RealEst.step, RealEst.normalisation, hn]
    cases runLoop (huberStep env (huberPar c q p) X) tol iterMax
      (init.getD (empiricalCovariance X)) <;> rfl

/-- The body of the loop. -/
noncomputable def ComplexEst.step (e : ComplexEst) (env : NumEnv N p ℂ) (c : Chi2)
    (X : Matrix (Fin N) (Fin p) ℂ) : Matrix (Fin p) (Fin p) ℂ → Py (FMat p ℂ) :=
  match e with
  | .tyler _ => fun s => .ok (complexTylerStep env X s)
  | .student df => fun s => .ok (complexStudentStep env df X s)
  | .huber q => complexHuberStep env (complexHuberPar c q p) X

theorem ComplexEst.isMStep (e : ComplexEst) {env : NumEnv N p ℂ} (hs : env.eigh.Ok) {c : Chi2}
    (hc : c.Ok) {X : Matrix (Fin N) (Fin p) ℂ} (hp : 0 < p) (hv : e.Valid X) :
    IsMStep (e.step env c X) (e.weight c p) X ∧ PosWeights (e.weight c p) X := by
  cases e with
  | tyler _ => exact ⟨complexTylerStep_isMStep hs hv, fun S hS i => wTyler_pos hv hS i⟩
  | student df =>
    exact ⟨complexStudentStep_isMStep hs hv X, fun S hS i => wStudent_pos X hv hS i⟩
  | huber q =>
    obtain ⟨h1, h2⟩ := complexHuber_beta_pos hc hv hp
    refine ⟨?_, fun S hS i => wHuber_pos X h2 i⟩
    have := complexHuberStep_isMStep hs h1 h2 X
    rw [← complexHuberPar_eq c hv] at this
    exact this

theorem ComplexEst.run_eq (e : ComplexEst) (env : NumEnv N p ℂ) (c : Chi2)
    (X : Matrix (Fin N) (Fin p) ℂ) (hv : e.Valid X) (init : Option (Matrix (Fin p) (Fin p) ℂ))
    (tol : ℝ) (iterMax : ℤ) :
    e.run env c X init tol iterMax =
      (runLoop (e.step env c X) tol iterMax (init.getD (secondMoment X))).map
        fun o => { o with sigma := o.sigma.normalise e.normalisation } := by
  have hn : ∀ s : FMat p ℂ, s.normalise "None" = s := by
    intro s
    cases s with
    | nan => rfl
    | fin S =>
      have e1 : ("None" = "trace") = False := by decide +kernel
      have e2 : ("None" = "determinant") = False := by decide +kernel
      have e3 : ("None" = "element") = False := by decide +kernel
      simp [FMat.normalise, normFn, e1, e2, e3]
  rw [secondMoment_eq, ← complexEmpiricalCovariance_eq]
  cases e with
  | tyler nm =>
    simp only [ComplexEst.run, complexTylerFixedPoint, ComplexEst.step, ComplexEst.normalisation]
    cases runLoop (fun s => Except.ok (complexTylerStep env X s)) tol iterMax
      (init.getD (complexEmpiricalCovariance X true)) <;> rfl
  | student df =>
    simp only [ComplexEst.run, complexStudentFixedPoint, if_neg (not_le.2 (show 0 < df from hv)),
      ComplexEst.step, ComplexEst.normalisation, hn]
    cases runLoop (fun s => Except.ok (complexStudentStep env df X s)) tol iterMax
      (init.getD (complexEmpiricalCovariance X true)) <;> rfl
  | huber q =>
    simp only [ComplexEst.run, complexHuberFixedPoint, ComplexEst.step, ComplexEst.normalisation, hn]
    cases runLoop (complexHuberStep env (complexHuberPar c q p) X) tol iterMax
      (init.getD (complexEmpiricalCovariance X true)) <;> rfl

theorem getD_posDef {𝕜 : Type} [RCLike 𝕜] {X : Matrix (Fin N) (Fin p) 𝕜} (hX : Spans X)
    {init : Option (Matrix (Fin p) (Fin p) 𝕜)} (hi : ∀ S ∈ init, S.PosDef) :
    (init.getD (secondMoment X)).PosDef := by
  cases init with
  | none => exact secondMoment_posDef hX
  | some S => exact hi S rfl

end
end RS
