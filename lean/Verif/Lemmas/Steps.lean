import Verif.Lemmas.MStep
import Verif.Lemmas.FixedPoint

/-! The bodies of the six loops are M-estimation steps. -/
set_option autoImplicit false

namespace RS
open Matrix ComplexOrder

/-- On positive definite matrices `step` is the M-estimation step with weight `w`. -/
def IsMStep {𝕜 : Type} [RCLike 𝕜] {N p : ℕ} (step : Matrix (Fin p) (Fin p) 𝕜 → Py (FMat p 𝕜))
    (w : ℝ → ℝ) (X : Matrix (Fin N) (Fin p) 𝕜) : Prop :=
  ∀ S, S.PosDef → step S = .ok (.fin (mStep w X S))

section
variable {N p : ℕ}

theorem tauReal_eq {eigh : Eigh (Fin p) ℝ} (hs : eigh.Ok) (X : Matrix (Fin N) (Fin p) ℝ)
    {S : Matrix (Fin p) (Fin p) ℝ} (hS : S.PosDef) (i : Fin N) :
    tauReal eigh X S i = qf S (sample X i) := by
  rw [← tau_eq hs X hS i]
  simp only [tauReal, conjTranspose_eq_transpose_of_trivial]
  rfl

theorem tauComplex_eq {eigh : Eigh (Fin p) ℂ} (hs : eigh.Ok) (X : Matrix (Fin N) (Fin p) ℂ)
    {S : Matrix (Fin p) (Fin p) ℂ} (hS : S.PosDef) (i : Fin N) :
    tauComplex eigh X S i = qf S (sample X i) := by
  rw [← tau_eq hs X hS i]
  rfl

theorem pos_of_sample {𝕜 : Type} [RCLike 𝕜] {X : Matrix (Fin N) (Fin p) 𝕜} {i : Fin N}
    (h : sample X i ≠ 0) : 0 < p := by
  by_contra hp
  apply h
  funext j
  exact absurd j.2 (by omega)

theorem scatter_of_temp_real (c : ℝ) (w t : Fin N → ℝ) (X : Matrix (Fin N) (Fin p) ℝ)
    (ht : ∀ i, 0 < t i) (hc : ∀ i, c * (t i)⁻¹ = (N : ℝ)⁻¹ * w i) :
    (c • (of fun (j : Fin p) (i : Fin N) => Xᵀ j i / Real.sqrt (t i))) *
      (of fun (j : Fin p) (i : Fin N) => Xᵀ j i / Real.sqrt (t i))ᵀ = scatter w X := by
  have := scatter_of_temp (𝕜 := ℝ) c w t X ht hc
  rw [conjTranspose_eq_transpose_of_trivial] at this
  exact this

theorem tylerStep_isMStep {env : NumEnv N p ℝ} (hs : env.eigh.Ok) {X : Matrix (Fin N) (Fin p) ℝ}
    (hX : NonzeroSamples X) : IsMStep (fun s => .ok (tylerStep env X s)) (wTyler p) X := by
  intro S hS
  have hq : ∀ i, 0 < (1 / (p : ℝ)) * qf S (sample X i) := fun i => by
    have hp : (0 : ℝ) < p := by exact_mod_cast pos_of_sample (hX i)
    have := qf_pos hS (hX i)
    positivity
  simp only [tylerStep, if_pos (regular_of_posDef hs hS), tauReal_eq hs X hS]
  rw [if_neg (by rintro ⟨i, hi⟩; exact (hq i).ne' hi)]
  congr 2
  refine scatter_of_temp_real _ _ (fun i => (1 / (p : ℝ)) * qf S (sample X i)) X hq fun i => ?_
  simp only [wTyler, one_div, mul_inv, inv_inv]
  rw [div_eq_mul_inv]

theorem complexTylerStep_isMStep {env : NumEnv N p ℂ} (hs : env.eigh.Ok)
    {X : Matrix (Fin N) (Fin p) ℂ} (hX : NonzeroSamples X) :
    IsMStep (fun s => .ok (complexTylerStep env X s)) (wTyler p) X := by
  intro S hS
  have hq : ∀ i, 0 < (1 / (p : ℝ)) * qf S (sample X i) := fun i => by
    have hp : (0 : ℝ) < p := by exact_mod_cast pos_of_sample (hX i)
    have := qf_pos hS (hX i)
    positivity
  simp only [complexTylerStep, if_pos (regular_of_posDef hs hS), tauComplex_eq hs X hS]
  rw [if_neg (by rintro ⟨i, hi⟩; exact (hq i).ne' hi)]
  congr 2
  refine scatter_of_temp (𝕜 := ℂ) _ _ (fun i => (1 / (p : ℝ)) * qf S (sample X i)) X hq fun i => ?_
  simp only [wTyler]
  push_cast
  simp only [one_div, mul_inv, inv_inv]
  rw [div_eq_mul_inv]

theorem studentStep_isMStep {env : NumEnv N p ℝ} (hs : env.eigh.Ok) {df : ℝ} (hdf : 0 < df)
    (X : Matrix (Fin N) (Fin p) ℝ) :
    IsMStep (fun s => .ok (studentStep env df X s)) (wStudent (df / 2) p) X := by
  intro S hS
  have hq : ∀ i, 0 < df / 2 + qf S (sample X i) := fun i => by
    have := qf_nonneg hS (sample X i)
    positivity
  simp only [studentStep, if_pos (regular_of_posDef hs hS), tauReal_eq hs X hS]
  congr 2
  refine scatter_of_temp_real _ _ (fun i => df / 2 + qf S (sample X i)) X hq fun i => ?_
  simp only [wStudent, div_eq_mul_inv]
  ring

theorem complexStudentStep_isMStep {env : NumEnv N p ℂ} (hs : env.eigh.Ok) {df : ℝ} (hdf : 0 < df)
    (X : Matrix (Fin N) (Fin p) ℂ) :
    IsMStep (fun s => .ok (complexStudentStep env df X s)) (wStudent df p) X := by
  intro S hS
  have hq : ∀ i, 0 < df + qf S (sample X i) := fun i => by
    have := qf_nonneg hS (sample X i)
    positivity
  simp only [complexStudentStep, if_pos (regular_of_posDef hs hS), tauComplex_eq hs X hS]
  congr 2
  refine scatter_of_temp (𝕜 := ℂ) _ _ (fun i => df + qf S (sample X i)) X hq fun i => ?_
  simp only [wStudent, div_eq_mul_inv, RCLike.ofReal_eq_complex_ofReal]
  push_cast
  ring

theorem huber_inv_weight {x lbda beta : ℝ} (hl : 0 < lbda) (hb : 0 < beta) (hx : 0 ≤ x) :
    (0 < (1 / beta) * (if x = 0 then 1 else min 1 (lbda / x))) ∧
    ((1 / beta) * (if x = 0 then 1 else min 1 (lbda / x)))⁻¹ = wHuber lbda beta x := by
  unfold wHuber
  split_ifs with h0
  · subst h0
    simp [hb]
  · have hx' : 0 < x := lt_of_le_of_ne hx (Ne.symm h0)
    have hm : 0 < min 1 (lbda / x) := lt_min one_pos (by positivity)
    refine ⟨by positivity, ?_⟩
    rw [mul_inv, one_div, inv_inv]
    congr 1
    rcases le_total x lbda with h | h
    · rw [min_eq_left ((one_le_div hx').2 h), max_eq_left ((div_le_one hl).2 h), inv_one]
    · rw [min_eq_right ((div_le_one hx').2 h), max_eq_right ((one_le_div hl).2 h), inv_div]

theorem huberStep_isMStep {env : NumEnv N p ℝ} (hs : env.eigh.Ok) {lbda beta : ℝ} (hl : 0 < lbda)
    (hb : 0 < beta) (X : Matrix (Fin N) (Fin p) ℝ) :
    IsMStep (huberStep env (.fin lbda beta) X) (wHuber lbda beta) X := by
  intro S hS
  have hc : ¬ (lbda ≤ 0 ∨ beta < 0) := by rintro (h | h) <;> linarith
  simp only [huberStep, if_neg hc, if_pos (regular_of_posDef hs hS), tauReal_eq hs X hS, huberFn,
    if_neg hb.ne', divSqrt]
  congr 2
  refine scatter_of_temp_real _ _ (fun i => (1 / beta) *
    (if qf S (sample X i) = 0 then 1 else min 1 (lbda / qf S (sample X i)))) X
    (fun i => (huber_inv_weight hl hb (qf_nonneg hS _)).1) fun i => ?_
  rw [(huber_inv_weight hl hb (qf_nonneg hS _)).2, one_div]

theorem complexHuberStep_isMStep {env : NumEnv N p ℂ} (hs : env.eigh.Ok) {lbda beta : ℝ}
    (hl : 0 < lbda) (hb : 0 < beta) (X : Matrix (Fin N) (Fin p) ℂ) :
    IsMStep (complexHuberStep env (.fin lbda beta) X) (wHuber lbda beta) X := by
  intro S hS
  have hc : ¬ (lbda ≤ 0 ∨ beta < 0) := by rintro (h | h) <;> linarith
  simp only [complexHuberStep, if_neg hc, if_pos (regular_of_posDef hs hS), tauComplex_eq hs X hS,
    huberFn, if_neg hb.ne', divSqrt]
  congr 2
  refine scatter_of_temp (𝕜 := ℂ) _ _ (fun i => (1 / beta) *
    (if qf S (sample X i) = 0 then 1 else min 1 (lbda / qf S (sample X i)))) X
    (fun i => (huber_inv_weight hl hb (qf_nonneg hS _)).1) fun i => ?_
  have := (huber_inv_weight hl hb (qf_nonneg hS (sample X i))).2
  rw [one_div, ← RCLike.ofReal_inv, this]

/-! ### A zero sample -/

theorem tylerStep_zero (env : NumEnv N p ℝ) (X : Matrix (Fin N) (Fin p) ℝ) (i : Fin N)
    (hi : ∀ j, X i j = 0) (S : Matrix (Fin p) (Fin p) ℝ) : tylerStep env X S = .nan := by
  unfold tylerStep
  split_ifs with h
  · exact if_pos ⟨i, by simp [tauReal, Matrix.mul_apply, hi]⟩
  · unfold NumEnv.degStep
    rw [if_pos ⟨i, hi⟩]

theorem complexTylerStep_zero (env : NumEnv N p ℂ) (X : Matrix (Fin N) (Fin p) ℂ) (i : Fin N)
    (hi : ∀ j, X i j = 0) (S : Matrix (Fin p) (Fin p) ℂ) : complexTylerStep env X S = .nan := by
  unfold complexTylerStep
  split_ifs with h
  · exact if_pos ⟨i, by simp [tauComplex, Matrix.mul_apply, hi]⟩
  · unfold NumEnv.degStep
    rw [if_pos ⟨i, hi⟩]

/-- A body that returns NaN at the first iteration. -/
theorem runLoop_nan {𝕜 : Type} [RCLike 𝕜] {step : Matrix (Fin p) (Fin p) 𝕜 → Py (FMat p 𝕜)}
    (tol : ℝ) (iterMax : ℤ) (hi : 0 < iterMax) (init : Matrix (Fin p) (Fin p) 𝕜)
    (h : step init = .ok .nan) :
    runLoop step tol iterMax init = .ok ⟨.nan, .nan, 1, (1 : ℤ) == iterMax⟩ := by
  have h1 : fpLoop step tol iterMax ⟨.fin init, .inf, 0⟩ = .ok ⟨.nan, .nan, 1⟩ := by
    rw [fpLoop, if_pos ⟨trivial, by simpa using hi⟩]
    simp only [stepSig, h]
    rw [fpLoop, if_neg (by simp [relErr, Delta.gt])]
    simp [relErr]
  unfold runLoop
  rw [h1]
  rfl

/-! ### Weights are positive -/

theorem wTyler_pos {𝕜 : Type} [RCLike 𝕜] {X : Matrix (Fin N) (Fin p) 𝕜} (hX : NonzeroSamples X)
    {S : Matrix (Fin p) (Fin p) 𝕜} (hS : S.PosDef) (i : Fin N) :
    0 < wTyler p (qf S (sample X i)) := by
  have hp : (0 : ℝ) < p := by exact_mod_cast pos_of_sample (hX i)
  exact div_pos hp (qf_pos hS (hX i))

theorem wStudent_pos {𝕜 : Type} [RCLike 𝕜] (X : Matrix (Fin N) (Fin p) 𝕜) {nu : ℝ} (hnu : 0 < nu)
    {S : Matrix (Fin p) (Fin p) 𝕜} (hS : S.PosDef) (i : Fin N) :
    0 < wStudent nu p (qf S (sample X i)) := by
  have := qf_nonneg hS (sample X i)
  unfold wStudent
  positivity

theorem wHuber_pos {𝕜 : Type} [RCLike 𝕜] (X : Matrix (Fin N) (Fin p) 𝕜) {lbda beta : ℝ}
    (hb : 0 < beta) {S : Matrix (Fin p) (Fin p) 𝕜} (i : Fin N) :
    0 < wHuber lbda beta (qf S (sample X i)) :=
  mul_pos hb (lt_max_of_lt_left one_pos)

/-- A loop whose body is an M-estimation step with positive weights on spanning data keeps
positive definite matrices positive definite. -/
def PosWeights {𝕜 : Type} [RCLike 𝕜] (w : ℝ → ℝ) (X : Matrix (Fin N) (Fin p) 𝕜) : Prop :=
  ∀ S : Matrix (Fin p) (Fin p) 𝕜, S.PosDef → ∀ i, 0 < w (qf S (sample X i))

theorem IsMStep.keeps {𝕜 : Type} [RCLike 𝕜] {step : Matrix (Fin p) (Fin p) 𝕜 → Py (FMat p 𝕜)}
    {w : ℝ → ℝ} {X : Matrix (Fin N) (Fin p) 𝕜} (h : IsMStep step w X) (hX : Spans X)
    (hw : PosWeights w X) :
    ∀ M : Matrix (Fin p) (Fin p) 𝕜, M.PosDef → ∃ M', step M = .ok (.fin M') ∧ M'.PosDef :=
  fun M hM => ⟨_, h M hM, mStep_posDef w X hX M (hw M hM)⟩

/-- Default initial points. -/
theorem empiricalCovariance_eq (X : Matrix (Fin N) (Fin p) ℝ) :
    empiricalCovariance X = scatter (fun _ => 1) X := by
  ext a b
  rw [scatter_apply]
  simp [empiricalCovariance, Matrix.mul_apply]

theorem complexEmpiricalCovariance_eq (X : Matrix (Fin N) (Fin p) ℂ) :
    complexEmpiricalCovariance X true = scatter (fun _ => 1) X := by
  ext a b
  rw [scatter_apply]
  simp [complexEmpiricalCovariance, dotCov, Matrix.mul_apply]

end
end RS
