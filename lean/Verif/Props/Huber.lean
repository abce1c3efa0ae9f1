import Verif.Lemmas.Demo
import Verif.Lemmas.Runs

/-
Huber's weight function (C41) and the weights of the Huber fixed-point iteration (C42).
-/
set_option autoImplicit false

namespace RS
open Matrix ComplexOrder

/-! ## C41 -/

/-- `AssertionError` exactly for `lbda <= 0` or `beta < 0`, whatever the distance. -/
theorem C41_raises (x lbda beta : ℝ) (e : PyErr) :
    huberFn x lbda beta = .error e ↔ (lbda ≤ 0 ∨ beta < 0) ∧ e = .assertionError := by
  unfold huberFn
  split_ifs with h
  · constructor
    · intro he; cases he; exact ⟨h, rfl⟩
    · rintro ⟨-, rfl⟩; rfl
  · constructor
    · intro he; cases he
    · rintro ⟨h', -⟩; exact absurd h' h

/-- `1/beta` up to the threshold, `lbda/(beta x)` beyond. -/
theorem C41_value (x lbda beta : ℝ) (hx : 0 ≤ x) (hl : 0 < lbda) (hb : 0 < beta) :
    (x ≤ lbda → huberFn x lbda beta = .ok (.fin (1 / beta))) ∧
    (lbda < x → huberFn x lbda beta = .ok (.fin (lbda / (beta * x)))) := by
  have hc : ¬ (lbda ≤ 0 ∨ beta < 0) := by rintro (h | h) <;> linarith
  simp only [huberFn, if_neg hc, if_neg hb.ne']
  constructor
  · intro h
    split_ifs with h0
    · simp
    · have hx' : 0 < x := lt_of_le_of_ne hx (Ne.symm h0)
      rw [min_eq_left ((one_le_div hx').2 h), mul_one]
  · intro h
    have hx' : 0 < x := by linarith
    rw [if_neg hx'.ne', min_eq_right ((div_le_one hx').2 h.le)]
    congr 2
    field_simp

/-- Non-increasing in the distance, positive, bounded by `1/beta`. -/
theorem C41_antitone (x y lbda beta u v : ℝ) (hx : 0 ≤ x) (hxy : x ≤ y) (hl : 0 < lbda)
    (hb : 0 < beta) (hu : huberFn x lbda beta = .ok (.fin u))
    (hv : huberFn y lbda beta = .ok (.fin v)) : 0 < v ∧ v ≤ u ∧ u ≤ 1 / beta := by
  have hy : 0 ≤ y := hx.trans hxy
  obtain ⟨hx1, hx2⟩ := C41_value x lbda beta hx hl hb
  obtain ⟨hy1, hy2⟩ := C41_value y lbda beta hy hl hb
  rcases le_or_gt y lbda with h | h
  · rw [hx1 (hxy.trans h)] at hu
    rw [hy1 h] at hv
    cases hu; cases hv
    exact ⟨by positivity, le_rfl, le_rfl⟩
  · rw [hy2 h] at hv
    cases hv
    have hy' : 0 < y := by linarith
    refine ⟨by positivity, ?_⟩
    rcases le_or_gt x lbda with h' | h'
    · rw [hx1 h'] at hu
      cases hu
      refine ⟨?_, le_rfl⟩
      rw [div_le_div_iff₀ (by positivity) hb]
      nlinarith
    · rw [hx2 h'] at hu
      cases hu
      have hx' : 0 < x := by linarith
      constructor
      · apply div_le_div_of_nonneg_left hl.le (by positivity)
        exact mul_le_mul_of_nonneg_left hxy hb.le
      · rw [div_le_div_iff₀ (by positivity) hb]
        nlinarith

/-- The case `beta = 0` passes the assertions and gives an infinite weight. -/
theorem C41_beta_zero (x lbda : ℝ) (hl : 0 < lbda) : huberFn x lbda 0 = .ok .inf := by
  have hc : ¬ (lbda ≤ 0 ∨ (0 : ℝ) < 0) := by rintro (h | h) <;> linarith
  simp [huberFn, not_le.2 hl]

example : huberFn 4 2 1 = .ok (.fin (2 / (1 * 4))) := (C41_value 4 2 1 (by norm_num) (by norm_num)
  (by norm_num)).2 (by norm_num)

/-! ## C42 -/

section
variable {N p : ℕ}

/-- What the loop really applies: the weight `beta * max(1, q/lbda)`, the inverse of Huber's
weight, so it grows with the distance of the sample. -/
theorem C42_actual_weight (env : NumEnv N p ℝ) (hs : env.eigh.Ok) (lbda beta : ℝ) (hl : 0 < lbda)
    (hb : 0 < beta) (X : Matrix (Fin N) (Fin p) ℝ) (S : Matrix (Fin p) (Fin p) ℝ) (hS : S.PosDef) :
    huberStep env (.fin lbda beta) X S =
      .ok (.fin (scatter (fun i => beta * max 1 (qf S (sample X i) / lbda)) X)) :=
  huberStep_isMStep hs hl hb X S hS

theorem C42_actual_weight_complex (env : NumEnv N p ℂ) (hs : env.eigh.Ok) (lbda beta : ℝ)
    (hl : 0 < lbda) (hb : 0 < beta) (X : Matrix (Fin N) (Fin p) ℂ) (S : Matrix (Fin p) (Fin p) ℂ)
    (hS : S.PosDef) :
    complexHuberStep env (.fin lbda beta) X S =
      .ok (.fin (scatter (fun i => beta * max 1 (qf S (sample X i) / lbda)) X)) :=
  complexHuberStep_isMStep hs hl hb X S hS

/-- The weight applied is the reciprocal of Huber's weight. -/
theorem C42_actual_weight_is_reciprocal (x lbda beta u : ℝ) (hx : 0 ≤ x) (hl : 0 < lbda)
    (hb : 0 < beta) (hu : huberFn x lbda beta = .ok (.fin u)) :
    beta * max 1 (x / lbda) = 1 / u := by
  have hc : ¬ (lbda ≤ 0 ∨ beta < 0) := by rintro (h | h) <;> linarith
  have h := huber_inv_weight hl hb hx
  simp only [huberFn, if_neg hc, if_neg hb.ne'] at hu
  cases hu
  rw [one_div, h.2]
  rfl

/-- It is not Huber's estimator: one sample `2` at distance 4 from `S = 1`, threshold 1 and
`beta = 1`. Huber's weight is `1/4`, the update should be `1`; the code computes `16`. -/
theorem C42_violated (env : NumEnv 1 1 ℝ) (hs : env.eigh.Ok) :
    let X : Matrix (Fin 1) (Fin 1) ℝ := !![2]
    huberFn (qf 1 (sample X 0)) 1 1 = .ok (.fin (1 / 4)) ∧
    scatter (fun _ => 1 / 4) X = !![1] ∧
    huberStep env (.fin 1 1) X 1 = .ok (.fin !![16]) := by
  have hq : qf (1 : Matrix (Fin 1) (Fin 1) ℝ) (sample !![2] 0) = 4 := by
    simp [qf, sample, dotProduct]
    norm_num
  refine ⟨?_, ?_, ?_⟩
  · rw [hq, (C41_value 4 1 1 (by norm_num) (by norm_num) (by norm_num)).2 (by norm_num)]
    norm_num
  · ext i j
    fin_cases i; fin_cases j
    rw [scatter_apply]
    simp
    norm_num
  · rw [C42_actual_weight env hs 1 1 one_pos one_pos _ _ PosDef.one]
    congr 2
    ext i j
    fin_cases i; fin_cases j
    rw [scatter_apply]
    simp [hq]
    norm_num

/-- What remains: when no sample is beyond the threshold the update is a constant multiple of
the one with Huber's weight. Missing: any sample beyond the threshold (see `C42_violated`). -/
theorem C42_partial (env : NumEnv N p ℝ) (hs : env.eigh.Ok) (lbda beta : ℝ) (hl : 0 < lbda)
    (hb : 0 < beta) (X : Matrix (Fin N) (Fin p) ℝ) (S : Matrix (Fin p) (Fin p) ℝ) (hS : S.PosDef)
    (hq : ∀ i, qf S (sample X i) ≤ lbda) (u : Fin N → ℝ)
    (hu : ∀ i, huberFn (qf S (sample X i)) lbda beta = .ok (.fin (u i))) :
    huberStep env (.fin lbda beta) X S = .ok (.fin (beta ^ 2 • scatter u X)) := by
  rw [C42_actual_weight env hs lbda beta hl hb X S hS]
  congr 2
  ext a b
  rw [Matrix.smul_apply, scatter_apply, scatter_apply, smul_eq_mul, mul_left_comm]
  congr 1
  rw [Finset.mul_sum]
  apply Finset.sum_congr rfl
  intro i _
  have h1 := hu i
  rw [(C41_value _ lbda beta (qf_nonneg hS _) hl hb).1 (hq i)] at h1
  have h2 : u i = 1 / beta := (PFloat.fin.inj (Except.ok.inj h1)).symm
  rw [h2, max_eq_left ((div_le_one hl).2 (hq i))]
  simp
  field_simp

/-- C42 beyond the threshold: four samples, `S = diag(1,4)`, threshold 6. -/
example (env : NumEnv 4 2 ℝ) (hs : env.eigh.Ok) :
    huberStep env (.fin 6 (1 / 2)) (demoX ℝ) (demoS ℝ) = .ok (.fin (scatter
      (fun i => 1 / 2 * max 1 (qf (demoS ℝ) (sample (demoX ℝ) i) / 6)) (demoX ℝ))) :=
  C42_actual_weight env hs 6 (1 / 2) (by norm_num) (by norm_num) _ _ demoS_posDef

/-- The hypotheses of `C42_partial` are met: one sample of length 1, threshold 2. -/
example (env : NumEnv 1 1 ℝ) (hs : env.eigh.Ok) :
    huberStep env (.fin 2 3) (1 : Matrix (Fin 1) (Fin 1) ℝ) (1 : Matrix (Fin 1) (Fin 1) ℝ) =
      .ok (.fin ((3 : ℝ) ^ 2 • scatter (fun _ => 1 / 3) (1 : Matrix (Fin 1) (Fin 1) ℝ))) := by
  have hq : ∀ i, qf (1 : Matrix (Fin 1) (Fin 1) ℝ) (sample (1 : Matrix (Fin 1) (Fin 1) ℝ) i) = 1 := by
    intro i
    fin_cases i
    simp [qf, sample, dotProduct]
  refine C42_partial env hs 2 3 (by norm_num) (by norm_num) 1 1 PosDef.one
    (fun i => by rw [hq]; norm_num) (fun _ => 1 / 3) fun i => ?_
  rw [hq]
  exact (C41_value 1 2 3 (by norm_num) (by norm_num) (by norm_num)).1 (by norm_num)

end
end RS
