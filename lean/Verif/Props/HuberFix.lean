import Verif.Lemmas.HuberConverge
import Verif.Props.Converge

/-
The estimates of the Huber iterations: existence and uniqueness (C103), convergence (C104).
-/
set_option autoImplicit false

namespace RS
open Matrix ComplexOrder Filter Topology

section
variable {N p : ℕ}

/-! ## C103 -/

theorem huber_exists_unique_iff {𝕜 : Type} [RCLike 𝕜] {lbda beta : ℝ} (hl : 0 < lbda)
    (hb : 0 < beta) (hp : 0 < p) (X : Matrix (Fin N) (Fin p) 𝕜) :
    (∃ S : Matrix (Fin p) (Fin p) 𝕜, S.PosDef ∧ mStep (wHuber lbda beta) X S = S ∧
      ∀ S' : Matrix (Fin p) (Fin p) 𝕜, S'.PosDef → mStep (wHuber lbda beta) X S' = S' → S' = S) ↔
    Spans X := by
  constructor
  · rintro ⟨S, hS, h, -⟩
    rw [← h] at hS
    exact spans_of_scatter hS
  · intro hX
    obtain ⟨S, hS, h⟩ := huber_exists hl hb hp X hX
    exact ⟨S, hS, h, fun S' hS' h' => mono_unique (wHuber_monotone hl hb)
      (fun t => mul_pos hb (lt_max_of_lt_left one_pos)) hp X hS' hS h' h⟩

/-- Real data: the iteration has exactly one positive definite fixed point if and only if the
samples span the space. -/
theorem C103_real (env : NumEnv N p ℝ) (hs : env.eigh.Ok) (c : Chi2) (hc : c.Ok)
    (X : Matrix (Fin N) (Fin p) ℝ) (hp : 0 < p) (q : ℝ) (hq0 : 0 < q) (hq1 : q < 1) (tol : ℝ) :
    (∃ S : Matrix (Fin p) (Fin p) ℝ, S.PosDef ∧
      Returns (huberFixedPoint env c X q (some S) tol 1) S ∧
      ∀ S' : Matrix (Fin p) (Fin p) ℝ, S'.PosDef →
        Returns (huberFixedPoint env c X q (some S') tol 1) S' → S' = S) ↔
    Spans X := by
  obtain ⟨hl, hb⟩ := huber_beta_pos hc ⟨hq0, hq1⟩ hp
  have hr : ∀ S : Matrix (Fin p) (Fin p) ℝ, S.PosDef →
      (Returns (huberFixedPoint env c X q (some S) tol 1) S ↔ mStep (wHuber _ _) X S = S) :=
    fun S hS => run_one_real_eq (.huber q) hs hc hp ⟨hq0, hq1⟩ rfl hS tol S
  rw [← huber_exists_unique_iff hl hb hp X]
  constructor
  · rintro ⟨S, hS, h1, h2⟩
    exact ⟨S, hS, (hr S hS).1 h1, fun S' hS' h' => h2 S' hS' ((hr S' hS').2 h')⟩
  · rintro ⟨S, hS, h1, h2⟩
    exact ⟨S, hS, (hr S hS).2 h1, fun S' hS' h' => h2 S' hS' ((hr S' hS').1 h')⟩

/-- Complex data. -/
theorem C103_complex (env : NumEnv N p ℂ) (hs : env.eigh.Ok) (c : Chi2) (hc : c.Ok)
    (X : Matrix (Fin N) (Fin p) ℂ) (hp : 0 < p) (q : ℝ) (hq0 : 0 < q) (hq1 : q < 1) (tol : ℝ) :
    (∃ S : Matrix (Fin p) (Fin p) ℂ, S.PosDef ∧
      Returns (complexHuberFixedPoint env c X q (some S) tol 1) S ∧
      ∀ S' : Matrix (Fin p) (Fin p) ℂ, S'.PosDef →
        Returns (complexHuberFixedPoint env c X q (some S') tol 1) S' → S' = S) ↔
    Spans X := by
  obtain ⟨hl, hb⟩ := complexHuber_beta_pos hc ⟨hq0, hq1⟩ hp
  have hr : ∀ S : Matrix (Fin p) (Fin p) ℂ, S.PosDef →
      (Returns (complexHuberFixedPoint env c X q (some S) tol 1) S ↔ mStep (wHuber _ _) X S = S) :=
    fun S hS => run_one_complex_eq (.huber q) hs hc hp ⟨hq0, hq1⟩ rfl hS tol S
  rw [← huber_exists_unique_iff hl hb hp X]
  constructor
  · rintro ⟨S, hS, h1, h2⟩
    exact ⟨S, hS, (hr S hS).1 h1, fun S' hS' h' => h2 S' hS' ((hr S' hS').2 h')⟩
  · rintro ⟨S, hS, h1, h2⟩
    exact ⟨S, hS, (hr S hS).2 h1, fun S' hS' h' => h2 S' hS' ((hr S' hS').1 h')⟩

/-- Real data: the estimate is the plain second moment times `beta` if and only if no sample has
`x^T M^{-1} x > lbda beta`, `M` being the second moment: then the estimator treats all samples
alike. -/
theorem C103_moment_real (env : NumEnv N p ℝ) (hs : env.eigh.Ok) (c : Chi2) (hc : c.Ok)
    (X : Matrix (Fin N) (Fin p) ℝ) (hp : 0 < p) (hX : Spans X) (q : ℝ) (hq0 : 0 < q) (hq1 : q < 1)
    (tol lbda beta : ℝ) (hlbda : lbda = c.ppf q p / 2)
    (hbeta : beta = c.cdf (c.ppf q p) (p + 1) + c.ppf q p * (1 - q) / p) :
    Returns (huberFixedPoint env c X q (some (beta • secondMoment X)) tol 1)
      (beta • secondMoment X) ↔ ∀ i, qf (secondMoment X) (sample X i) ≤ lbda * beta := by
  obtain ⟨hl, hb⟩ := huber_beta_pos hc ⟨hq0, hq1⟩ hp
  rw [← hlbda] at hl
  rw [← hbeta] at hb
  have h1 := run_one_real_eq (.huber q) (env := env) (X := X) hs hc hp ⟨hq0, hq1⟩ rfl
    ((secondMoment_posDef hX).smul (by exact_mod_cast hb) : (beta • secondMoment X).PosDef) tol
    (beta • secondMoment X)
  have h2 := huber_scm (𝕜 := ℝ) hl hb X hX
  rw [hlbda, hbeta] at h2 ⊢
  rw [hbeta] at h1
  exact h1.trans h2

/-- Complex data. -/
theorem C103_moment_complex (env : NumEnv N p ℂ) (hs : env.eigh.Ok) (c : Chi2) (hc : c.Ok)
    (X : Matrix (Fin N) (Fin p) ℂ) (hp : 0 < p) (hX : Spans X) (q : ℝ) (hq0 : 0 < q) (hq1 : q < 1)
    (tol lbda beta : ℝ) (hlbda : lbda = c.ppf q (2 * p) / 2)
    (hbeta : beta = c.cdf (c.ppf q (2 * p)) (2 * p + 2) + c.ppf q (2 * p) * (1 - q) / (2 * p)) :
    Returns (complexHuberFixedPoint env c X q (some ((beta : ℂ) • secondMoment X)) tol 1)
      ((beta : ℂ) • secondMoment X) ↔ ∀ i, qf (secondMoment X) (sample X i) ≤ lbda * beta := by
  obtain ⟨hl, hb⟩ := complexHuber_beta_pos hc ⟨hq0, hq1⟩ hp
  rw [← hlbda] at hl
  rw [← hbeta] at hb
  have h1 := run_one_complex_eq (.huber q) (env := env) (X := X) hs hc hp ⟨hq0, hq1⟩ rfl
    ((secondMoment_posDef hX).smul (by exact_mod_cast hb) : ((beta : ℂ) • secondMoment X).PosDef) tol
    ((beta : ℂ) • secondMoment X)
  have h2 := huber_scm (𝕜 := ℂ) hl hb X hX
  rw [hlbda, hbeta] at h2 ⊢
  rw [hbeta] at h1
  exact h1.trans h2

/-- A `chi2` meeting the contract (not scipy's), for the examples. -/
private noncomputable def chi2Ex : Chi2 := ⟨fun q _ => q, fun _ _ => 0⟩
private theorem chi2Ex_ok : chi2Ex.Ok :=
  ⟨fun _ => rfl, fun _ _ h _ _ => h, fun _ _ => le_rfl⟩

/-- Non-vacuity: spanning data, hence an estimate. -/
example (env : NumEnv 3 2 ℝ) (hs : env.eigh.Ok) :
    ∃ S : Matrix (Fin 2) (Fin 2) ℝ, S.PosDef ∧
      Returns (huberFixedPoint env chi2Ex (unitSamples ℝ 3 2) (1 / 2) (some S) 0 1) S := by
  obtain ⟨S, hS, h, -⟩ := (C103_real env hs chi2Ex chi2Ex_ok (unitSamples ℝ 3 2) (by norm_num)
    (1 / 2) (by norm_num) (by norm_num) 0).2 (unitSamples_spans (by norm_num))
  exact ⟨S, hS, h⟩

/-- Non-vacuity: data that do not span. -/
example : ¬ Spans (0 : Matrix (Fin 3) (Fin 2) ℝ) := fun h => by
  have := congrFun (h (fun _ => 1) fun i => by simp [sample]) 0
  norm_num at this

/-! ## C104 -/

/-- A run whose errors all exceed the tolerance goes on until `iter_max`. -/
theorem IsMRun.exhausts {𝕜 : Type} [RCLike 𝕜] {w : ℝ → ℝ} {X : Matrix (Fin N) (Fin p) 𝕜}
    {init sigma : Matrix (Fin p) (Fin p) 𝕜} {tol : ℝ} {n : ℕ} {delta : Delta} {iteration : ℕ}
    (h : IsMRun w X tol n init sigma delta iteration) (ht : ∀ k, tol < mErr w X init k) :
    iteration = n := by
  have h1 : iteration ≤ n := by
    have := h.bound
    rw [max_eq_left (Int.natCast_nonneg n)] at this
    exact_mod_cast this
  by_contra hne
  have h2 : iteration < n := lt_of_le_of_ne h1 hne
  have h3 := h.stopped (by exact_mod_cast h2)
  cases hit : iteration with
  | zero =>
    rw [h.err_zero hit] at h3
    exact h3 trivial
  | succ k =>
    rw [h.err_succ k hit] at h3
    exact h3 (ht k)

theorem frob_smul_one_pos (𝕜 : Type) [RCLike 𝕜] (hp : 0 < p) :
    0 < frob (1 : Matrix (Fin p) (Fin p) 𝕜) := frob_pos hp PosDef.one

/-- The reported error along an orbit of multiples of the identity. -/
theorem mErr_scalar {𝕜 : Type} [RCLike 𝕜] (hp : 0 < p) {w : ℝ → ℝ} {X : Matrix (Fin N) (Fin p) 𝕜}
    {init : Matrix (Fin p) (Fin p) 𝕜} {a : ℕ → ℝ} (ha : ∀ k, 0 < a k)
    (h : ∀ k, mIter w X init k = (a k : 𝕜) • 1) (k : ℕ) :
    mErr w X init k = |a (k + 1) - a k| / a k := by
  have e : mErr w X init k = frob (mIter w X init (k + 1) - mIter w X init k) /
    frob (mIter w X init k) := rfl
  have h1 := frob_smul_one_pos (p := p) 𝕜 hp
  rw [e, h, h, ← sub_smul, ← RCLike.ofReal_sub, frob_smul, frob_smul, abs_of_pos (ha k),
    mul_div_mul_right _ _ h1.ne']

theorem huber_orbit_err {𝕜 : Type} [RCLike 𝕜] {lbda beta : ℝ} (hl : 0 < lbda) (hb : 0 < beta)
    (hpN : p ≤ N) (hp : 0 < p) (h : lbda * beta < N) (k : ℕ) :
    (1 - lbda * beta / N) ≤
      mErr (wHuber lbda beta) (unitSamples 𝕜 N p) (((lbda⁻¹ : ℝ) : 𝕜) • 1) k := by
  have hN : (0 : ℝ) < N := by exact_mod_cast lt_of_lt_of_le hp hpN
  have hle : beta / N ≤ lbda⁻¹ := by
    rw [div_le_iff₀ hN, ← div_eq_inv_mul, le_div_iff₀ hl]; linarith
  have hpos : 0 < lbda⁻¹ := inv_pos.2 hl
  have et : beta / (N * lbda * lbda⁻¹) = beta / N := by field_simp
  have ht : 0 < beta / N := by positivity
  rw [mErr_scalar hp (a := fun k => if Even k then lbda⁻¹ else beta / (N * lbda * lbda⁻¹))
    (fun k => by rw [et]; split_ifs <;> assumption)
    (fun k => huber_orbit hl hb hpN hp hle le_rfl k)]
  simp only [et, Nat.even_add_one]
  have e1 : lbda * beta / N = (beta / N) / lbda⁻¹ := by field_simp
  rw [e1]
  by_cases hk : Even k
  · simp only [hk, not_true, if_true, if_false]
    rw [abs_of_nonpos (by linarith), neg_sub, sub_div, div_self hpos.ne']
  · simp only [hk, not_false_eq_true, if_true, if_false]
    rw [abs_of_nonneg (by linarith), sub_div, div_self ht.ne', le_sub_iff_add_le]
    have h1 : beta / N / lbda⁻¹ * (lbda⁻¹ / (beta / N)) = 1 := by field_simp
    have h2 : beta / N / lbda⁻¹ ≤ 1 := (div_le_one hpos).2 hle
    have h3 : 0 < beta / N / lbda⁻¹ := by positivity
    have h4 : 0 < lbda⁻¹ / (beta / N) := by positivity
    nlinarith [sq_nonneg (1 - beta / N / lbda⁻¹)]

/-- Real data. On the `p` unit vectors followed by `N - p` zero samples, with `lbda beta < N` and
the start `I / lbda`, the call alternates for ever between `I / lbda` and `(beta / N) I`: for every
tolerance below `1 - lbda beta / N` all the iterations allowed are made, the warning is logged,
and the matrix returned only depends on the parity of `iter_max`. -/
theorem C104_orbit_real (env : NumEnv N p ℝ) (hs : env.eigh.Ok) (c : Chi2) (hc : c.Ok)
    (hp : 0 < p) (hpN : p ≤ N) (q : ℝ) (hq0 : 0 < q) (hq1 : q < 1) (lbda beta : ℝ)
    (hlbda : lbda = c.ppf q p / 2)
    (hbeta : beta = c.cdf (c.ppf q p) (p + 1) + c.ppf q p * (1 - q) / p) (h : lbda * beta < N)
    (tol : ℝ) (htol : tol < 1 - lbda * beta / N) (n : ℕ) :
    ∃ delta, huberFixedPoint env c (unitSamples ℝ N p) q (some (lbda⁻¹ • 1)) tol n =
      .ok ⟨.fin ((if Even n then lbda⁻¹ else beta / N) • 1), delta, n, true⟩ := by
  obtain ⟨hl, hb⟩ := huber_beta_pos hc ⟨hq0, hq1⟩ hp
  have hwt : RealEst.weight (.huber q) c p = wHuber lbda beta := by rw [hlbda, hbeta]; rfl
  rw [← hlbda] at hl
  rw [← hbeta] at hb
  have hN : (0 : ℝ) < N := by exact_mod_cast lt_of_lt_of_le hp hpN
  have hi : ∀ S ∈ some (lbda⁻¹ • (1 : Matrix (Fin p) (Fin p) ℝ)), S.PosDef := by
    intro S hS
    rw [Option.mem_some_iff] at hS
    rw [← hS]
    exact PosDef.one.smul (by exact_mod_cast inv_pos.2 hl)
  obtain ⟨sigma, result, delta, iteration, h1, h2, h3, h4⟩ := C34_real (.huber q) env hs c hc
    (unitSamples ℝ N p) hp (unitSamples_spans hpN) ⟨hq0, hq1⟩ _ hi tol n
  have h5 : result = sigma :=
    FMat.fin.inj (h3.symm.trans (C30_none "None" (by decide +kernel) (.fin sigma)))
  rw [hwt, Option.getD_some] at h2
  have hle : beta / N ≤ lbda⁻¹ := by
    rw [div_le_iff₀ hN, ← div_eq_inv_mul, le_div_iff₀ hl]; linarith
  have h6 : iteration = n := h2.exhausts fun k =>
    lt_of_lt_of_le htol (huber_orbit_err (𝕜 := ℝ) hl hb hpN hp h k)
  refine ⟨delta, ?_⟩
  have h7 := h2.result
  have h8 := huber_orbit (𝕜 := ℝ) hl hb hpN hp hle le_rfl iteration
  rw [h6] at h1 h7 h8
  have et : beta / (N * lbda * lbda⁻¹) = beta / N := by field_simp
  rw [et] at h8
  have h9 : sigma = (if Even n then lbda⁻¹ else beta / N) • (1 : Matrix (Fin p) (Fin p) ℝ) :=
    h7.trans h8
  rw [h5, h9, beq_self_eq_true] at h1
  exact h1

/-- Complex data. -/
theorem C104_orbit_complex (env : NumEnv N p ℂ) (hs : env.eigh.Ok) (c : Chi2) (hc : c.Ok)
    (hp : 0 < p) (hpN : p ≤ N) (q : ℝ) (hq0 : 0 < q) (hq1 : q < 1) (lbda beta : ℝ)
    (hlbda : lbda = c.ppf q (2 * p) / 2)
    (hbeta : beta = c.cdf (c.ppf q (2 * p)) (2 * p + 2) + c.ppf q (2 * p) * (1 - q) / (2 * p))
    (h : lbda * beta < N)
    (tol : ℝ) (htol : tol < 1 - lbda * beta / N) (n : ℕ) :
    ∃ delta, complexHuberFixedPoint env c (unitSamples ℂ N p) q
        (some (((lbda⁻¹ : ℝ) : ℂ) • 1)) tol n =
      .ok ⟨.fin (((if Even n then lbda⁻¹ else beta / N : ℝ) : ℂ) • 1), delta, n, true⟩ := by
  obtain ⟨hl, hb⟩ := complexHuber_beta_pos hc ⟨hq0, hq1⟩ hp
  have hwt : ComplexEst.weight (.huber q) c p = wHuber lbda beta := by rw [hlbda, hbeta]; rfl
  rw [← hlbda] at hl
  rw [← hbeta] at hb
  have hN : (0 : ℝ) < N := by exact_mod_cast lt_of_lt_of_le hp hpN
  have hi : ∀ S ∈ some (((lbda⁻¹ : ℝ) : ℂ) • (1 : Matrix (Fin p) (Fin p) ℂ)), S.PosDef := by
    intro S hS
    rw [Option.mem_some_iff] at hS
    rw [← hS]
    exact PosDef.one.smul (by exact_mod_cast inv_pos.2 hl)
  obtain ⟨sigma, result, delta, iteration, h1, h2, h3, h4⟩ := C34_complex (.huber q) env hs c hc
    (unitSamples ℂ N p) hp (unitSamples_spans hpN) ⟨hq0, hq1⟩ _ hi tol n
  have h5 : result = sigma :=
    FMat.fin.inj (h3.symm.trans (C30_none "None" (by decide +kernel) (.fin sigma)))
  rw [hwt, Option.getD_some] at h2
  have hle : beta / N ≤ lbda⁻¹ := by
    rw [div_le_iff₀ hN, ← div_eq_inv_mul, le_div_iff₀ hl]; linarith
  have h6 : iteration = n := h2.exhausts fun k =>
    lt_of_lt_of_le htol (huber_orbit_err (𝕜 := ℂ) hl hb hpN hp h k)
  refine ⟨delta, ?_⟩
  have h7 := h2.result
  have h8 := huber_orbit (𝕜 := ℂ) hl hb hpN hp hle le_rfl iteration
  rw [h6] at h1 h7 h8
  have et : beta / (N * lbda * lbda⁻¹) = beta / N := by field_simp
  rw [et] at h8
  have h9 : sigma = ((if Even n then lbda⁻¹ else beta / N : ℝ) : ℂ) • (1 : Matrix (Fin p) (Fin p) ℂ) :=
    h7.trans h8
  rw [h5, h9, beq_self_eq_true] at h1
  exact h1

/-- The Huber iteration does not always converge: for every `q`, dimension and library of special
functions there are spanning data and a positive definite start from which the call alternates
between two different matrices, for ever, for every small enough tolerance. -/
theorem C104_violated (c : Chi2) (hc : c.Ok) (hp : 0 < p) (q : ℝ) (hq0 : 0 < q) (hq1 : q < 1) :
    ∃ (N : ℕ) (X : Matrix (Fin N) (Fin p) ℝ) (init A B : Matrix (Fin p) (Fin p) ℝ) (tol : ℝ),
      Spans X ∧ init.PosDef ∧ A ≠ B ∧ 0 < tol ∧
      ∀ (env : NumEnv N p ℝ), env.eigh.Ok → ∀ n : ℕ, ∃ delta,
        huberFixedPoint env c X q (some init) tol n =
          .ok ⟨.fin (if Even n then A else B), delta, n, true⟩ := by
  obtain ⟨hl, hb⟩ := huber_beta_pos hc ⟨hq0, hq1⟩ hp
  set lbda := c.ppf q p / 2 with hlbda
  set beta := c.cdf (c.ppf q p) (p + 1) + c.ppf q p * (1 - q) / p with hbeta
  obtain ⟨M, hM⟩ := exists_nat_gt (lbda * beta)
  set N := max p M with hNdef
  have hpN : p ≤ N := le_max_left _ _
  have hMN : lbda * beta < N := lt_of_lt_of_le hM (by exact_mod_cast le_max_right p M)
  have hN : (0 : ℝ) < N := by exact_mod_cast lt_of_lt_of_le hp hpN
  have hgap : 0 < 1 - lbda * beta / N := by
    rw [sub_pos, div_lt_one hN]; exact hMN
  refine ⟨N, unitSamples ℝ N p, lbda⁻¹ • 1, lbda⁻¹ • 1, (beta / N) • 1, (1 - lbda * beta / N) / 2,
    unitSamples_spans hpN, PosDef.one.smul (by exact_mod_cast inv_pos.2 hl), fun e => ?_,
    half_pos hgap, fun env hs n => ?_⟩
  · have := congrFun (congrFun e ⟨0, hp⟩) ⟨0, hp⟩
    simp only [Matrix.smul_apply, Matrix.one_apply_eq, smul_eq_mul, mul_one] at this
    have h2 : lbda * beta / N = 1 := by
      rw [mul_div_assoc, ← this, mul_inv_cancel₀ hl.ne']
    rw [h2] at hgap
    linarith
  · obtain ⟨d, h⟩ := C104_orbit_real env hs c hc hp hpN q hq0 hq1 lbda beta hlbda hbeta hMN
      ((1 - lbda * beta / N) / 2) (by linarith) n
    refine ⟨d, ?_⟩
    rw [h, ite_smul]

/-- Real data: if at the fixed point `S` the samples below the threshold span the space, then from
every start the estimate returned is within `C r^iteration` of `S`, `r < 1`. Missing for the full
claim: without that condition the iteration may oscillate, see `C104_violated`. -/
theorem C104_real_partial (env : NumEnv N p ℝ) (hs : env.eigh.Ok) (c : Chi2) (hc : c.Ok)
    (X : Matrix (Fin N) (Fin p) ℝ) (hp : 0 < p) (hX : Spans X) (q : ℝ) (hq0 : 0 < q) (hq1 : q < 1)
    (S : Matrix (Fin p) (Fin p) ℝ) (hS : S.PosDef) (tol0 : ℝ)
    (hfix : Returns (huberFixedPoint env c X q (some S) tol0 1) S)
    (hin : InsideSpans (c.ppf q p / 2) X S)
    (init : Option (Matrix (Fin p) (Fin p) ℝ)) (hi : ∀ S ∈ init, S.PosDef) :
    ∃ r C : ℝ, 0 ≤ r ∧ r < 1 ∧ ∀ (tol : ℝ) (iterMax : ℤ), ∃ result delta iteration warned,
      huberFixedPoint env c X q init tol iterMax =
        .ok ⟨.fin result, delta, iteration, warned⟩ ∧
      frobDist result S ≤ C * r ^ iteration := by
  obtain ⟨hl, hb⟩ := huber_beta_pos hc ⟨hq0, hq1⟩ hp
  have h := (run_one_real_eq (.huber q) hs hc hp ⟨hq0, hq1⟩ rfl hS tol0 S).1 hfix
  obtain ⟨r, C, hr0, hr1, hr⟩ := huber_geometric hl hb X hS (getD_posDef hX hi) h hin
  refine ⟨r, C, hr0, hr1, fun tol iterMax => ?_⟩
  obtain ⟨sigma, result, delta, iteration, h1, h2, h3, h4⟩ := C34_real (.huber q) env hs
    c hc X hp hX ⟨hq0, hq1⟩ init hi tol iterMax
  have h5 : result = sigma :=
    FMat.fin.inj (h3.symm.trans (C30_none "None" (by decide +kernel) (.fin sigma)))
  refine ⟨result, delta, iteration, _, h1, ?_⟩
  rw [h5, h2.result]
  exact hr iteration

/-- Complex data. Missing for the full claim: as for real data. -/
theorem C104_complex_partial (env : NumEnv N p ℂ) (hs : env.eigh.Ok) (c : Chi2) (hc : c.Ok)
    (X : Matrix (Fin N) (Fin p) ℂ) (hp : 0 < p) (hX : Spans X) (q : ℝ) (hq0 : 0 < q) (hq1 : q < 1)
    (S : Matrix (Fin p) (Fin p) ℂ) (hS : S.PosDef) (tol0 : ℝ)
    (hfix : Returns (complexHuberFixedPoint env c X q (some S) tol0 1) S)
    (hin : InsideSpans (c.ppf q (2 * p) / 2) X S)
    (init : Option (Matrix (Fin p) (Fin p) ℂ)) (hi : ∀ S ∈ init, S.PosDef) :
    ∃ r C : ℝ, 0 ≤ r ∧ r < 1 ∧ ∀ (tol : ℝ) (iterMax : ℤ), ∃ result delta iteration warned,
      complexHuberFixedPoint env c X q init tol iterMax =
        .ok ⟨.fin result, delta, iteration, warned⟩ ∧
      frobDist result S ≤ C * r ^ iteration := by
  obtain ⟨hl, hb⟩ := complexHuber_beta_pos hc ⟨hq0, hq1⟩ hp
  have h := (run_one_complex_eq (.huber q) hs hc hp ⟨hq0, hq1⟩ rfl hS tol0 S).1 hfix
  obtain ⟨r, C, hr0, hr1, hr⟩ := huber_geometric hl hb X hS (getD_posDef hX hi) h hin
  refine ⟨r, C, hr0, hr1, fun tol iterMax => ?_⟩
  obtain ⟨sigma, result, delta, iteration, h1, h2, h3, h4⟩ := C34_complex (.huber q) env hs
    c hc X hp hX ⟨hq0, hq1⟩ init hi tol iterMax
  have h5 : result = sigma :=
    FMat.fin.inj (h3.symm.trans (C30_none "None" (by decide +kernel) (.fin sigma)))
  refine ⟨result, delta, iteration, _, h1, ?_⟩
  rw [h5, h2.result]
  exact hr iteration

theorem huber_tendsto {𝕜 : Type} [RCLike 𝕜] {lbda beta : ℝ} (hl : 0 < lbda) (hb : 0 < beta)
    (X : Matrix (Fin N) (Fin p) 𝕜) {S init : Matrix (Fin p) (Fin p) 𝕜} (hS : S.PosDef)
    (hi : init.PosDef) (hfix : mStep (wHuber lbda beta) X S = S) (hin : InsideSpans lbda X S) :
    Tendsto (fun k => frob (mIter (wHuber lbda beta) X init k - S)) atTop (𝓝 0) := by
  obtain ⟨r, C, hr0, hr1, hr⟩ := huber_geometric hl hb X hS hi hfix hin
  refine squeeze_zero (fun k => frob_nonneg _) hr ?_
  have := (tendsto_pow_atTop_nhds_zero_of_lt_one hr0 hr1).const_mul C
  simpa using this

/-- Real data: under the same condition the loop stops by itself, without the warning. Missing for
the full claim: as in `C104_real_partial`. -/
theorem C104_stops_real_partial (env : NumEnv N p ℝ) (hs : env.eigh.Ok) (c : Chi2) (hc : c.Ok)
    (X : Matrix (Fin N) (Fin p) ℝ) (hp : 0 < p) (hX : Spans X) (q : ℝ) (hq0 : 0 < q) (hq1 : q < 1)
    (S : Matrix (Fin p) (Fin p) ℝ) (hS : S.PosDef) (tol0 : ℝ)
    (hfix : Returns (huberFixedPoint env c X q (some S) tol0 1) S)
    (hin : InsideSpans (c.ppf q p / 2) X S)
    (init : Option (Matrix (Fin p) (Fin p) ℝ)) (hi : ∀ S ∈ init, S.PosDef) (tol : ℝ)
    (ht : 0 < tol) :
    ∃ K : ℕ, ∀ iterMax : ℤ, K < iterMax → ∃ result d iteration,
      huberFixedPoint env c X q init tol iterMax =
        .ok ⟨.fin result, .fin d, iteration, false⟩ ∧ d ≤ tol ∧ iteration ≤ K := by
  obtain ⟨hl, hb⟩ := huber_beta_pos hc ⟨hq0, hq1⟩ hp
  have h := (run_one_real_eq (.huber q) hs hc hp ⟨hq0, hq1⟩ rfl hS tol0 S).1 hfix
  obtain ⟨K, hK⟩ := IsMRun.stops (err_tendsto X (frob_pos hp hS)
    (huber_tendsto hl hb X hS (getD_posDef hX hi) h hin)) ht
  refine ⟨K, fun iterMax hm => ?_⟩
  obtain ⟨sigma, result, delta, iteration, h1, h2, h3, h4⟩ := C34_real (.huber q) env hs
    c hc X hp hX ⟨hq0, hq1⟩ init hi tol iterMax
  obtain ⟨h5, d, h6, h7⟩ := hK iterMax sigma delta iteration hm h2
  refine ⟨result, d, iteration, ?_, h7, h5⟩
  have hbq : ((iteration : ℤ) == iterMax) = false := by
    rw [beq_eq_false_iff_ne]; omega
  rw [← h6, ← hbq]
  exact h1

/-- Complex data. Missing for the full claim: as in `C104_real_partial`. -/
theorem C104_stops_complex_partial (env : NumEnv N p ℂ) (hs : env.eigh.Ok) (c : Chi2) (hc : c.Ok)
    (X : Matrix (Fin N) (Fin p) ℂ) (hp : 0 < p) (hX : Spans X) (q : ℝ) (hq0 : 0 < q) (hq1 : q < 1)
    (S : Matrix (Fin p) (Fin p) ℂ) (hS : S.PosDef) (tol0 : ℝ)
    (hfix : Returns (complexHuberFixedPoint env c X q (some S) tol0 1) S)
    (hin : InsideSpans (c.ppf q (2 * p) / 2) X S)
    (init : Option (Matrix (Fin p) (Fin p) ℂ)) (hi : ∀ S ∈ init, S.PosDef) (tol : ℝ)
    (ht : 0 < tol) :
    ∃ K : ℕ, ∀ iterMax : ℤ, K < iterMax → ∃ result d iteration,
      complexHuberFixedPoint env c X q init tol iterMax =
        .ok ⟨.fin result, .fin d, iteration, false⟩ ∧ d ≤ tol ∧ iteration ≤ K := by
  obtain ⟨hl, hb⟩ := complexHuber_beta_pos hc ⟨hq0, hq1⟩ hp
  have h := (run_one_complex_eq (.huber q) hs hc hp ⟨hq0, hq1⟩ rfl hS tol0 S).1 hfix
  obtain ⟨K, hK⟩ := IsMRun.stops (err_tendsto X (frob_pos hp hS)
    (huber_tendsto hl hb X hS (getD_posDef hX hi) h hin)) ht
  refine ⟨K, fun iterMax hm => ?_⟩
  obtain ⟨sigma, result, delta, iteration, h1, h2, h3, h4⟩ := C34_complex (.huber q) env hs
    c hc X hp hX ⟨hq0, hq1⟩ init hi tol iterMax
  obtain ⟨h5, d, h6, h7⟩ := hK iterMax sigma delta iteration hm h2
  refine ⟨result, d, iteration, ?_, h7, h5⟩
  have hbq : ((iteration : ℤ) == iterMax) = false := by
    rw [beq_eq_false_iff_ne]; omega
  rw [← h6, ← hbq]
  exact h1

/-- Non-vacuity of the partial claims: the two unit vectors, `beta = 100 + 1/8`, `lbda = 1/4`. -/
noncomputable def chi2Big : Chi2 := ⟨fun q _ => q, fun _ _ => 100⟩
theorem chi2Big_ok : chi2Big.Ok :=
  ⟨fun _ => rfl, fun _ _ h _ _ => h, fun _ _ => by norm_num [chi2Big]⟩

theorem huber_inside_example (env : NumEnv 2 2 ℝ) (hs : env.eigh.Ok) :
    ∃ S : Matrix (Fin 2) (Fin 2) ℝ, S.PosDef ∧
      Returns (huberFixedPoint env chi2Big (unitSamples ℝ 2 2) (1 / 2) (some S) 0 1) S ∧
      InsideSpans (chi2Big.ppf (1 / 2) 2 / 2) (unitSamples ℝ 2 2) S := by
  have hsp : Spans (unitSamples ℝ 2 2) := unitSamples_spans le_rfl
  have hM := secondMoment_posDef hsp
  have hMe : secondMoment (unitSamples ℝ 2 2) = (1 / 2 : ℝ) • 1 := by
    ext a b
    fin_cases a <;> fin_cases b <;>
      simp [secondMoment, unitSamples, sample, Fin.sum_univ_two, vecMulVec_apply]
  set beta : ℝ := chi2Big.cdf (chi2Big.ppf (1 / 2) 2) (2 + 1) +
    chi2Big.ppf (1 / 2) 2 * (1 - 1 / 2) / ((2 : ℕ) : ℝ) with hbeta
  have hbv : beta = 100 + 1 / 8 := by
    rw [hbeta]
    change (100 : ℝ) + 1 / 2 * (1 - 1 / 2) / ((2 : ℕ) : ℝ) = _
    norm_num
  have hb0 : (0 : ℝ) < beta := by rw [hbv]; norm_num
  have hlv : chi2Big.ppf (1 / 2) 2 / 2 = 1 / 4 := by
    change (1 / 2 : ℝ) / 2 = _
    norm_num
  have hq : ∀ i, qf (secondMoment (unitSamples ℝ 2 2)) (sample (unitSamples ℝ 2 2) i) = 2 := fun i => by
    have := qf_smul (𝕜 := ℝ) PosDef.one (show (0 : ℝ) < 1 / 2 by norm_num) (sample (unitSamples ℝ 2 2) i)
    rw [hMe]
    refine this.trans ?_
    rw [qf_one, Fin.sum_univ_two]
    fin_cases i <;> simp [unitSamples, sample]
  refine ⟨beta • secondMoment (unitSamples ℝ 2 2), hM.smul (by exact_mod_cast hb0), ?_, ?_⟩
  · refine (C103_moment_real env hs chi2Big chi2Big_ok (unitSamples ℝ 2 2) (by norm_num) hsp (1 / 2)
      (by norm_num) (by norm_num) 0 _ beta rfl hbeta).2 fun i => ?_
    rw [hq, hlv, hbv]
    norm_num
  · intro v hv
    refine hsp v fun i => hv i ?_
    have := qf_smul hM hb0 (sample (unitSamples ℝ 2 2) i)
    rw [hlv]
    refine this.trans_lt ?_
    rw [hq, hbv]
    norm_num

end
end RS
