import Verif.Lemmas.Order
import Verif.Props.Cost

/-! Convergence of the Student iteration to its fixed point, with a rate. -/
set_option autoImplicit false

namespace RS
open Matrix ComplexOrder Filter Topology

section
variable {𝕜 : Type} [RCLike 𝕜] {N p : ℕ}

theorem wStudent_anti {nu : ℝ} (hnu : 0 ≤ nu) {s t : ℝ} (hs : 0 < nu + s) (hst : s ≤ t) :
    wStudent nu p t ≤ wStudent nu p s := by
  unfold wStudent
  exact div_le_div_of_nonneg_left (by positivity) hs (by linarith)

/-- The M-step of a decreasing weight is monotone. -/
theorem mStep_student_mono {nu : ℝ} (hnu : 0 < nu) (X : Matrix (Fin N) (Fin p) 𝕜)
    {A B : Matrix (Fin p) (Fin p) 𝕜} (hA : A.PosDef) (h : Loewner A B) :
    Loewner (mStep (wStudent nu p) X A) (mStep (wStudent nu p) X B) :=
  scatter_mono (fun i => wStudent_anti hnu.le
    (by linarith [qf_nonneg (h.posDef hA) (sample X i)]) (qf_anti hA h _)) X

theorem Loewner.inv_smul {A B : Matrix (Fin p) (Fin p) 𝕜} {c : ℝ} (hc : 0 < c)
    (h : Loewner A ((c : 𝕜) • B)) : Loewner (((c⁻¹ : ℝ) : 𝕜) • A) B := by
  have := h.smul (inv_pos.2 hc).le
  rwa [smul_smul, ← RCLike.ofReal_mul, inv_mul_cancel₀ hc.ne', RCLike.ofReal_one, one_smul] at this

/-- One step brings a squeezed matrix closer to the fixed point, by the factor `r`. -/
theorem student_squeeze {nu r : ℝ} (hnu : 0 < nu) (X : Matrix (Fin N) (Fin p) 𝕜)
    {S T : Matrix (Fin p) (Fin p) 𝕜} (hS : S.PosDef)
    (hfix : mStep (wStudent nu p) X S = S)
    (hr : ∀ i, qf S (sample X i) ≤ r * (nu + qf S (sample X i))) {e : ℝ} (he : 0 ≤ e)
    (h1 : Loewner ((((1 + e)⁻¹ : ℝ) : 𝕜) • S) T) (h2 : Loewner T (((1 + e : ℝ) : 𝕜) • S)) :
    Loewner ((((1 + r * e)⁻¹ : ℝ) : 𝕜) • S) (mStep (wStudent nu p) X T) ∧
      Loewner (mStep (wStudent nu p) X T) (((1 + r * e : ℝ) : 𝕜) • S) := by
  have hc : (0 : ℝ) < 1 + e := by linarith
  have hcS : (((1 + e : ℝ) : 𝕜) • S).PosDef := hS.smul (by exact_mod_cast hc)
  have hcS' : ((((1 + e)⁻¹ : ℝ) : 𝕜) • S).PosDef := hS.smul (by exact_mod_cast inv_pos.2 hc)
  have hT : T.PosDef := h1.posDef hcS'
  have hq : ∀ i, qf S (sample X i) / (1 + e) ≤ qf T (sample X i) := fun i => by
    have := qf_anti hT h2 (sample X i)
    rwa [qf_smul hS hc] at this
  have hq' : ∀ i, qf T (sample X i) ≤ qf S (sample X i) * (1 + e) := fun i => by
    have := qf_anti hcS' h1 (sample X i)
    rwa [qf_smul hS (inv_pos.2 hc), div_inv_eq_mul] at this
  have hpp : (0 : ℝ) < nu + p := by positivity
  have hNr : ∀ i : Fin N, 0 ≤ r := fun i => by
    have h0 := qf_nonneg hS (sample X i)
    by_contra hcon
    push Not at hcon
    nlinarith [hr i]
  constructor
  · have key : ∀ i, (1 + r * e)⁻¹ * wStudent nu p (qf S (sample X i)) ≤
        wStudent nu p (qf T (sample X i)) := fun i => by
      have h0 := qf_nonneg hS (sample X i)
      have hr0 := hNr i
      have hT0 := qf_nonneg hT (sample X i)
      unfold wStudent
      rw [inv_mul_le_iff₀ (by positivity), mul_div_assoc', div_le_div_iff₀ (by linarith) (by linarith)]
      have : nu + qf T (sample X i) ≤ (1 + r * e) * (nu + qf S (sample X i)) := by
        nlinarith [hq' i, mul_le_mul_of_nonneg_right (hr i) he]
      nlinarith
    have := scatter_mono key X
    rw [scatter_smul] at this
    have hfix' : scatter (fun i => wStudent nu p (qf S (sample X i))) X = S := hfix
    rwa [hfix'] at this
  · have key : ∀ i, wStudent nu p (qf T (sample X i)) ≤
        (1 + r * e) * wStudent nu p (qf S (sample X i)) := fun i => by
      have h0 := qf_nonneg hS (sample X i)
      have hr0 := hNr i
      have hT0 := qf_nonneg hT (sample X i)
      have hre : 0 ≤ r * e := mul_nonneg hr0 he
      unfold wStudent
      rw [mul_div_assoc', div_le_div_iff₀ (by linarith) (by linarith)]
      have h5 : qf S (sample X i) ≤ (1 + e) * qf T (sample X i) := by
        have := hq i
        rwa [div_le_iff₀' hc] at this
      have : nu + qf S (sample X i) ≤ (1 + r * e) * (nu + qf T (sample X i)) := by
        by_cases hcase : qf S (sample X i) ≤ qf T (sample X i)
        · nlinarith [mul_nonneg hre (by linarith : 0 ≤ nu + qf T (sample X i))]
        · push Not at hcase
          have ht : qf T (sample X i) ≤ r * (nu + qf T (sample X i)) := by
            rcases le_total r 1 with h | h
            · nlinarith [mul_le_mul_of_nonneg_left hcase.le (sub_nonneg.2 h), hr i]
            · nlinarith
          nlinarith [mul_le_mul_of_nonneg_right ht he]
      nlinarith
    have := scatter_mono key X
    rw [scatter_smul] at this
    have hfix' : scatter (fun i => wStudent nu p (qf S (sample X i))) X = S := hfix
    rwa [hfix'] at this

/-- Contraction factor of the Student iteration at a fixed point: the largest
`t/(nu+t)`, `t` ranging over the quadratic forms of the samples. -/
theorem student_rate {nu : ℝ} (hnu : 0 < nu) (X : Matrix (Fin N) (Fin p) 𝕜)
    {S : Matrix (Fin p) (Fin p) 𝕜} (hS : S.PosDef) :
    ∃ r : ℝ, 0 ≤ r ∧ r < 1 ∧ ∀ i, qf S (sample X i) ≤ r * (nu + qf S (sample X i)) := by
  set M := ∑ i, qf S (sample X i) with hM
  have hM0 : 0 ≤ M := Finset.sum_nonneg fun i _ => qf_nonneg hS _
  refine ⟨M / (nu + M), by positivity, by rw [div_lt_one (by linarith)]; linarith, fun i => ?_⟩
  have h0 := qf_nonneg hS (sample X i)
  have h1 : qf S (sample X i) ≤ M := Finset.single_le_sum (f := fun i => qf S (sample X i))
    (fun i _ => qf_nonneg hS _) (Finset.mem_univ i)
  rw [div_mul_eq_mul_div, le_div_iff₀ (by linarith)]
  nlinarith

/-- Linear convergence in the Loewner order. -/
theorem student_linear {nu r : ℝ} (hnu : 0 < nu) (X : Matrix (Fin N) (Fin p) 𝕜)
    {S init : Matrix (Fin p) (Fin p) 𝕜} (hS : S.PosDef)
    (hfix : mStep (wStudent nu p) X S = S) (hr0 : 0 ≤ r)
    (hr : ∀ i, qf S (sample X i) ≤ r * (nu + qf S (sample X i))) {e : ℝ} (he : 0 ≤ e)
    (h1 : Loewner ((((1 + e)⁻¹ : ℝ) : 𝕜) • S) init) (h2 : Loewner init (((1 + e : ℝ) : 𝕜) • S))
    (k : ℕ) :
    Loewner ((((1 + r ^ k * e)⁻¹ : ℝ) : 𝕜) • S) (mIter (wStudent nu p) X init k) ∧
      Loewner (mIter (wStudent nu p) X init k) (((1 + r ^ k * e : ℝ) : 𝕜) • S) := by
  induction k with
  | zero =>
    rw [pow_zero, one_mul]
    exact ⟨h1, h2⟩
  | succ k ih =>
    have := student_squeeze hnu X hS hfix hr (by positivity) ih.1 ih.2
    rw [pow_succ', mul_assoc]
    exact this

theorem student_tendsto {nu : ℝ} (hnu : 0 < nu) (X : Matrix (Fin N) (Fin p) 𝕜)
    {S init : Matrix (Fin p) (Fin p) 𝕜} (hS : S.PosDef) (hi : init.PosDef)
    (hfix : mStep (wStudent nu p) X S = S) :
    Tendsto (fun k => frob (mIter (wStudent nu p) X init k - S)) atTop (𝓝 0) := by
  obtain ⟨r, hr0, hr1, hr⟩ := student_rate hnu X hS
  obtain ⟨c, hc, h1, h2⟩ := exists_between hS hi
  have hc' : c = 1 + (c - 1) := by ring
  rw [hc'] at h1 h2
  have he : 0 ≤ c - 1 := by linarith
  have hlin := student_linear hnu X hS hfix hr0 hr he h1 h2
  refine squeeze_zero (fun k => frob_nonneg _) (fun k => frob_squeeze hS (by positivity) (hlin k).1 (hlin k).2) ?_
  have : Tendsto (fun k : ℕ => r ^ k) atTop (𝓝 0) := tendsto_pow_atTop_nhds_zero_of_lt_one hr0 hr1
  have h3 := ((this.mul_const (c - 1)).const_mul 3).mul_const (RCLike.re S.trace)
  simpa using h3

/-- If the iterates converge to a nonzero limit the reported error tends to zero. -/
theorem err_tendsto {w : ℝ → ℝ} (X : Matrix (Fin N) (Fin p) 𝕜)
    {S init : Matrix (Fin p) (Fin p) 𝕜} (hS : 0 < frob S)
    (h : Tendsto (fun k => frob (mIter w X init k - S)) atTop (𝓝 0)) :
    Tendsto (mErr w X init) atTop (𝓝 0) := by
  have h' : Tendsto (fun k => frob (mIter w X init (k + 1) - S)) atTop (𝓝 0) :=
    h.comp (tendsto_add_atTop_nat 1)
  have hnum : Tendsto (fun k => frob (mIter w X init (k + 1) - mIter w X init k)) atTop (𝓝 0) := by
    refine squeeze_zero (fun k => frob_nonneg _) (fun k => ?_) (by simpa using h'.add h)
    have e : mIter w X init (k + 1) - mIter w X init k =
        (mIter w X init (k + 1) - S) - (mIter w X init k - S) := by abel
    rw [e]
    exact frob_sub_le _ _
  have hden : Tendsto (fun k => frob (mIter w X init k)) atTop (𝓝 (frob S)) := by
    rw [tendsto_iff_dist_tendsto_zero]
    refine squeeze_zero (fun _ => dist_nonneg) (fun k => ?_) h
    rw [Real.dist_eq, abs_le]
    constructor
    · have := frob_sub_le (mIter w X init k) (mIter w X init k - S)
      rw [sub_sub_cancel] at this
      linarith
    · have := frob_add_le (mIter w X init k - S) S
      rw [sub_add_cancel] at this
      linarith
  have := hnum.div hden hS.ne'
  rw [zero_div] at this
  exact this

/-- A run whose reported errors tend to zero stops by itself: there is a bound `K` such that with
any `iter_max > K` it stops within `K` iterations with an error at most `tol`. -/
theorem IsMRun.stops {w : ℝ → ℝ} {X : Matrix (Fin N) (Fin p) 𝕜}
    {init : Matrix (Fin p) (Fin p) 𝕜} (h : Tendsto (mErr w X init) atTop (𝓝 0)) {tol : ℝ}
    (ht : 0 < tol) : ∃ K : ℕ, ∀ (iterMax : ℤ) sigma delta iteration, (K : ℤ) < iterMax →
      IsMRun w X tol iterMax init sigma delta iteration →
      iteration ≤ K ∧ ∃ d, delta = .fin d ∧ d ≤ tol := by
  obtain ⟨K, hK⟩ := eventually_atTop.1 (h.eventually (gt_mem_nhds ht))
  refine ⟨K + 1, fun iterMax sigma delta iteration hm hrun => ?_⟩
  have hle : iteration ≤ K + 1 := by
    by_contra hcon
    push Not at hcon
    have := hrun.continued K (by omega)
    linarith [hK K le_rfl]
  refine ⟨hle, ?_⟩
  have hst := hrun.stopped (by omega)
  cases hit : iteration with
  | zero =>
    rw [hrun.err_zero hit] at hst
    exact absurd trivial hst
  | succ k =>
    have hd := hrun.err_succ k hit
    rw [hd] at hst
    exact ⟨_, hd, not_lt.1 hst⟩

end
end RS
