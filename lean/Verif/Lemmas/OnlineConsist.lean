import Verif.Lemmas.OnlineGauss

/-
Convergence of the online estimates for all learning rates (C168).
-/
set_option autoImplicit false

namespace RS
open Matrix ComplexOrder Filter Topology

variable {p : ℕ}

theorem harmonic_diverges {r : ℝ} (hr : 0 < r) (m : ℕ) :
    Tendsto (fun n => ∑ j ∈ Finset.range n, r / ((j : ℝ) + m + 1)) atTop atTop := by
  have h := Real.tendsto_sum_range_one_div_nat_succ_atTop
  have hc : 0 < r / ((m : ℝ) + 1) := by positivity
  refine tendsto_atTop_mono (fun n => ?_) (h.const_mul_atTop hc)
  rw [Finset.mul_sum]
  refine Finset.sum_le_sum fun j _ => ?_
  rw [div_mul_div_comm, mul_one]
  gcongr
  have h1 := Nat.cast_nonneg (α := ℝ) j
  have h2 := Nat.cast_nonneg (α := ℝ) m
  nlinarith [mul_nonneg h1 h2]

/-- The averages with weights `r / (k + m + 1)`. -/
noncomputable def avgPath (r : ℝ) (m : ℕ) (L₀ : Matrix (Fin p) (Fin p) ℂ) (x : ℕ → Fin p → ℂ) :
    ℕ → Matrix (Fin p) (Fin p) ℂ
  | 0 => L₀
  | k + 1 => ((1 - r / ((k : ℝ) + m + 1) : ℝ) : ℂ) • avgPath r m L₀ x k +
      ((r / ((k : ℝ) + m + 1) : ℝ) : ℂ) • outer (x k)

theorem avgPath_herm {r : ℝ} {m : ℕ} {L₀ : Matrix (Fin p) (Fin p) ℂ} (h₀ : L₀.IsHermitian)
    (x : ℕ → Fin p → ℂ) (k : ℕ) : (avgPath r m L₀ x k).IsHermitian := by
  induction k with
  | zero => exact h₀
  | succ k ih =>
    rw [avgPath, IsHermitian, conjTranspose_add, conjTranspose_smul, conjTranspose_smul, ih.eq,
      (outer_herm _).eq]
    simp

/-- The averages have the limit of the sample covariances. -/
theorem avgPath_tendsto {r : ℝ} (hr : 0 < r) {m : ℕ} (hm : 1 ≤ m) (hrm : r ≤ m + 1)
    (L₀ : Matrix (Fin p) (Fin p) ℂ) (x : ℕ → Fin p → ℂ) {S : Matrix (Fin p) (Fin p) ℂ}
    (hlim : Tendsto (fun k : ℕ => (((k : ℝ) + m : ℝ) : ℂ)⁻¹ • scatterSum x k) atTop (𝓝 S)) :
    Tendsto (avgPath r m L₀ x) atTop (𝓝 S) := by
  set u : ℕ → Matrix (Fin p) (Fin p) ℂ := fun k => (((k : ℝ) + m : ℝ) : ℂ)⁻¹ • scatterSum x k with hu
  set L := avgPath r m L₀ x with hL
  set v : ℕ → Matrix (Fin p) (Fin p) ℂ := fun k => L k - (r : ℂ) • u k with hv
  set a : ℕ → ℝ := fun k => r / ((k : ℝ) + m + 1) with ha
  have hm' : (1 : ℝ) ≤ m := by exact_mod_cast hm
  have hstep : ∀ k, v (k + 1) = ((1 - a k : ℝ) : ℂ) • v k + (a k : ℂ) • (((1 - r : ℝ) : ℂ) • u k) := by
    intro k
    have hk0 : ((k : ℂ) + m) ≠ 0 := by
      have : ((k : ℝ) + m) ≠ 0 := by positivity
      exact_mod_cast this
    have hk1 : ((k : ℂ) + m + 1) ≠ 0 := by
      have : ((k : ℝ) + m + 1) ≠ 0 := by positivity
      exact_mod_cast this
    have hk2 : ((k : ℂ) + 1 + m) ≠ 0 := by
      have : ((k : ℝ) + 1 + m) ≠ 0 := by positivity
      exact_mod_cast this
    simp only [hv, hu, ha, hL, avgPath, scatterSum, Finset.sum_range_succ]
    ext i j
    simp only [Matrix.sub_apply, Matrix.add_apply, Matrix.smul_apply, smul_eq_mul]
    push_cast
    field_simp
    ring
  have hv' : Tendsto (fun k => frob (v k - ((1 - r : ℝ) : ℂ) • S)) atTop (𝓝 0) := by
    have hα : ∀ k, 0 ≤ a k ∧ a k ≤ 1 := fun k => by
      have hk := Nat.cast_nonneg (α := ℝ) k
      refine ⟨by simp only [ha]; positivity, ?_⟩
      simp only [ha]
      rw [div_le_one (by positivity)]
      linarith
    refine averaging_tendsto (α := a) (ε := fun k => |1 - r| * frob (u k - S)) (b := fun _ => 0)
      (fun k => frob_nonneg _) hα ?_ (fun _ => le_rfl) summable_zero (harmonic_diverges hr m) ?_
    · have := (frob_of_tendsto hlim).const_mul |1 - r|
      rwa [mul_zero] at this
    · intro k
      have e : v (k + 1) - ((1 - r : ℝ) : ℂ) • S =
          ((1 - a k : ℝ) : ℂ) • (v k - ((1 - r : ℝ) : ℂ) • S) +
            (a k : ℂ) • (((1 - r : ℝ) : ℂ) • (u k - S)) := by
        rw [hstep k]
        ext i j
        simp only [Matrix.sub_apply, Matrix.add_apply, Matrix.smul_apply, smul_eq_mul]
        push_cast
        ring
      rw [e]
      refine (frob_add_le _ _).trans ?_
      have h1 := frob_smul (𝕜 := ℂ) (1 - a k) (v k - ((1 - r : ℝ) : ℂ) • S)
      have h2 := frob_smul (𝕜 := ℂ) (a k) (((1 - r : ℝ) : ℂ) • (u k - S))
      have h3 := frob_smul (𝕜 := ℂ) (1 - r) (u k - S)
      rw [abs_of_nonneg (by linarith [(hα k).2])] at h1
      rw [abs_of_nonneg (hα k).1] at h2
      rw [add_zero]
      refine add_le_add h1.le ?_
      refine h2.le.trans ?_
      exact mul_le_mul_of_nonneg_left h3.le (hα k).1
  have h1 := tendsto_of_frob hv'
  have h2 := h1.add (hlim.const_smul (r : ℂ))
  have e : ((1 - r : ℝ) : ℂ) • S + (r : ℂ) • S = S := by
    push_cast; rw [← add_smul]; simp
  rw [e] at h2
  refine h2.congr fun k => ?_
  simp only [hv]
  abel

/-- The estimates have the limit of the sample covariances: the case where all steps are at most 1. -/
theorem gaussPath_tendsto_small {r : ℝ} (hr : 0 < r) {m : ℕ} (hm : 1 ≤ m) (hrm : r ≤ m + 1)
    {M₀ : Matrix (Fin p) (Fin p) ℂ} (h₀ : M₀.PosDef) (x : ℕ → Fin p → ℂ)
    {S : Matrix (Fin p) (Fin p) ℂ} (hS : S.PosDef)
    (hlim : Tendsto (fun k : ℕ => (((k : ℝ) + m : ℝ) : ℂ)⁻¹ • scatterSum x k) atTop (𝓝 S))
    (hsum : Summable fun k : ℕ => vsq (x k) ^ 2 / ((k : ℝ) + 1) ^ 2) :
    Tendsto (gaussPath (fun k => -r / ((k : ℝ) + m + 1)) M₀ x) atTop (𝓝 S) := by
  have hm' : (1 : ℝ) ≤ m := by exact_mod_cast hm
  set a : ℕ → ℝ := fun k => r / ((k : ℝ) + m + 1) with ha
  set M := gaussPath (fun k => -r / ((k : ℝ) + m + 1)) M₀ x with hM
  set L := avgPath r m M₀ x with hL
  have hα : ∀ k, 0 < a k ∧ a k ≤ 1 := fun k => by
    have hk := Nat.cast_nonneg (α := ℝ) k
    refine ⟨by simp only [ha]; positivity, ?_⟩
    simp only [ha]
    rw [div_le_one (by positivity)]
    linarith
  have hpd : ∀ k, (M k).PosDef := gaussPath_posDef h₀ x
  have hLlim : Tendsto L atTop (𝓝 S) := avgPath_tendsto hr hm hrm M₀ x hlim
  have hstep : ∀ k, M (k + 1) - L (k + 1) = ((1 - a k : ℝ) : ℂ) • (M k - L k) +
      ((a k ^ 2 / 2 : ℝ) : ℂ) • ((M k - outer (x k)) * (M k)⁻¹ * (M k - outer (x k))) := by
    intro k
    have e1 : M (k + 1) = M k + ((-r / ((k : ℝ) + m + 1) : ℝ) : ℂ) • (M k - outer (x k)) +
        (((-r / ((k : ℝ) + m + 1)) ^ 2 / 2 : ℝ) : ℂ) •
          ((M k - outer (x k)) * (M k)⁻¹ * (M k - outer (x k))) := by
      rw [hM]; simp only [gaussPath]; rw [gauss_retr]
    have e2 : L (k + 1) = ((1 - a k : ℝ) : ℂ) • L k + (a k : ℂ) • outer (x k) := rfl
    have e3 : -r / ((k : ℝ) + m + 1) = -a k := by simp only [ha]; rw [neg_div]
    rw [e1, e2, e3]
    ext i j
    simp only [Matrix.sub_apply, Matrix.add_apply, Matrix.smul_apply, smul_eq_mul]
    push_cast
    ring
  have hge : ∀ k, Loewner (L k) (M k) := by
    intro k
    induction k with
    | zero => exact Loewner.refl _
    | succ k ih =>
      unfold Loewner at ih ⊢
      rw [hstep k]
      have h1 : (0 : ℝ) ≤ 1 - a k := by linarith [(hα k).2]
      have h2 : (0 : ℝ) ≤ a k ^ 2 / 2 := by positivity
      exact (ih.smul (by exact_mod_cast h1)).add
        ((gauss_rem_posSemidef (hpd k) (outer_herm _)).smul (by exact_mod_cast h2))
  obtain ⟨l, hl, hlow⟩ := lower_of_limit hpd hS (avgPath_herm h₀.1 x) hLlim fun k _ => hge k
  -- traces of the averages are bounded
  obtain ⟨T, hT0, hT⟩ : ∃ T : ℝ, 0 ≤ T ∧ ∀ k, (L k).trace.re ≤ T := by
    have hc : Continuous fun A : Matrix (Fin p) (Fin p) ℂ => A.trace.re :=
      Complex.continuous_re.comp (continuous_id.matrix_trace)
    obtain ⟨T, hT⟩ := ((hc.tendsto S).comp hLlim).bddAbove_range
    exact ⟨max T 0, le_max_right _ _, fun k => (hT ⟨k, rfl⟩).trans (le_max_left _ _)⟩
  set E : ℕ → ℝ := fun k => (M k - L k).trace.re with hE
  have hE0 : ∀ k, 0 ≤ E k := fun k => (Complex.le_def.1 (hge k).trace_nonneg).1
  have hElim : Tendsto E atTop (𝓝 0) := by
    refine averaging_tendsto (α := fun k => a k / 2) (ε := fun _ => 0)
      (b := fun k => a k ^ 2 / 2 * (vsq (x k) ^ 2 / l + T)) hE0
      (fun k => ⟨by linarith [(hα k).1], by linarith [(hα k).2]⟩) tendsto_const_nhds
      (fun k => mul_nonneg (by positivity) (by positivity)) ?_ ?_ ?_
    · have hale : ∀ k : ℕ, a k ^ 2 / 2 ≤ r ^ 2 / 2 * (1 / ((k : ℝ) + 1) ^ 2) := fun k => by
        have hk := Nat.cast_nonneg (α := ℝ) k
        have e : r ^ 2 / 2 * (1 / ((k : ℝ) + 1) ^ 2) = (r / ((k : ℝ) + 1)) ^ 2 / 2 := by
          field_simp
        rw [e]
        simp only [ha]
        gcongr
        linarith
      have hs2 : Summable fun k : ℕ => 1 / ((k : ℝ) + 1) ^ 2 := by
        have := (summable_nat_add_iff 1).2 (Real.summable_one_div_nat_pow.2 (show 1 < 2 by norm_num))
        simpa using this
      have hs3 := ((hsum.mul_left (1 / l)).add (hs2.mul_left T)).mul_left (r ^ 2 / 2)
      refine Summable.of_nonneg_of_le (fun k => mul_nonneg (by positivity) (by positivity))
        (fun k => ?_) hs3
      calc a k ^ 2 / 2 * (vsq (x k) ^ 2 / l + T)
          ≤ r ^ 2 / 2 * (1 / ((k : ℝ) + 1) ^ 2) * (vsq (x k) ^ 2 / l + T) := by
            have : 0 ≤ vsq (x k) ^ 2 / l + T := by positivity
            exact mul_le_mul_of_nonneg_right (hale k) this
        _ = _ := by field_simp
    · have e1 : (fun n => ∑ j ∈ Finset.range n, a j / 2) = fun n =>
          ∑ j ∈ Finset.range n, (r / 2) / ((j : ℝ) + m + 1) := by
        funext n
        exact Finset.sum_congr rfl fun j _ => by simp only [ha]; ring
      rw [e1]
      exact harmonic_diverges (by positivity) m
    · intro k
      have h1 : E (k + 1) = (1 - a k) * E k + a k ^ 2 / 2 *
          ((M k).trace.re - 2 * vsq (x k) + vsq (x k) * qf (M k) (x k)) := by
        simp only [hE]
        rw [hstep k, trace_add, trace_smul, trace_smul, Complex.add_re, smul_eq_mul, smul_eq_mul,
          Complex.re_ofReal_mul, Complex.re_ofReal_mul, ← gauss_rem_trace (hpd k)]
      have h2 : (M k).trace.re = E k + (L k).trace.re := by
        simp only [hE, trace_sub, Complex.sub_re]; ring
      have h3 : vsq (x k) * qf (M k) (x k) ≤ vsq (x k) ^ 2 / l := by
        have := mul_le_mul_of_nonneg_left (qf_le_of_lower hl (hlow k) (x k)) (vsq_nonneg (x k))
        calc _ ≤ _ := this
          _ = _ := by ring
      have h4 := vsq_nonneg (x k)
      have h5 := hT k
      have h6 : (M k).trace.re - 2 * vsq (x k) + vsq (x k) * qf (M k) (x k) ≤
          E k + (vsq (x k) ^ 2 / l + T) := by rw [h2]; linarith
      have h7 := mul_le_mul_of_nonneg_left h6 (show 0 ≤ a k ^ 2 / 2 by positivity)
      have h8 : a k ^ 2 / 2 * E k ≤ a k / 2 * E k := by
        refine mul_le_mul_of_nonneg_right ?_ (hE0 k)
        nlinarith [(hα k).1, (hα k).2]
      rw [h1, mul_zero, add_zero]
      nlinarith
  have hD : Tendsto (fun k => frob ((M k - L k) - 0)) atTop (𝓝 0) := by
    refine squeeze_zero (fun _ => frob_nonneg _) (fun k => ?_) hElim
    rw [sub_zero]
    exact frob_le_trace (hge k)
  have h1 := (tendsto_of_frob hD).add hLlim
  rw [zero_add] at h1
  exact h1.congr fun k => by abel

theorem gaussPath_shift (t : ℕ → ℝ) (M₀ : Matrix (Fin p) (Fin p) ℂ) (x : ℕ → Fin p → ℂ) (j k : ℕ) :
    gaussPath t M₀ x (j + k) =
      gaussPath (fun i => t (j + i)) (gaussPath t M₀ x j) (fun i => x (j + i)) k := by
  induction k with
  | zero => rfl
  | succ k ih => rw [← add_assoc, gaussPath, ih]; rfl

/-- The estimates have the limit of the sample covariances, for all learning rates. -/
theorem gaussPath_tendsto {r : ℝ} (hr : 0 < r) (m : ℕ) {M₀ : Matrix (Fin p) (Fin p) ℂ}
    (h₀ : M₀.PosDef) (x : ℕ → Fin p → ℂ) {S : Matrix (Fin p) (Fin p) ℂ} (hS : S.PosDef)
    (hlim : Tendsto (fun k : ℕ => (k : ℂ)⁻¹ • scatterSum x k) atTop (𝓝 S))
    (hsum : Summable fun k : ℕ => vsq (x k) ^ 2 / ((k : ℝ) + 1) ^ 2) :
    Tendsto (gaussPath (fun k => -r / ((m : ℝ) + k + 1)) M₀ x) atTop (𝓝 S) := by
  obtain ⟨j, hj⟩ := exists_nat_ge r
  set i := j + 1 with hi
  have key := gaussPath_tendsto_small (r := r) hr (m := m + i) (by omega)
    (by push_cast [hi]; linarith [Nat.cast_nonneg (α := ℝ) m])
    (gaussPath_posDef (t := fun k => -r / ((m : ℝ) + k + 1)) h₀ x i) (fun k => x (i + k)) hS ?_ ?_
  · have e : (fun k : ℕ => -r / ((k : ℝ) + (m + i : ℕ) + 1)) =
        fun k : ℕ => -r / ((m : ℝ) + (i + k : ℕ) + 1) := by
      funext k; push_cast; congr 1; ring
    rw [e] at key
    have h1 : Tendsto (fun k => gaussPath (fun k => -r / ((m : ℝ) + k + 1)) M₀ x (i + k)) atTop (𝓝 S) :=
      key.congr fun k => (gaussPath_shift _ _ _ i k).symm
    have h2 : Tendsto (fun k => gaussPath (fun k => -r / ((m : ℝ) + k + 1)) M₀ x (k + i)) atTop (𝓝 S) :=
      h1.congr fun k => by rw [add_comm]
    exact (tendsto_add_atTop_iff_nat i).1 h2
  · -- averages of the later samples
    have h1 : Tendsto (fun k : ℕ => ((k + i : ℕ) : ℂ)⁻¹ • scatterSum x (k + i)) atTop (𝓝 S) :=
      (tendsto_add_atTop_iff_nat (f := fun k : ℕ => (k : ℂ)⁻¹ • scatterSum x k) i).2 hlim
    have hinv : Tendsto (fun k : ℕ => (((k : ℝ) + (m + i : ℕ) : ℝ) : ℂ)⁻¹) atTop (𝓝 0) := by
      have h : Tendsto (fun k : ℕ => (((k : ℝ) + (m + i : ℕ))⁻¹ : ℝ)) atTop (𝓝 0) :=
        tendsto_inv_atTop_zero.comp
          (tendsto_atTop_add_const_right _ _ tendsto_natCast_atTop_atTop)
      have := (Complex.continuous_ofReal.tendsto 0).comp h
      simpa [Function.comp_def] using this
    have hratio : Tendsto (fun k : ℕ => (1 : ℂ) - m * (((k : ℝ) + (m + i : ℕ) : ℝ) : ℂ)⁻¹) atTop (𝓝 1) := by
      have := (hinv.const_mul (m : ℂ)).const_sub 1
      simpa using this
    have h2 := (hratio.smul h1).sub (hinv.smul_const (scatterSum x i))
    rw [one_smul, zero_smul, sub_zero] at h2
    refine h2.congr fun k => ?_
    have e : scatterSum (fun j => x (i + j)) k = scatterSum x (k + i) - scatterSum x i := by
      unfold scatterSum
      rw [add_comm k i, Finset.sum_range_add]
      abel
    rw [e, smul_sub, smul_smul]
    congr 2
    have hk1 : ((k : ℂ) + (m + i)) ≠ 0 := by
      have : ((k : ℝ) + (m + i)) ≠ 0 := by rw [hi]; push_cast; positivity
      exact_mod_cast this
    have hk2 : ((k : ℂ) + i) ≠ 0 := by
      have : ((k : ℝ) + i) ≠ 0 := by rw [hi]; push_cast; positivity
      exact_mod_cast this
    push_cast
    field_simp
    ring
  · have h1 := (summable_nat_add_iff i).2 hsum
    refine Summable.of_nonneg_of_le (fun k => by positivity) (fun k => ?_)
      (h1.mul_left (((i : ℝ) + 1) ^ 2))
    have hk := Nat.cast_nonneg (α := ℝ) k
    have hi' := Nat.cast_nonneg (α := ℝ) i
    rw [add_comm i k]
    push_cast
    rw [mul_div_assoc', div_le_div_iff₀ (by positivity) (by positivity)]
    have h2 : ((k : ℝ) + i + 1) ^ 2 ≤ (((i : ℝ) + 1) * (k + 1)) ^ 2 := by
      gcongr
      nlinarith [mul_nonneg hk hi']
    calc vsq (x (k + i)) ^ 2 * ((k : ℝ) + i + 1) ^ 2
        ≤ vsq (x (k + i)) ^ 2 * (((i : ℝ) + 1) * (k + 1)) ^ 2 := by gcongr
      _ = _ := by ring

end RS
