import Verif.Lemmas.KronRateRun
import Verif.Lemmas.Rate

/-! The Kronecker MM iteration with errors: coordinates of a pair near the minimiser, perturbation of
the cost, and the sequence of perturbed steps. -/
set_option autoImplicit false

namespace RS
open Matrix ComplexOrder

section
variable {𝕜 : Type} [RCLike 𝕜] {N a b : ℕ}

/-- A pair that solves the fixed-point equations and is, up to two factors, the only minimiser; every
pair of positive definite matrices has a next one. -/
structure KronMin (X : Matrix (Fin N) (Fin (a * b)) 𝕜) (A : Matrix (Fin a) (Fin a) 𝕜)
    (B : Matrix (Fin b) (Fin b) 𝕜) : Prop where
  hN : 0 < N
  ha : 0 < a
  hb : 0 < b
  h0 : ∀ i, X i ≠ 0
  posA : A.PosDef
  posB : B.PosDef
  fixA : scatterA (fun i => unstack (X i)) A B = A
  fixB : scatterB (fun i => unstack (X i)) A B = B
  uniq : ∀ (A' : Matrix (Fin a) (Fin a) 𝕜) (B' : Matrix (Fin b) (Fin b) 𝕜), A'.PosDef →
    B'.PosDef → tylerCost X (kron A'ᵀ B') = tylerCost X (kron Aᵀ B) →
    ∃ s t : ℝ, A' = (s : 𝕜) • A ∧ B' = (t : 𝕜) • B
  next : ∀ (P : Matrix (Fin a) (Fin a) 𝕜) (Q : Matrix (Fin b) (Fin b) 𝕜), P.PosDef → Q.PosDef →
    ∃ P' Q', KronUpdate (fun i => unstack (X i)) P P' Q Q'

/-- The cost above its minimum. -/
noncomputable def kronGap (X : Matrix (Fin N) (Fin (a * b)) 𝕜) (A : Matrix (Fin a) (Fin a) 𝕜)
    (B : Matrix (Fin b) (Fin b) 𝕜) (P : Matrix (Fin a) (Fin a) 𝕜) (Q : Matrix (Fin b) (Fin b) 𝕜) : ℝ :=
  tylerCost X (kron Pᵀ Q) - tylerCost X (kron Aᵀ B)

/-- Its square root. -/
noncomputable def kronDev (X : Matrix (Fin N) (Fin (a * b)) 𝕜) (A : Matrix (Fin a) (Fin a) 𝕜)
    (B : Matrix (Fin b) (Fin b) 𝕜) (P : Matrix (Fin a) (Fin a) 𝕜) (Q : Matrix (Fin b) (Fin b) 𝕜) : ℝ :=
  Real.sqrt (kronGap X A B P Q)

theorem kronDev_nonneg (X : Matrix (Fin N) (Fin (a * b)) 𝕜) (A : Matrix (Fin a) (Fin a) 𝕜)
    (B : Matrix (Fin b) (Fin b) 𝕜) (P : Matrix (Fin a) (Fin a) 𝕜) (Q : Matrix (Fin b) (Fin b) 𝕜) :
    0 ≤ kronDev X A B P Q := Real.sqrt_nonneg _

variable {X : Matrix (Fin N) (Fin (a * b)) 𝕜} {A : Matrix (Fin a) (Fin a) 𝕜}
  {B : Matrix (Fin b) (Fin b) 𝕜}

theorem KronMin.gap_nonneg (h : KronMin X A B) {P : Matrix (Fin a) (Fin a) 𝕜}
    {Q : Matrix (Fin b) (Fin b) 𝕜} (hP : P.PosDef) (hQ : Q.PosDef) : 0 ≤ kronGap X A B P Q :=
  sub_nonneg.2 (kron_fixed_minimises X h.hN h.h0 h.posA h.posB h.fixA h.fixB hP hQ)

theorem KronMin.dev_sq (h : KronMin X A B) {P : Matrix (Fin a) (Fin a) 𝕜}
    {Q : Matrix (Fin b) (Fin b) 𝕜} (hP : P.PosDef) (hQ : Q.PosDef) :
    kronDev X A B P Q ^ 2 = kronGap X A B P Q := Real.sq_sqrt (h.gap_nonneg hP hQ)

/-! ## Coordinates -/

/-- `P` is a multiple of `A` up to factors between `exp (-ρ)` and `exp ρ`. -/
def NearRay {n : ℕ} (A P : Matrix (Fin n) (Fin n) 𝕜) (ρ : ℝ) : Prop :=
  ∃ (G : Matrix (Fin n) (Fin n) 𝕜) (x : Fin n → ℝ) (s : ℝ), G * A * Gᴴ = 1 ∧
    G * P * Gᴴ = diagonal (fun j => ((Real.exp (x j + s) : ℝ) : 𝕜)) ∧ ∀ j, |x j| ≤ ρ

theorem KronMin.coords (h : KronMin X A B) (E : ℝ) :
    ∃ c : ℝ, 0 ≤ c ∧ ∀ (P : Matrix (Fin a) (Fin a) 𝕜) (Q : Matrix (Fin b) (Fin b) 𝕜), P.PosDef →
      Q.PosDef → kronGap X A B P Q ≤ E →
      NearRay A P (c * kronDev X A B P Q) ∧ NearRay B Q (c * kronDev X A B P Q) := by
  obtain ⟨κ, hκ, hgrow⟩ := kron_quadratic_growth X h.hN h.ha h.hb h.h0 h.posA h.posB h.fixA h.fixB
    h.uniq E
  refine ⟨(Real.sqrt κ)⁻¹, by positivity, fun P Q hP hQ hE => ?_⟩
  have hM : ∀ i, (unstack (X i) : Matrix (Fin b) (Fin a) 𝕜) ≠ 0 := fun i => unstack_ne_zero (h.h0 i)
  obtain ⟨G, x, g1, g2⟩ := simultaneous_exp A P h.posA hP
  obtain ⟨H, y, k1, k2⟩ := simultaneous_exp B Q h.posB hQ
  have hG := whitening_isUnit g1
  have hH := whitening_isUnit k1
  have c1 := kronF_eq X h.posA h.posB hP hQ hG hH x y g1 k1 g2 k2
  rw [← kronF_shift _ hM hG hH x y (-((∑ c, x c) / a)) (-((∑ r, y r) / b))] at c1
  obtain ⟨x', hx'⟩ : ∃ x' : Fin a → ℝ, x' = fun c => x c + -((∑ c, x c) / a) := ⟨_, rfl⟩
  obtain ⟨y', hy'⟩ : ∃ y' : Fin b → ℝ, y' = fun r => y r + -((∑ r, y r) / b) := ⟨_, rfl⟩
  have s1 : ∑ c, x' c = 0 := by rw [hx']; exact sub_mean_sum x
  have s2 : ∑ c, y' c = 0 := by rw [hy']; exact sub_mean_sum y
  rw [← hx', ← hy'] at c1
  have hF : kronF (fun i => (unstack (X i) : Matrix (Fin b) (Fin a) 𝕜)) G H x' y' =
      kronGap X A B P Q := by
    unfold kronGap
    linarith
  have hgr := hgrow G H x' y' g1 k1 s1 s2 (by rw [hF]; exact hE)
  rw [hF] at hgr
  have hn : ‖(x', y')‖ ≤ (Real.sqrt κ)⁻¹ * kronDev X A B P Q := by
    have hk : 0 < Real.sqrt κ := Real.sqrt_pos.2 hκ
    rw [← div_eq_inv_mul, le_div_iff₀ hk]
    refine (abs_le_of_sq_le_sq' ?_ (kronDev_nonneg _ _ _ _ _)).2
    rw [mul_pow, Real.sq_sqrt hκ.le, h.dev_sq hP hQ]
    linarith
  refine ⟨⟨G, x', (∑ c, x c) / a, g1, ?_, fun j => ?_⟩, ⟨H, y', (∑ r, y r) / b, k1, ?_, fun j => ?_⟩⟩
  · rw [g2, hx']
    simp only [neg_add_cancel_right]
  · refine le_trans ?_ hn
    rw [← Real.norm_eq_abs]
    exact (norm_le_pi_norm x' j).trans (norm_fst_le (x', y'))
  · rw [k2, hy']
    simp only [neg_add_cancel_right]
  · refine le_trans ?_ hn
    rw [← Real.norm_eq_abs]
    exact (norm_le_pi_norm y' j).trans (norm_snd_le (x', y'))

theorem NearRay.between {n : ℕ} {A P : Matrix (Fin n) (Fin n) 𝕜} {ρ : ℝ} (h : NearRay A P ρ) :
    ∃ s : ℝ, Loewner (((Real.exp (-ρ + s) : ℝ) : 𝕜) • A) P ∧
      Loewner P (((Real.exp (ρ + s) : ℝ) : 𝕜) • A) ∧
      (A.PosDef → RCLike.re (P⁻¹).trace ≤ Real.exp (ρ - s) * RCLike.re (A⁻¹).trace) := by
  obtain ⟨G, x, s, h1, h2, h3⟩ := h
  have hG := whitening_isUnit h1
  have hd : ∀ v : ℝ, G * (((v : ℝ) : 𝕜) • A) * Gᴴ = diagonal fun _ => (v : 𝕜) := fun v => by
    rw [Matrix.mul_smul, Matrix.smul_mul, h1, smul_one_eq_diagonal]
  refine ⟨s, ?_, ?_, fun hA => ?_⟩
  · rw [← Loewner.congr_iff hG, h2, hd, loewner_diagonal]
    exact fun j => Real.exp_le_exp.2 (by linarith [(abs_le.1 (h3 j)).1])
  · rw [← Loewner.congr_iff hG, h2, hd, loewner_diagonal]
    exact fun j => Real.exp_le_exp.2 (by linarith [(abs_le.1 (h3 j)).2])
  · have iP := inv_of_diag hG (fun j => Real.exp_pos (x j + s)) h2
    have iA := whitening_inv h1
    have l1 : Loewner (diagonal fun j => ((Real.exp (-(x j + s)) : ℝ) : 𝕜))
        (diagonal fun _ => ((Real.exp (ρ - s) : ℝ) : 𝕜)) := by
      rw [loewner_diagonal]
      exact fun j => Real.exp_le_exp.2 (by linarith [(abs_le.1 (h3 j)).1])
    have l2 := (l1.congr Gᴴ).trace_le
    rw [← smul_one_eq_diagonal, Matrix.mul_smul, Matrix.smul_mul, Matrix.mul_one,
      conjTranspose_conjTranspose, ← iA, trace_smul, smul_eq_mul, RCLike.re_ofReal_mul] at l2
    refine le_trans (le_of_eq ?_) l2
    rw [iP]
    congr 5
    funext j
    rw [Real.exp_neg, RCLike.ofReal_inv]

theorem trace_re_nonneg {n : ℕ} {A : Matrix (Fin n) (Fin n) 𝕜} (h : A.PosSemidef) :
    0 ≤ RCLike.re A.trace := (RCLike.nonneg_iff.1 h.trace_nonneg).1

/-- The condition number. -/
theorem NearRay.cond {n : ℕ} {A P : Matrix (Fin n) (Fin n) 𝕜} {ρ : ℝ} (h : NearRay A P ρ)
    (hA : A.PosDef) (hP : P.PosDef) : RCLike.re (P⁻¹).trace * frob P ≤
      Real.exp (2 * ρ) * (RCLike.re (A⁻¹).trace * RCLike.re A.trace) := by
  obtain ⟨s, -, h2, h3⟩ := h.between
  have h4 := h2.trace_le
  rw [trace_smul, smul_eq_mul, RCLike.re_ofReal_mul] at h4
  have h5 := (frob_le_trace hP.posSemidef).trans h4
  have h6 := mul_le_mul (h3 hA) h5 (frob_nonneg P)
    (mul_nonneg (Real.exp_pos _).le (trace_re_nonneg hA.inv.posSemidef))
  refine h6.trans (le_of_eq ?_)
  have h7 : Real.exp (2 * ρ) = Real.exp (ρ - s) * Real.exp (ρ + s) := by
    rw [← Real.exp_add]
    congr 1
    ring
  rw [h7]
  ring

/-- The distance to the ray. -/
theorem NearRay.frob_le {n : ℕ} {A P : Matrix (Fin n) (Fin n) 𝕜} {ρ : ℝ} (h : NearRay A P ρ)
    (hA : A.PosDef) (hρ : 0 ≤ ρ) : ∃ s : ℝ, 0 < s ∧
      frob (P - (s : 𝕜) • A) ≤ 3 * (ρ * Real.exp ρ) * (s * RCLike.re A.trace) := by
  obtain ⟨s, h1, h2, -⟩ := h.between
  have hs : 0 < Real.exp s := Real.exp_pos s
  refine ⟨Real.exp s, hs, ?_⟩
  have hsA : (((Real.exp s : ℝ) : 𝕜) • A).PosDef := hA.smul (by exact_mod_cast hs)
  have he : 0 ≤ Real.exp ρ - 1 := by linarith [Real.one_le_exp hρ]
  have l1 : Loewner ((((1 + (Real.exp ρ - 1))⁻¹ : ℝ) : 𝕜) • (((Real.exp s : ℝ) : 𝕜) • A)) P := by
    rwa [add_sub_cancel, smul_smul, ← RCLike.ofReal_mul, ← Real.exp_neg, ← Real.exp_add]
  have l2 : Loewner P (((1 + (Real.exp ρ - 1) : ℝ) : 𝕜) • (((Real.exp s : ℝ) : 𝕜) • A)) := by
    rwa [add_sub_cancel, smul_smul, ← RCLike.ofReal_mul, ← Real.exp_add]
  have h3 := frob_squeeze hsA he l1 l2
  rw [trace_smul, smul_eq_mul, RCLike.re_ofReal_mul] at h3
  refine h3.trans (mul_le_mul_of_nonneg_right ?_ (mul_nonneg hs.le (trace_re_nonneg hA.posSemidef)))
  have h4 : Real.exp ρ - 1 ≤ ρ * Real.exp ρ := by
    have h5 := Real.add_one_le_exp (-ρ)
    have h6 := mul_le_mul_of_nonneg_right h5 (Real.exp_pos ρ).le
    rw [← Real.exp_add, neg_add_cancel, Real.exp_zero] at h6
    linarith
  linarith

/-! ## Hermitian perturbations -/

/-- A Hermitian perturbation that is small against the condition number. -/
theorem perturbed_between {n : ℕ} {P P₁ : Matrix (Fin n) (Fin n) 𝕜} (hP : P.PosDef)
    (hP₁ : P₁.IsHermitian) {η : ℝ} (hη : RCLike.re (P⁻¹).trace * frob (P₁ - P) ≤ η) :
    Loewner (((1 - η : ℝ) : 𝕜) • P) P₁ ∧ Loewner P₁ (((1 + η : ℝ) : 𝕜) • P) := by
  obtain ⟨R, hR, hRR⟩ := exists_pd_root hP
  have hu := (isUnit_iff_isUnit_det R).1 hR.isUnit
  have hRi : (R⁻¹)ᴴ = R⁻¹ := hR.inv.1.eq
  have hiu : IsUnit R⁻¹ := hR.inv.isUnit
  have hw : R⁻¹ * P * (R⁻¹)ᴴ = 1 := by
    rw [hRi, ← hRR, ← Matrix.mul_assoc, nonsing_inv_mul _ hu, Matrix.one_mul, mul_nonsing_inv _ hu]
  have f2 : frob R⁻¹ * frob R⁻¹ = RCLike.re (P⁻¹).trace := by
    rw [← sq, frob_sq_herm hR.inv.1, ← hRR, Matrix.mul_inv_rev]
  have hf := frob_sandwich R⁻¹ (P₁ - P)
  rw [f2] at hf
  have hZ : (R⁻¹ * (P₁ - P) * R⁻¹).IsHermitian := by
    have := isHermitian_mul_mul_conjTranspose R⁻¹ (hP₁.sub hP.1)
    rwa [hRi] at this
  have z1 := hermitian_le_frob hZ
  have z2 := hermitian_le_frob hZ.neg
  have hfn : frob (-(R⁻¹ * (P₁ - P) * R⁻¹)) = frob (R⁻¹ * (P₁ - P) * R⁻¹) := by
    have := frob_sub_comm 0 (R⁻¹ * (P₁ - P) * R⁻¹)
    rwa [zero_sub, sub_zero] at this
  rw [hfn] at z2
  have hle := loewner_smul_le (𝕜 := 𝕜) (A := (1 : Matrix (Fin n) (Fin n) 𝕜)) PosSemidef.one
    (hf.trans hη)
  have z1' := z1.trans hle
  have z2' := z2.trans hle
  have e : ∀ v : ℝ, R⁻¹ * ((v : 𝕜) • P) * (R⁻¹)ᴴ = (v : 𝕜) • 1 := fun v => by
    rw [Matrix.mul_smul, Matrix.smul_mul, hw]
  have e1 : R⁻¹ * P₁ * (R⁻¹)ᴴ = 1 + R⁻¹ * (P₁ - P) * R⁻¹ := by
    rw [Matrix.mul_sub, Matrix.sub_mul, ← hw, hRi]
    abel
  rw [← Loewner.congr_iff hiu, ← Loewner.congr_iff (A := P₁) hiu, e, e, e1]
  unfold Loewner at z1' z2' ⊢
  constructor
  · convert z2' using 1
    push_cast
    module
  · convert z1' using 1
    push_cast
    module

theorem perturbed_coords {n : ℕ} {P P₁ : Matrix (Fin n) (Fin n) 𝕜} (hP : P.PosDef)
    (hP₁ : P₁.IsHermitian) {η : ℝ} (hη : RCLike.re (P⁻¹).trace * frob (P₁ - P) ≤ η)
    (hη0 : 0 ≤ η) (hη1 : η ≤ 1 / 2) :
    P₁.PosDef ∧ ∃ (G : Matrix (Fin n) (Fin n) 𝕜) (x : Fin n → ℝ), G * P₁ * Gᴴ = 1 ∧
      G * P * Gᴴ = diagonal (fun j => ((Real.exp (x j) : ℝ) : 𝕜)) ∧ ∀ j, |x j| ≤ 2 * η := by
  obtain ⟨h1, h2⟩ := perturbed_between hP hP₁ hη
  have hpos : P₁.PosDef := h1.posDef (hP.smul (by
    have : (0 : ℝ) < 1 - η := by linarith
    exact_mod_cast this))
  obtain ⟨G, x, g1, g2⟩ := simultaneous_exp P₁ P hpos hP
  refine ⟨hpos, G, x, g1, g2, fun j => ?_⟩
  have e : ∀ v : ℝ, G * ((v : 𝕜) • P) * Gᴴ =
      diagonal fun j => ((v * Real.exp (x j) : ℝ) : 𝕜) := fun v => by
    rw [Matrix.mul_smul, Matrix.smul_mul, g2, ← diagonal_smul]
    congr 1
    funext j
    simp
  have d1 := h1.congr G
  have d2 := h2.congr G
  have one : (1 : Matrix (Fin n) (Fin n) 𝕜) = diagonal fun _ => ((1 : ℝ) : 𝕜) := by simp
  rw [e, g1, one, loewner_diagonal] at d1
  rw [e, g1, one, loewner_diagonal] at d2
  have d1 := d1 j
  have d2 := d2 j
  have hx := Real.exp_pos (x j)
  rw [abs_le]
  constructor
  · have h3 : Real.exp (-x j) ≤ 1 + η := by
      rw [Real.exp_neg, inv_le_iff_one_le_mul₀ hx]
      linarith
    have := Real.add_one_le_exp (-x j)
    linarith
  · have h3 := Real.add_one_le_exp (x j)
    nlinarith

/-! ## The slope of the cost -/

theorem kron_slope (X : Matrix (Fin N) (Fin (a * b)) 𝕜) (hN : 0 < N) (ha : 0 < a) (hb : 0 < b)
    (h0 : ∀ i, X i ≠ 0) :
    ∃ L : ℝ, 0 ≤ L ∧ ∀ (P P' : Matrix (Fin a) (Fin a) 𝕜) (Q Q' : Matrix (Fin b) (Fin b) 𝕜),
      P.PosDef → Q.PosDef → KronUpdate (fun i => unstack (X i)) P P' Q Q' →
      ∀ (G : Matrix (Fin a) (Fin a) 𝕜) (H : Matrix (Fin b) (Fin b) 𝕜) (x : Fin a → ℝ)
        (y : Fin b → ℝ) (n : ℝ), 0 ≤ n → G * P * Gᴴ = 1 → H * Q * Hᴴ = 1 → (∀ c, |x c| ≤ n) →
        (∀ r, |y r| ≤ n) →
        -(L * n) ≤ kronF (fun i => unstack (X i)) G H x y ∧
        (halfStep P P' ≤ 1 / 2 → -(L * (n * (halfStep P P' + halfStep Q Q'))) ≤
          kronF (fun i => unstack (X i)) G H x y) := by
  have hM : ∀ i, (unstack (X i) : Matrix (Fin b) (Fin a) 𝕜) ≠ 0 := fun i => unstack_ne_zero (h0 i)
  obtain ⟨K, hK⟩ : ∃ K : ℝ, K = 4 * (1 + (2 * b + 2) * (2 * b)) + (2 * b + 2) + (2 * a + 2) :=
    ⟨_, rfl⟩
  have hK0 : 0 < K := by rw [hK]; positivity
  have hNR : (0 : ℝ) < N := by exact_mod_cast hN
  have ha1 : (1 : ℝ) ≤ a := by exact_mod_cast ha
  have hb1 : (1 : ℝ) ≤ b := by exact_mod_cast hb
  have n1 : ∀ {m : ℕ} (v s : Fin m → ℝ), ∑ c, v c * (1 - s c) = -∑ c, v c * (s c - 1) :=
    fun v s => by
      rw [← Finset.sum_neg_distrib]
      exact Finset.sum_congr rfl fun c _ => by ring
  -- from a bound on the diagonals
  have main : ∀ (P : Matrix (Fin a) (Fin a) 𝕜) (Q : Matrix (Fin b) (Fin b) 𝕜)
      (G : Matrix (Fin a) (Fin a) 𝕜) (H : Matrix (Fin b) (Fin b) 𝕜) (x : Fin a → ℝ)
      (y : Fin b → ℝ) (n S : ℝ), 0 ≤ n → G * P * Gᴴ = 1 → H * Q * Hᴴ = 1 → (∀ c, |x c| ≤ n) →
      (∀ r, |y r| ≤ n) →
      (∀ c, |RCLike.re ((G * scatterA (fun i => unstack (X i)) P Q * Gᴴ) c c) - 1| ≤ S) →
      (∀ r, |RCLike.re ((H * scatterB (fun i => unstack (X i)) P Q * Hᴴ) r r) - 1| ≤ S) →
      -(2 * N * a * b * (n * S)) ≤ kronF (fun i => unstack (X i)) G H x y := by
    intro P Q G H x y n S hn g1 k1 bx bY dA dB
    have hge := kronF_ge (fun i => (unstack (X i) : Matrix (Fin b) (Fin a) 𝕜)) hM hN
      (whitening_isUnit g1) (whitening_isUnit k1) g1 k1 x y
    have m1 := sum_mul_le x _ hn bx dA
    have m2 := sum_mul_le y _ hn bY dB
    rw [n1, n1] at hge
    have m3 := mul_le_mul_of_nonneg_left (add_le_add
      (mul_le_mul_of_nonneg_left m1 (by linarith : (0 : ℝ) ≤ b))
      (mul_le_mul_of_nonneg_left m2 (by linarith : (0 : ℝ) ≤ a))) hNR.le
    linarith
  refine ⟨2 * N * a * b * (K + (a + b)), by positivity,
    fun P P' Q Q' hP hQ u G H x y n hn g1 k1 bx bY => ⟨?_, fun hf => ?_⟩⟩
  · have hG := whitening_isUnit g1
    have hH := whitening_isUnit k1
    have ratio : ∀ (v : Fin N → ℝ), (∀ i, 0 ≤ v i ∧ v i ≤ 1) → ∀ m : ℝ, 1 ≤ m →
        |m / N * ∑ i, v i - 1| ≤ m := fun v hv m hm => by
      have s0 : 0 ≤ ∑ i, v i := Finset.sum_nonneg fun i _ => (hv i).1
      have s1 : ∑ i, v i ≤ N := by
        have := Finset.sum_le_sum (s := Finset.univ) fun i _ => (hv i).2
        simpa using this
      have e : m / N * ∑ i, v i = m * ((∑ i, v i) / N) := by ring
      have q0 : 0 ≤ (∑ i, v i) / N := by positivity
      have q1 : (∑ i, v i) / N ≤ 1 := by rw [div_le_one hNR]; exact s1
      rw [e, abs_le]
      constructor <;> nlinarith
    have d := main P Q G H x y n (a + b) hn g1 k1 bx bY (fun c => by
      rw [scatterA_entry _ hG hH g1 k1, RCLike.ofReal_re]
      refine (ratio _ (fun i => ?_) a ha1).trans (by linarith)
      have hT := kronTau_sum_pos (hM i) hG hH
      refine ⟨div_nonneg (Finset.sum_nonneg fun r _ => kronTau_nonneg _ _ _ _ _) hT.le, ?_⟩
      rw [div_le_one hT]
      exact Finset.single_le_sum (f := fun c => ∑ r, kronTau (unstack (X i)) G H c r)
        (fun c _ => Finset.sum_nonneg fun r _ => kronTau_nonneg _ _ _ _ _) (Finset.mem_univ c))
      (fun r => by
      rw [scatterB_entry _ hG hH (l := fun _ => 1) (fun _ => one_pos) (by rw [g1]; simp) k1,
        RCLike.ofReal_re]
      simp only [div_one]
      refine (ratio _ (fun i => ?_) b hb1).trans (by linarith)
      have hT := kronTau_sum_pos (hM i) hG hH
      refine ⟨div_nonneg (Finset.sum_nonneg fun c _ => kronTau_nonneg _ _ _ _ _) hT.le, ?_⟩
      rw [div_le_one hT]
      exact Finset.sum_le_sum fun c _ => Finset.single_le_sum
        (f := fun r => kronTau (unstack (X i)) G H c r)
        (fun r _ => kronTau_nonneg _ _ _ _ _) (Finset.mem_univ r))
    have : 0 ≤ 2 * N * a * b * (n * K) := by positivity
    linarith
  · obtain ⟨⟨p1, p2⟩, ⟨q1, q2⟩, -⟩ := kron_descent X hN h0 hP hQ u
    have f0 := halfStep_nonneg P P'
    have g0 := halfStep_nonneg Q Q'
    have hgb : halfStep Q Q' ≤ 2 * b := by
      have h1 := halfStep_le hQ u.posB q2
      by_contra hcon
      push Not at hcon
      nlinarith
    obtain ⟨w, hw⟩ : ∃ w, w = halfStep P P' + halfStep Q Q' := ⟨_, rfl⟩
    have hw0 : 0 ≤ w := by rw [hw]; positivity
    have d := main P Q G H x y n (K * w) hn g1 k1 bx bY (fun c => by
      refine (halfStep_diag hP u.posA u.eqA p1 p2 g1 c).trans ?_
      have h1 : (2 * (a : ℝ) + 2) ≤ K := by
        rw [hK]
        have : (0 : ℝ) ≤ 4 * (1 + (2 * b + 2) * (2 * b)) + (2 * b + 2) := by positivity
        linarith
      exact mul_le_mul h1 (by rw [hw]; linarith) f0 hK0.le) (fun r => by
      have h1 := halfStep_diag hQ u.posB u.eqB q1 q2 k1 r
      have h2 := scatterB_diag_change (fun i => (unstack (X i) : Matrix (Fin b) (Fin a) 𝕜)) hM hP
        u.posA p1 p2 k1 hf r
      obtain ⟨T, hT⟩ : ∃ T, T = RCLike.re ((H * scatterB (fun i => unstack (X i)) P Q * Hᴴ) r r) :=
        ⟨_, rfl⟩
      obtain ⟨T', hT'⟩ : ∃ T, T = RCLike.re ((H * scatterB (fun i => unstack (X i)) P' Q * Hᴴ) r r) :=
        ⟨_, rfl⟩
      rw [← hT'] at h1
      rw [← hT, ← hT'] at h2
      rw [← hT]
      have h3 : T' ≤ 1 + (2 * b + 2) * (2 * b) := by
        have := mul_le_mul_of_nonneg_left hgb (show (0 : ℝ) ≤ 2 * b + 2 by positivity)
        linarith [(abs_le.1 h1).2]
      have h4 : 4 * halfStep P P' * T' ≤ 4 * halfStep P P' * (1 + (2 * b + 2) * (2 * b)) :=
        mul_le_mul_of_nonneg_left h3 (by positivity)
      have h5 : |T - 1| ≤ |T - T'| + |T' - 1| := abs_sub_le _ _ _
      have h6 : 0 ≤ (2 * (b : ℝ) + 2 + (2 * a + 2)) * halfStep P P' := by positivity
      have h7 : 0 ≤ (4 * (1 + (2 * (b : ℝ) + 2) * (2 * b)) + (2 * a + 2)) * halfStep Q Q' := by
        positivity
      rw [hw, hK]
      linarith)
    rw [← hw]
    have : 0 ≤ 2 * N * a * b * (a + b) * (n * w) := by positivity
    linarith

/-! ## A step and a perturbation -/

/-- Condition numbers below a level of the cost. -/
theorem KronMin.cond (h : KronMin X A B) (E : ℝ) :
    ∃ K : ℝ, 0 ≤ K ∧ ∀ (P : Matrix (Fin a) (Fin a) 𝕜) (Q : Matrix (Fin b) (Fin b) 𝕜), P.PosDef →
      Q.PosDef → kronGap X A B P Q ≤ E →
      RCLike.re (P⁻¹).trace * frob P ≤ K ∧ RCLike.re (Q⁻¹).trace * frob Q ≤ K := by
  obtain ⟨c, hc, hco⟩ := h.coords E
  obtain ⟨TA, hTA⟩ : ∃ T, T = RCLike.re (A⁻¹).trace * RCLike.re A.trace := ⟨_, rfl⟩
  obtain ⟨TB, hTB⟩ : ∃ T, T = RCLike.re (B⁻¹).trace * RCLike.re B.trace := ⟨_, rfl⟩
  have tA : 0 ≤ TA := hTA ▸ mul_nonneg (trace_re_nonneg h.posA.inv.posSemidef)
    (trace_re_nonneg h.posA.posSemidef)
  have tB : 0 ≤ TB := hTB ▸ mul_nonneg (trace_re_nonneg h.posB.inv.posSemidef)
    (trace_re_nonneg h.posB.posSemidef)
  refine ⟨Real.exp (2 * (c * Real.sqrt E)) * (TA + TB), by positivity, fun P Q hP hQ hE => ?_⟩
  obtain ⟨n1, n2⟩ := hco P Q hP hQ hE
  have hd : kronDev X A B P Q ≤ Real.sqrt E := Real.sqrt_le_sqrt hE
  have he : Real.exp (2 * (c * kronDev X A B P Q)) ≤ Real.exp (2 * (c * Real.sqrt E)) :=
    Real.exp_le_exp.2 (by linarith [mul_le_mul_of_nonneg_left hd hc])
  constructor
  · refine (n1.cond h.posA hP).trans ?_
    rw [← hTA]
    exact mul_le_mul he (by linarith) tA (Real.exp_pos _).le
  · refine (n2.cond h.posB hQ).trans ?_
    rw [← hTB]
    exact mul_le_mul he (by linarith) tB (Real.exp_pos _).le

/-- A step: the deviation contracts, and is comparable with the length of the step. -/
theorem KronMin.step (h : KronMin X A B) (E : ℝ) :
    ∃ r C : ℝ, 0 ≤ r ∧ r < 1 ∧ 0 ≤ C ∧
      ∀ (P P' : Matrix (Fin a) (Fin a) 𝕜) (Q Q' : Matrix (Fin b) (Fin b) 𝕜), P.PosDef → Q.PosDef →
      KronUpdate (fun i => unstack (X i)) P P' Q Q' → kronGap X A B P Q ≤ E →
      kronDev X A B P' Q' ≤ r * kronDev X A B P Q ∧ halfStep P P' ≤ 2 * kronDev X A B P Q ∧
      halfStep Q Q' ≤ 2 * kronDev X A B P Q ∧
      kronDev X A B P Q ≤ C * (halfStep P P' + halfStep Q Q') := by
  obtain ⟨C, hC, hgap⟩ := kron_gap_le X h.hN h.ha h.hb h.h0 h.posA h.posB h.fixA h.fixB h.uniq E
  have hD0 : 0 < 2 * C + 1 := by linarith
  have hi : 0 < (2 * C + 1)⁻¹ := inv_pos.2 hD0
  have hi1 : (2 * C + 1)⁻¹ ≤ 1 := inv_le_one_of_one_le₀ (by linarith)
  refine ⟨Real.sqrt (1 - (2 * C + 1)⁻¹), C + 1, Real.sqrt_nonneg _, ?_, by linarith,
    fun P P' Q Q' hP hQ u hE => ?_⟩
  · rw [Real.sqrt_lt' one_pos]
    linarith
  have f0 := halfStep_nonneg P P'
  have g0 := halfStep_nonneg Q Q'
  have d0 := kronDev_nonneg X A B P Q
  have hN1 : (1 : ℝ) ≤ N := by exact_mod_cast h.hN
  have ha1 : (1 : ℝ) ≤ a := by exact_mod_cast h.ha
  have hb1 : (1 : ℝ) ≤ b := by exact_mod_cast h.hb
  have gap := hgap P P' Q Q' hP hQ u hE
  have e1 := h.dev_sq hP hQ
  have e0' := h.gap_nonneg u.posA u.posB
  have dec : halfStep P P' ^ 2 + halfStep Q Q' ^ 2 ≤
      2 * (kronGap X A B P Q - kronGap X A B P' Q') := by
    have h1 := (kron_descent X h.hN h.h0 hP hQ u).2.2
    have h2 : halfStep P P' ^ 2 + halfStep Q Q' ^ 2 ≤ b * halfStep P P' ^ 2 + a * halfStep Q Q' ^ 2 :=
      add_le_add (le_mul_of_one_le_left (sq_nonneg _) hb1) (le_mul_of_one_le_left (sq_nonneg _) ha1)
    have h3 : b * halfStep P P' ^ 2 + a * halfStep Q Q' ^ 2 ≤
        N * (b * halfStep P P' ^ 2 + a * halfStep Q Q' ^ 2) :=
      le_mul_of_one_le_left (by positivity) hN1
    unfold kronGap
    linarith
  change kronGap X A B P Q ≤ _ at gap
  refine ⟨?_, ?_, ?_, ?_⟩
  · rw [kronDev, kronDev, ← Real.sqrt_mul (by linarith)]
    refine Real.sqrt_le_sqrt ?_
    have h1 := mul_le_mul_of_nonneg_left dec hC.le
    have h2 : kronGap X A B P Q ≤ (2 * C + 1) * (kronGap X A B P Q - kronGap X A B P' Q') := by
      have : 0 ≤ halfStep P P' ^ 2 + halfStep Q Q' ^ 2 := by positivity
      linarith
    have h3 := mul_le_mul_of_nonneg_left h2 hi.le
    rw [← mul_assoc, inv_mul_cancel₀ hD0.ne', one_mul] at h3
    linarith
  · refine (abs_le_of_sq_le_sq' ?_ (by linarith)).2
    nlinarith [sq_nonneg (halfStep Q Q')]
  · refine (abs_le_of_sq_le_sq' ?_ (by linarith)).2
    nlinarith [sq_nonneg (halfStep P P')]
  · refine (abs_le_of_sq_le_sq' ?_ (by positivity)).2
    rw [e1]
    refine gap.trans ?_
    rw [mul_pow]
    have h7 : C ≤ (C + 1) ^ 2 := by nlinarith
    refine mul_le_mul h7 ?_ (by positivity) (by positivity)
    nlinarith [mul_nonneg f0 g0]

theorem dev_arith {d d₁ v : ℝ} (hd : 0 ≤ d) (hv : 0 ≤ v) (h : d₁ ^ 2 ≤ d ^ 2 + 2 * v * d₁) :
    d₁ ≤ d + 2 * v := by
  have h1 : (d₁ - v) ^ 2 ≤ (d + v) ^ 2 := by nlinarith [mul_nonneg hd hv]
  have := (abs_le_of_sq_le_sq' h1 (by linarith)).2
  linarith

/-- A perturbation of relative size `u` adds a multiple of `u` to the deviation. -/
theorem KronMin.perturb (h : KronMin X A B) (E : ℝ) :
    ∃ c u0 : ℝ, 0 ≤ c ∧ 0 < u0 ∧
      ∀ (P P₁ : Matrix (Fin a) (Fin a) 𝕜) (Q Q₁ : Matrix (Fin b) (Fin b) 𝕜) (u : ℝ), P.PosDef →
      Q.PosDef → P₁.IsHermitian → Q₁.IsHermitian → kronGap X A B P Q ≤ E → 0 ≤ u → u ≤ u0 →
      frob (P₁ - P) ≤ u * frob P → frob (Q₁ - Q) ≤ u * frob Q →
      P₁.PosDef ∧ Q₁.PosDef ∧ kronDev X A B P₁ Q₁ ≤ kronDev X A B P Q + c * u := by
  obtain ⟨K, hK, hcond⟩ := h.cond E
  obtain ⟨L, hL, hslope⟩ := kron_slope X h.hN h.ha h.hb h.h0
  have hu0 : 0 < 1 / (2 * (K + 1)) := by positivity
  refine ⟨8 * L * K, 1 / (2 * (K + 1)), by positivity, hu0,
    fun P P₁ Q Q₁ u hP hQ hP₁ hQ₁ hE hu huu n1 n2 => ?_⟩
  obtain ⟨k1, k2⟩ := hcond P Q hP hQ hE
  have hη0 : 0 ≤ K * u := mul_nonneg hK hu
  have hη1 : K * u ≤ 1 / 2 := by
    rw [le_div_iff₀ (by positivity)] at huu
    linarith
  have η1 : RCLike.re (P⁻¹).trace * frob (P₁ - P) ≤ K * u := by
    have h1 := mul_le_mul_of_nonneg_left n1 (trace_re_nonneg hP.inv.posSemidef)
    have h2 := mul_le_mul_of_nonneg_right k1 hu
    linarith
  have η2 : RCLike.re (Q⁻¹).trace * frob (Q₁ - Q) ≤ K * u := by
    have h1 := mul_le_mul_of_nonneg_left n2 (trace_re_nonneg hQ.inv.posSemidef)
    have h2 := mul_le_mul_of_nonneg_right k2 hu
    linarith
  obtain ⟨p1, G, x, g1, g2, bx⟩ := perturbed_coords hP hP₁ η1 hη0 hη1
  obtain ⟨q1, H, y, k1', k2', bY⟩ := perturbed_coords hQ hQ₁ η2 hη0 hη1
  refine ⟨p1, q1, ?_⟩
  have c1 := kronF_eq X p1 q1 hP hQ (whitening_isUnit g1) (whitening_isUnit k1') x y g1 k1' g2 k2'
  obtain ⟨P', Q', up⟩ := h.next P₁ Q₁ p1 q1
  obtain ⟨s1, s2⟩ := hslope P₁ P' Q₁ Q' p1 q1 up G H x y (2 * (K * u)) (by linarith) g1 k1' bx bY
  have hd0 := kronDev_nonneg X A B P Q
  have hd1 := kronDev_nonneg X A B P₁ Q₁
  have e0 := h.dev_sq hP hQ
  have e1 := h.dev_sq p1 q1
  obtain ⟨F, hF⟩ : ∃ F, F = kronF (fun i => (unstack (X i) : Matrix (Fin b) (Fin a) 𝕜)) G H x y :=
    ⟨_, rfl⟩
  rw [← hF] at c1 s1 s2
  have e2 : kronDev X A B P₁ Q₁ ^ 2 = kronDev X A B P Q ^ 2 - F := by
    rw [e0, e1]
    unfold kronGap
    linarith
  have ef : halfStep P₁ P' ^ 2 + halfStep Q₁ Q' ^ 2 ≤ 2 * kronDev X A B P₁ Q₁ ^ 2 := by
    have h1 := (kron_descent X h.hN h.h0 p1 q1 up).2.2
    have h4 := h.gap_nonneg up.posA up.posB
    have hN1 : (1 : ℝ) ≤ N := by exact_mod_cast h.hN
    have ha1 : (1 : ℝ) ≤ a := by exact_mod_cast h.ha
    have hb1 : (1 : ℝ) ≤ b := by exact_mod_cast h.hb
    have h2 : halfStep P₁ P' ^ 2 + halfStep Q₁ Q' ^ 2 ≤
        b * halfStep P₁ P' ^ 2 + a * halfStep Q₁ Q' ^ 2 :=
      add_le_add (le_mul_of_one_le_left (sq_nonneg _) hb1) (le_mul_of_one_le_left (sq_nonneg _) ha1)
    have h3 : b * halfStep P₁ P' ^ 2 + a * halfStep Q₁ Q' ^ 2 ≤
        N * (b * halfStep P₁ P' ^ 2 + a * halfStep Q₁ Q' ^ 2) :=
      le_mul_of_one_le_left (by positivity) hN1
    rw [e1]
    unfold kronGap at h4 ⊢
    linarith
  have f0 := halfStep_nonneg P₁ P'
  have g0 := halfStep_nonneg Q₁ Q'
  have hf2 : halfStep P₁ P' ≤ 2 * kronDev X A B P₁ Q₁ := by
    refine (abs_le_of_sq_le_sq' ?_ (by linarith)).2
    nlinarith [sq_nonneg (halfStep Q₁ Q')]
  have hsum : halfStep P₁ P' + halfStep Q₁ Q' ≤ 2 * kronDev X A B P₁ Q₁ := by
    refine (abs_le_of_sq_le_sq' ?_ (by linarith)).2
    nlinarith [sq_nonneg (halfStep P₁ P' - halfStep Q₁ Q')]
  have hLK : 0 ≤ L * (2 * (K * u)) := by positivity
  have hfin : kronDev X A B P₁ Q₁ ^ 2 ≤
      kronDev X A B P Q ^ 2 + 2 * (4 * (L * (K * u))) * kronDev X A B P₁ Q₁ := by
    rw [e2]
    rcases le_or_gt (halfStep P₁ P') (1 / 2) with hf | hf
    · have s3 := s2 hf
      have h1 := mul_le_mul_of_nonneg_left hsum hLK
      have h2 := mul_nonneg hLK hd1
      nlinarith
    · have h1 : 1 ≤ 4 * kronDev X A B P₁ Q₁ := by linarith
      have h2 := mul_le_mul_of_nonneg_left h1 hLK
      nlinarith
  have := dev_arith hd0 (by positivity) hfin
  linarith

/-! ## The perturbed sequence -/

/-- One factor of a perturbed step: the relative change against the length of the exact step. -/
theorem perturbed_move {n : ℕ} {P P' P₁ : Matrix (Fin n) (Fin n) 𝕜} {f u K : ℝ} (hP : P.PosDef)
    (hp : 0 < frob P) (hf0 : 0 ≤ f) (hu : 0 ≤ u)
    (h1 : frob (P' - P) ≤ RCLike.re P.trace * f) (h2 : f ≤ RCLike.re (P⁻¹).trace * frob (P' - P))
    (h3 : frob (P₁ - P') ≤ u * frob P') (hK : RCLike.re (P⁻¹).trace * frob P ≤ K) :
    frob (P₁ - P) / frob P ≤ u + (1 + u) * (n * f) ∧
      f ≤ K * (frob (P₁ - P) / frob P + u * (1 + n * f)) := by
  have t1 := mul_le_mul_of_nonneg_right (re_trace_le_frob P) hf0
  have h4 : frob (P' - P) ≤ n * f * frob P := by linarith
  have h5 : frob P' ≤ (1 + n * f) * frob P := by
    have := frob_add_le (P' - P) P
    rw [sub_add_cancel] at this
    linarith
  have h6 : frob (P₁ - P') ≤ u * ((1 + n * f) * frob P) :=
    h3.trans (mul_le_mul_of_nonneg_left h5 hu)
  constructor
  · rw [div_le_iff₀ hp]
    have := frob_add_le (P₁ - P') (P' - P)
    rw [sub_add_sub_cancel] at this
    linarith
  · have h7 : frob (P' - P) ≤ frob (P₁ - P) + frob (P₁ - P') := by
      have := frob_add_le (P₁ - P) (P' - P₁)
      rw [sub_add_sub_cancel', frob_sub_comm P' P₁] at this
      exact this
    have h8 : frob (P₁ - P) = frob (P₁ - P) / frob P * frob P := by
      rw [div_mul_cancel₀ _ hp.ne']
    obtain ⟨e, he⟩ : ∃ e, e = frob (P₁ - P) / frob P := ⟨_, rfl⟩
    rw [← he] at h8 ⊢
    have he0 : 0 ≤ e := he ▸ div_nonneg (frob_nonneg _) hp.le
    have h9 : frob (P' - P) ≤ (e + u * (1 + n * f)) * frob P := by linarith
    have h10 := mul_le_mul_of_nonneg_left h9 (trace_re_nonneg hP.inv.posSemidef)
    have h11 : 0 ≤ e + u * (1 + n * f) := by positivity
    have h12 := mul_le_mul_of_nonneg_right hK h11
    linarith

/-- Every step is followed by a perturbation of relative size `u`. -/
def KronFlSeq (X : Matrix (Fin N) (Fin (a * b)) 𝕜) (u : ℝ) (P : ℕ → Matrix (Fin a) (Fin a) 𝕜)
    (Q : ℕ → Matrix (Fin b) (Fin b) 𝕜) : Prop :=
  ∀ k P' Q', (P k).PosDef → (Q k).PosDef → KronUpdate (fun i => unstack (X i)) (P k) P' (Q k) Q' →
    (P (k + 1)).IsHermitian ∧ frob (P (k + 1) - P') ≤ u * frob P' ∧
    (Q (k + 1)).IsHermitian ∧ frob (Q (k + 1) - Q') ≤ u * frob Q'

/-- Relative distance to the multiples of `A`. -/
def RayDist {n : ℕ} (A P : Matrix (Fin n) (Fin n) 𝕜) (ε : ℝ) : Prop :=
  ∃ s : ℝ, 0 < s ∧ frob (P - (s : 𝕜) • A) ≤ ε * frob ((s : 𝕜) • A)

theorem RayDist.mono {n : ℕ} {A P : Matrix (Fin n) (Fin n) 𝕜} {ε ε' : ℝ} (h : RayDist A P ε)
    (hε : ε ≤ ε') : RayDist A P ε' := by
  obtain ⟨s, hs, h1⟩ := h
  exact ⟨s, hs, h1.trans (mul_le_mul_of_nonneg_right hε (frob_nonneg _))⟩

theorem NearRay.rayDist {n : ℕ} {A P : Matrix (Fin n) (Fin n) 𝕜} {ρ R : ℝ} (h : NearRay A P ρ)
    (hA : A.PosDef) (hρ : 0 ≤ ρ) (hR : ρ ≤ R) : RayDist A P (3 * n * Real.exp R * ρ) := by
  obtain ⟨s, hs, h1⟩ := h.frob_le hA hρ
  refine ⟨s, hs, h1.trans ?_⟩
  rw [frob_smul, abs_of_pos hs]
  have h2 : s * RCLike.re A.trace ≤ s * (n * frob A) :=
    mul_le_mul_of_nonneg_left (re_trace_le_frob A) hs.le
  have h3 : 3 * (ρ * Real.exp ρ) ≤ 3 * (ρ * Real.exp R) := by
    have := mul_le_mul_of_nonneg_left (Real.exp_le_exp.2 hR) hρ
    linarith
  have h4 := mul_le_mul h3 h2 (mul_nonneg hs.le (trace_re_nonneg hA.posSemidef))
    (by positivity)
  linarith

theorem kron_fl (h : KronMin X A B) {P₀ : Matrix (Fin a) (Fin a) 𝕜} {Q₀ : Matrix (Fin b) (Fin b) 𝕜}
    (hP₀ : P₀.PosDef) (hQ₀ : Q₀.PosDef) :
    ∃ r C u0 : ℝ, 0 ≤ r ∧ r < 1 ∧ 0 ≤ C ∧ 0 < u0 ∧ ∀ u, 0 ≤ u → u ≤ u0 →
      ∀ (P : ℕ → Matrix (Fin a) (Fin a) 𝕜) (Q : ℕ → Matrix (Fin b) (Fin b) 𝕜), P 0 = P₀ → Q 0 = Q₀ →
      KronFlSeq X u P Q → ∀ k, (P k).PosDef ∧ (Q k).PosDef ∧
        RayDist A (P k) (C * (r ^ k + u)) ∧ RayDist B (Q k) (C * (r ^ k + u)) ∧
        kronErr P Q k ≤ C * (r ^ k + u) ∧
        RayDist A (P (k + 1)) (C * (kronErr P Q k + u)) ∧
        RayDist B (Q (k + 1)) (C * (kronErr P Q k + u)) := by
  obtain ⟨d, hd⟩ : ∃ d, d = kronDev X A B P₀ Q₀ := ⟨_, rfl⟩
  have hd0 : 0 ≤ d := hd ▸ kronDev_nonneg _ _ _ _ _
  obtain ⟨r, C, hr0, hr1, hC, hstep⟩ := h.step ((d + 1) ^ 2)
  obtain ⟨c, u0, hc, hu0, hpert⟩ := h.perturb ((d + 1) ^ 2)
  obtain ⟨K, hK, hcond⟩ := h.cond ((d + 1) ^ 2)
  obtain ⟨c1, hc1, hco⟩ := h.coords ((d + 1) ^ 2)
  have hr : 0 < 1 - r := by linarith
  obtain ⟨D, hD⟩ : ∃ D, D = c / (1 - r) := ⟨_, rfl⟩
  have hD0 : 0 ≤ D := by rw [hD]; positivity
  have hDr : D * (1 - r) = c := by rw [hD, div_mul_cancel₀ _ hr.ne']
  -- the invariant
  have inv : ∀ u, 0 ≤ u → u ≤ min u0 (1 / (D + 1)) →
      ∀ (P : ℕ → Matrix (Fin a) (Fin a) 𝕜) (Q : ℕ → Matrix (Fin b) (Fin b) 𝕜), P 0 = P₀ → Q 0 = Q₀ →
      KronFlSeq X u P Q → ∀ k, (P k).PosDef ∧ (Q k).PosDef ∧
        kronDev X A B (P k) (Q k) ≤ d * r ^ k + D * u ∧
        kronGap X A B (P k) (Q k) ≤ (d + 1) ^ 2 := by
    intro u hu huu P Q hP0 hQ0 hs k
    have hDu : D * u ≤ 1 := by
      have h1 := huu.trans (min_le_right _ _)
      rw [le_div_iff₀ (by positivity)] at h1
      linarith
    have lev : ∀ k, (P k).PosDef → (Q k).PosDef →
        kronDev X A B (P k) (Q k) ≤ d * r ^ k + D * u → kronGap X A B (P k) (Q k) ≤ (d + 1) ^ 2 :=
      fun k h1 h2 h3 => by
        rw [← h.dev_sq h1 h2]
        refine pow_le_pow_left₀ (kronDev_nonneg _ _ _ _ _) (h3.trans ?_) 2
        have := mul_le_mul_of_nonneg_left (pow_le_one₀ (n := k) hr0 hr1.le) hd0
        linarith
    suffices hk : (P k).PosDef ∧ (Q k).PosDef ∧ kronDev X A B (P k) (Q k) ≤ d * r ^ k + D * u from
      ⟨hk.1, hk.2.1, hk.2.2, lev k hk.1 hk.2.1 hk.2.2⟩
    induction k with
    | zero =>
      rw [hP0, hQ0, pow_zero, mul_one, ← hd]
      exact ⟨hP₀, hQ₀, by linarith [mul_nonneg hD0 hu]⟩
    | succ k ih =>
      obtain ⟨p1, q1, d1⟩ := ih
      have l1 := lev k p1 q1 d1
      obtain ⟨P', Q', up⟩ := h.next _ _ p1 q1
      obtain ⟨s1, s2, s3, s4⟩ := hs k P' Q' p1 q1 up
      obtain ⟨t1, -, -, -⟩ := hstep _ _ _ _ p1 q1 up l1
      have dn := kronDev_nonneg X A B (P k) (Q k)
      have l2 : kronGap X A B P' Q' ≤ (d + 1) ^ 2 := by
        rw [← h.dev_sq up.posA up.posB]
        rw [← h.dev_sq p1 q1] at l1
        refine le_trans (pow_le_pow_left₀ (kronDev_nonneg _ _ _ _ _) (t1.trans ?_) 2) l1
        exact mul_le_of_le_one_left dn hr1.le
      obtain ⟨v1, v2, v3⟩ := hpert P' _ Q' _ u up.posA up.posB s1 s3 l2 hu
        (huu.trans (min_le_left _ _)) s2 s4
      refine ⟨v1, v2, ?_⟩
      have h1 := mul_le_mul_of_nonneg_left d1 hr0
      have h2 : D * (1 - r) * u = c * u := by rw [hDr]
      rw [pow_succ]
      linarith
  obtain ⟨R, hR⟩ : ∃ R, R = c1 * (d + 1) := ⟨_, rfl⟩
  obtain ⟨J, hJ⟩ : ∃ J : ℝ, J = 3 * (a + b) * Real.exp R * c1 := ⟨_, rfl⟩
  have hJ0 : 0 ≤ J := by rw [hJ]; positivity
  obtain ⟨W, hW⟩ : ∃ W : ℝ, W = 1 + 2 * (a + b) * (d + 1) := ⟨_, rfl⟩
  have hW0 : 0 ≤ W := by rw [hW]; positivity
  obtain ⟨Z, hZ⟩ : ∃ Z : ℝ, Z = 2 * C * K * (1 + W) + c := ⟨_, rfl⟩
  have hZ0 : 0 ≤ Z := by rw [hZ]; positivity
  obtain ⟨T, hT⟩ : ∃ T : ℝ, T = J * (d + D) + (1 + 4 * (a + b) * (d + D)) + J * Z := ⟨_, rfl⟩
  have hab0 : (0 : ℝ) ≤ a + b := by positivity
  have hT0 : 0 ≤ T := by rw [hT]; positivity
  refine ⟨r, T, min (min u0 (1 / (D + 1))) 1, hr0, hr1, hT0,
    lt_min (lt_min hu0 (by positivity)) one_pos, fun u hu huu P Q hP0 hQ0 hs k => ?_⟩
  have inv' := inv u hu (huu.trans (min_le_left _ _)) P Q hP0 hQ0 hs
  have hu1 : u ≤ 1 := huu.trans (min_le_right _ _)
  -- distances from the deviation
  have ray : ∀ k, RayDist A (P k) (J * kronDev X A B (P k) (Q k)) ∧
      RayDist B (Q k) (J * kronDev X A B (P k) (Q k)) := fun k => by
    obtain ⟨p1, q1, -, l1⟩ := inv' k
    obtain ⟨n1, n2⟩ := hco _ _ p1 q1 l1
    have dn := kronDev_nonneg X A B (P k) (Q k)
    have hdl : kronDev X A B (P k) (Q k) ≤ d + 1 := by
      rw [← h.dev_sq p1 q1] at l1
      exact (abs_le_of_sq_le_sq' l1 (by linarith)).2
    have hρ : 0 ≤ c1 * kronDev X A B (P k) (Q k) := mul_nonneg hc1 dn
    have hρR : c1 * kronDev X A B (P k) (Q k) ≤ R := hR ▸ mul_le_mul_of_nonneg_left hdl hc1
    refine ⟨(n1.rayDist h.posA hρ hρR).mono ?_, (n2.rayDist h.posB hρ hρR).mono ?_⟩
    · rw [hJ]
      have : 0 ≤ 3 * b * Real.exp R * (c1 * kronDev X A B (P k) (Q k)) := by positivity
      linarith
    · rw [hJ]
      have : 0 ≤ 3 * a * Real.exp R * (c1 * kronDev X A B (P k) (Q k)) := by positivity
      linarith
  obtain ⟨p1, q1, d1, l1⟩ := inv' k
  have dn := kronDev_nonneg X A B (P k) (Q k)
  have hdl : kronDev X A B (P k) (Q k) ≤ d + 1 := by
    rw [← h.dev_sq p1 q1] at l1
    exact (abs_le_of_sq_le_sq' l1 (by linarith)).2
  obtain ⟨P', Q', up⟩ := h.next _ _ p1 q1
  obtain ⟨s1, s2, s3, s4⟩ := hs k P' Q' p1 q1 up
  obtain ⟨t1, t2, t3, t4⟩ := hstep _ _ _ _ p1 q1 up l1
  obtain ⟨⟨x1, x2⟩, ⟨y1, y2⟩, -⟩ := kron_descent X h.hN h.h0 p1 q1 up
  obtain ⟨m1, m2⟩ := halfStep_frob p1 up.posA x1 x2
  obtain ⟨m3, m4⟩ := halfStep_frob q1 up.posB y1 y2
  obtain ⟨k1, k2⟩ := hcond _ _ p1 q1 l1
  obtain ⟨v1, v2⟩ := perturbed_move p1 (frob_pos h.ha p1) (halfStep_nonneg _ _) hu m1 m2 s2 k1
  obtain ⟨v3, v4⟩ := perturbed_move q1 (frob_pos h.hb q1) (halfStep_nonneg _ _) hu m3 m4 s4 k2
  have f0 := halfStep_nonneg (P k) P'
  have g0 := halfStep_nonneg (Q k) Q'
  obtain ⟨δ, hδ⟩ : ∃ δ, δ = kronDev X A B (P k) (Q k) := ⟨_, rfl⟩
  obtain ⟨f, hf⟩ : ∃ f, f = halfStep (P k) P' := ⟨_, rfl⟩
  obtain ⟨g, hg⟩ : ∃ g, g = halfStep (Q k) Q' := ⟨_, rfl⟩
  rw [← hδ] at dn d1 hdl t2 t3 t4
  rw [← hf] at t2 t4 v1 v2 f0
  rw [← hg] at t3 t4 v3 v4 g0
  have ha0 : (0 : ℝ) ≤ a := Nat.cast_nonneg a
  have hb0 : (0 : ℝ) ≤ b := Nat.cast_nonneg b
  have hrk : 0 ≤ r ^ k := by positivity
  have dle : δ ≤ (d + D) * (r ^ k + u) := by
    have := mul_nonneg hd0 hu
    have := mul_nonneg hD0 hrk
    linarith
  have af : a * f ≤ 2 * (a + b) * δ := by
    have h1 := mul_le_mul_of_nonneg_left t2 ha0
    have h2 := mul_nonneg hb0 dn
    linarith
  have bg : b * g ≤ 2 * (a + b) * δ := by
    have h1 := mul_le_mul_of_nonneg_left t3 hb0
    have h2 := mul_nonneg ha0 dn
    linarith
  have dW : 2 * (a + b) * δ ≤ W - 1 := by
    have := mul_le_mul_of_nonneg_left hdl (show (0 : ℝ) ≤ 2 * (a + b) by positivity)
    rw [hW]
    linarith
  have errle : kronErr P Q k ≤ u + 4 * (a + b) * δ := by
    refine max_le (v1.trans ?_) (v3.trans ?_)
    · have h1 : (1 + u) * (a * f) ≤ 2 * (a * f) :=
        mul_le_mul_of_nonneg_right (by linarith) (by positivity)
      linarith
    · have h1 : (1 + u) * (b * g) ≤ 2 * (b * g) :=
        mul_le_mul_of_nonneg_right (by linarith) (by positivity)
      linarith
  have err0 : 0 ≤ kronErr P Q k :=
    le_max_of_le_left (div_nonneg (frob_nonneg _) (frob_nonneg _))
  have fle : f ≤ K * (kronErr P Q k + u * W) := by
    refine v2.trans (mul_le_mul_of_nonneg_left (add_le_add (le_max_left _ _) ?_) hK)
    exact mul_le_mul_of_nonneg_left (by linarith) hu
  have gle : g ≤ K * (kronErr P Q k + u * W) := by
    refine v4.trans (mul_le_mul_of_nonneg_left (add_le_add (le_max_right _ _) ?_) hK)
    exact mul_le_mul_of_nonneg_left (by linarith) hu
  have dnext : kronDev X A B (P (k + 1)) (Q (k + 1)) ≤ Z * (kronErr P Q k + u) := by
    have l2 : kronGap X A B P' Q' ≤ (d + 1) ^ 2 := by
      rw [← h.dev_sq up.posA up.posB]
      rw [← h.dev_sq p1 q1] at l1
      refine le_trans (pow_le_pow_left₀ (kronDev_nonneg _ _ _ _ _) (t1.trans ?_) 2) l1
      exact mul_le_of_le_one_left (kronDev_nonneg _ _ _ _ _) hr1.le
    obtain ⟨-, -, w3⟩ := hpert P' _ Q' _ u up.posA up.posB s1 s3 l2 hu
      ((huu.trans (min_le_left _ _)).trans (min_le_left _ _)) s2 s4
    rw [← hδ] at t1
    have h1 : r * δ ≤ δ := mul_le_of_le_one_left dn hr1.le
    have h2 : δ ≤ C * (2 * (K * (kronErr P Q k + u * W))) :=
      t4.trans (mul_le_mul_of_nonneg_left (by linarith) hC)
    have h3 : 0 ≤ C * K * W * kronErr P Q k := by positivity
    have h4 : 0 ≤ C * K * u := by positivity
    have h5 : 0 ≤ c * kronErr P Q k := by positivity
    rw [hZ]
    linarith
  have hs0 : 0 ≤ r ^ k + u := by positivity
  have hs1 : 0 ≤ kronErr P Q k + u := by positivity
  have near : J * kronDev X A B (P k) (Q k) ≤ T * (r ^ k + u) := by
    rw [← hδ, hT]
    have h1 := mul_le_mul_of_nonneg_left dle hJ0
    have h2 : 0 ≤ (1 + 4 * (a + b) * (d + D) + J * Z) * (r ^ k + u) := by positivity
    linarith
  have close : J * kronDev X A B (P (k + 1)) (Q (k + 1)) ≤ T * (kronErr P Q k + u) := by
    rw [hT]
    have h1 := mul_le_mul_of_nonneg_left dnext hJ0
    have h2 : 0 ≤ (J * (d + D) + (1 + 4 * (a + b) * (d + D))) * (kronErr P Q k + u) := by positivity
    linarith
  refine ⟨p1, q1, (ray k).1.mono near, (ray k).2.mono near, errle.trans ?_,
    (ray (k + 1)).1.mono close, (ray (k + 1)).2.mono close⟩
  rw [hT]
  have h1 := mul_le_mul_of_nonneg_left dle (show (0 : ℝ) ≤ 4 * (a + b) by positivity)
  have h2 : 0 ≤ (J * (d + D) + J * Z) * (r ^ k + u) := by positivity
  linarith

end
end RS
