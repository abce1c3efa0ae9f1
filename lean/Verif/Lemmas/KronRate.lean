import Verif.Lemmas.KronConverge
import Verif.Lemmas.LogDist
import Verif.Lemmas.TylerRounding

/-! Rate of the Kronecker MM iteration: decrease of the cost along a step, growth of the cost around
the limit, and the distance to the limit in terms of the last step. -/
set_option autoImplicit false

namespace RS
open Matrix ComplexOrder Filter Topology

section
variable {𝕜 : Type} [RCLike 𝕜] {N a b : ℕ}

/-! ## The scatter matrices in given bases -/

theorem scatterA_entry (M : Fin N → Matrix (Fin b) (Fin a) 𝕜)
    {A G : Matrix (Fin a) (Fin a) 𝕜} {B H : Matrix (Fin b) (Fin b) 𝕜} (hG : IsUnit G)
    (hH : IsUnit H) (h1 : G * A * Gᴴ = 1) (h2 : H * B * Hᴴ = 1) (c : Fin a) :
    (G * scatterA M A B * Gᴴ) c c = ((a / N * ∑ i, (∑ r, kronTau (M i) G H c r) /
      (∑ c, ∑ r, kronTau (M i) G H c r) : ℝ) : 𝕜) := by
  have hd : ∀ i, trace (A⁻¹ * ((M i)ᴴ * B⁻¹ * M i)) =
      ((∑ c, ∑ r, kronTau (M i) G H c r : ℝ) : 𝕜) := fun i => by
    have := trace_diag_form (l := fun _ => 1) (m := fun _ => 1) hG hH (fun _ => one_pos)
      (fun _ => one_pos) (by rw [h1]; simp) (by rw [h2]; simp) (M i)
    simpa [kronTau] using this
  have iB : B⁻¹ = Hᴴ * H := by
    have := inv_of_diag (l := fun _ => 1) hH (fun _ => one_pos) (by rw [h2]; simp)
    simpa using this
  have e : G * scatterA M A B * Gᴴ = ((a : 𝕜) / N) • ∑ i,
      ((∑ c, ∑ r, kronTau (M i) G H c r : ℝ) : 𝕜)⁻¹ • ((H * M i * Gᴴ)ᴴ * (H * M i * Gᴴ)) := by
    unfold scatterA
    simp only [hd]
    rw [Matrix.mul_smul, Matrix.smul_mul, Matrix.mul_sum, Matrix.sum_mul]
    congr 1
    refine Finset.sum_congr rfl fun i _ => ?_
    rw [Matrix.mul_smul, Matrix.smul_mul, iB, conjTranspose_mul, conjTranspose_mul,
      conjTranspose_conjTranspose]
    simp only [Matrix.mul_assoc]
  have he : ∀ i, ((H * M i * Gᴴ)ᴴ * (H * M i * Gᴴ)) c c =
      ((∑ r, kronTau (M i) G H c r : ℝ) : 𝕜) := fun i => by
    rw [Matrix.mul_apply]
    push_cast
    refine Finset.sum_congr rfl fun r _ => ?_
    rw [conjTranspose_apply, RCLike.star_def, RCLike.conj_mul, kronTau]
    push_cast
    rfl
  rw [e, Matrix.smul_apply, Matrix.sum_apply]
  simp only [Matrix.smul_apply, he, smul_eq_mul]
  rw [show ((a : 𝕜) / N) = ((a / N : ℝ) : 𝕜) by push_cast; rfl, RCLike.ofReal_mul, RCLike.ofReal_sum]
  congr 1
  refine Finset.sum_congr rfl fun i _ => ?_
  rw [RCLike.ofReal_div, div_eq_inv_mul]

theorem scatterB_entry (M : Fin N → Matrix (Fin b) (Fin a) 𝕜)
    {A G : Matrix (Fin a) (Fin a) 𝕜} {B H : Matrix (Fin b) (Fin b) 𝕜} (hG : IsUnit G)
    (hH : IsUnit H) {l : Fin a → ℝ} (hl : ∀ c, 0 < l c)
    (h1 : G * A * Gᴴ = diagonal fun c => (l c : 𝕜)) (h2 : H * B * Hᴴ = 1) (r : Fin b) :
    (H * scatterB M A B * Hᴴ) r r = ((b / N * ∑ i, (∑ c, kronTau (M i) G H c r / l c) /
      (∑ c, ∑ r, kronTau (M i) G H c r / l c) : ℝ) : 𝕜) := by
  have hd : ∀ i, trace (A⁻¹ * ((M i)ᴴ * B⁻¹ * M i)) =
      ((∑ c, ∑ r, kronTau (M i) G H c r / l c : ℝ) : 𝕜) := fun i => by
    have := trace_diag_form (m := fun _ => 1) hG hH hl
      (fun _ => one_pos) h1 (by rw [h2]; simp) (M i)
    simpa [kronTau] using this
  have iA := inv_of_diag hG hl h1
  have e : H * scatterB M A B * Hᴴ = ((b : 𝕜) / N) • ∑ i,
      ((∑ c, ∑ r, kronTau (M i) G H c r / l c : ℝ) : 𝕜)⁻¹ •
        ((H * M i * Gᴴ) * (diagonal (fun j => ((l j)⁻¹ : 𝕜)) * (H * M i * Gᴴ)ᴴ)) := by
    unfold scatterB
    simp only [hd]
    rw [Matrix.mul_smul, Matrix.smul_mul, Matrix.mul_sum, Matrix.sum_mul]
    congr 1
    refine Finset.sum_congr rfl fun i _ => ?_
    rw [Matrix.mul_smul, Matrix.smul_mul, iA, conjTranspose_mul, conjTranspose_mul,
      conjTranspose_conjTranspose]
    simp only [Matrix.mul_assoc]
  have he : ∀ i, ((H * M i * Gᴴ) * (diagonal (fun j => ((l j)⁻¹ : 𝕜)) * (H * M i * Gᴴ)ᴴ)) r r =
      ((∑ c, kronTau (M i) G H c r / l c : ℝ) : 𝕜) := fun i => by
    rw [Matrix.mul_apply]
    push_cast
    refine Finset.sum_congr rfl fun c _ => ?_
    rw [diagonal_mul, conjTranspose_apply, RCLike.star_def, mul_left_comm, RCLike.mul_conj, kronTau,
      div_eq_inv_mul]
    push_cast
    rfl
  rw [e, Matrix.smul_apply, Matrix.sum_apply]
  simp only [Matrix.smul_apply, he, smul_eq_mul]
  rw [show ((b : 𝕜) / N) = ((b / N : ℝ) : 𝕜) by push_cast; rfl, RCLike.ofReal_mul, RCLike.ofReal_sum]
  congr 1
  refine Finset.sum_congr rfl fun i _ => ?_
  rw [RCLike.ofReal_div, div_eq_inv_mul]

/-! ## Means and variances of the logarithms of the eigenvalues -/

/-- Weighted mean of `x c + y r` for one sample. -/
noncomputable def kronMean (M : Matrix (Fin b) (Fin a) 𝕜) (G : Matrix (Fin a) (Fin a) 𝕜)
    (H : Matrix (Fin b) (Fin b) 𝕜) (x : Fin a → ℝ) (y : Fin b → ℝ) : ℝ :=
  (∑ c, ∑ r, kronTau M G H c r * (x c + y r)) / ∑ c, ∑ r, kronTau M G H c r

/-- The corresponding variance. -/
noncomputable def kronVar (M : Matrix (Fin b) (Fin a) 𝕜) (G : Matrix (Fin a) (Fin a) 𝕜)
    (H : Matrix (Fin b) (Fin b) 𝕜) (x : Fin a → ℝ) (y : Fin b → ℝ) : ℝ :=
  (∑ c, ∑ r, kronTau M G H c r * (x c + y r - kronMean M G H x y) ^ 2) /
    ∑ c, ∑ r, kronTau M G H c r

theorem kronVar_nonneg (M : Matrix (Fin b) (Fin a) 𝕜) (G : Matrix (Fin a) (Fin a) 𝕜)
    (H : Matrix (Fin b) (Fin b) 𝕜) (x : Fin a → ℝ) (y : Fin b → ℝ) : 0 ≤ kronVar M G H x y :=
  div_nonneg (Finset.sum_nonneg fun c _ => Finset.sum_nonneg fun r _ =>
    mul_nonneg (kronTau_nonneg M G H c r) (sq_nonneg _))
    (Finset.sum_nonneg fun c _ => Finset.sum_nonneg fun r _ => kronTau_nonneg M G H c r)

/-- The sum of the means in terms of the diagonals of the scatter matrices. -/
theorem kronMean_sum (M : Fin N → Matrix (Fin b) (Fin a) 𝕜) (hN : 0 < N)
    {A G : Matrix (Fin a) (Fin a) 𝕜} {B H : Matrix (Fin b) (Fin b) 𝕜} (hG : IsUnit G)
    (hH : IsUnit H) (h1 : G * A * Gᴴ = 1) (h2 : H * B * Hᴴ = 1) (x : Fin a → ℝ) (y : Fin b → ℝ) :
    a * b * ∑ i, kronMean (M i) G H x y =
      N * (b * ∑ c, x c * RCLike.re ((G * scatterA M A B * Gᴴ) c c) +
        a * ∑ r, y r * RCLike.re ((H * scatterB M A B * Hᴴ) r r)) := by
  have hN' : (N : ℝ) ≠ 0 := by exact_mod_cast hN.ne'
  have hA : ∀ c, N * RCLike.re ((G * scatterA M A B * Gᴴ) c c) =
      a * ∑ i, (∑ r, kronTau (M i) G H c r) / (∑ c, ∑ r, kronTau (M i) G H c r) := fun c => by
    rw [scatterA_entry M hG hH h1 h2, RCLike.ofReal_re]
    field_simp
  have hB : ∀ r, N * RCLike.re ((H * scatterB M A B * Hᴴ) r r) =
      b * ∑ i, (∑ c, kronTau (M i) G H c r) / (∑ c, ∑ r, kronTau (M i) G H c r) := fun r => by
    rw [scatterB_entry M hG hH (l := fun _ => 1) (fun _ => one_pos) (by rw [h1]; simp) h2,
      RCLike.ofReal_re]
    simp only [div_one]
    field_simp
  have split : ∀ i, kronMean (M i) G H x y =
      ∑ c, x c * ((∑ r, kronTau (M i) G H c r) / (∑ c, ∑ r, kronTau (M i) G H c r)) +
      ∑ r, y r * ((∑ c, kronTau (M i) G H c r) / (∑ c, ∑ r, kronTau (M i) G H c r)) := fun i => by
    have s1 : ∑ c, ∑ r, kronTau (M i) G H c r * (x c + y r) =
        ∑ c, x c * ∑ r, kronTau (M i) G H c r + ∑ r, y r * ∑ c, kronTau (M i) G H c r := by
      simp only [mul_add, Finset.sum_add_distrib, Finset.mul_sum]
      rw [Finset.sum_comm (f := fun c r => kronTau (M i) G H c r * y r)]
      simp only [mul_comm]
    rw [kronMean, s1, add_div, Finset.sum_div, Finset.sum_div]
    simp only [mul_div_assoc]
  simp only [split]
  rw [Finset.sum_add_distrib, Finset.sum_comm, Finset.sum_comm (s := Finset.univ (α := Fin N))
    (t := Finset.univ (α := Fin b))]
  simp only [← Finset.mul_sum]
  have p1 : (a : ℝ) * ∑ c, x c * ∑ i, (∑ r, kronTau (M i) G H c r) /
      (∑ c, ∑ r, kronTau (M i) G H c r) =
      N * ∑ c, x c * RCLike.re ((G * scatterA M A B * Gᴴ) c c) := by
    rw [Finset.mul_sum, Finset.mul_sum]
    refine Finset.sum_congr rfl fun c _ => ?_
    rw [mul_left_comm, ← hA c, mul_left_comm]
  have p2 : (b : ℝ) * ∑ r, y r * ∑ i, (∑ c, kronTau (M i) G H c r) /
      (∑ c, ∑ r, kronTau (M i) G H c r) =
      N * ∑ r, y r * RCLike.re ((H * scatterB M A B * Hᴴ) r r) := by
    rw [Finset.mul_sum, Finset.mul_sum]
    refine Finset.sum_congr rfl fun r _ => ?_
    rw [mul_left_comm, ← hB r, mul_left_comm]
  linear_combination (b : ℝ) * p1 + (a : ℝ) * p2

theorem exp_neg_ge {w : ℝ} (hw : |w| ≤ 1) : 1 - w + w ^ 2 / 4 ≤ Real.exp (-w) := by
  have h := Real.exp_bound (x := -w) (by rwa [abs_neg]) (n := 3) (by norm_num)
  have h2 := (abs_le.1 h).1
  simp [Finset.sum_range_succ, Nat.factorial] at h2
  have h3 : |w| ^ 3 ≤ w ^ 2 := by
    rw [pow_succ, sq_abs]
    nlinarith [sq_nonneg w]
  nlinarith [sq_nonneg w]

/-- Lower bounds for the logarithm of a mean of exponentials. -/
theorem kron_log_ge {M : Matrix (Fin b) (Fin a) 𝕜} {G : Matrix (Fin a) (Fin a) 𝕜}
    {H : Matrix (Fin b) (Fin b) 𝕜} (hM : M ≠ 0) (hG : IsUnit G) (hH : IsUnit H) (x : Fin a → ℝ)
    (y : Fin b → ℝ) :
    -kronMean M G H x y ≤ Real.log (∑ c, ∑ r, kronTau M G H c r * Real.exp (-(x c + y r))) -
      Real.log (∑ c, ∑ r, kronTau M G H c r) ∧
    ((∀ c r, |x c + y r - kronMean M G H x y| ≤ 1) →
      -kronMean M G H x y + kronVar M G H x y / 5 ≤
        Real.log (∑ c, ∑ r, kronTau M G H c r * Real.exp (-(x c + y r))) -
        Real.log (∑ c, ∑ r, kronTau M G H c r)) := by
  obtain ⟨m, hm⟩ : ∃ m, m = kronMean M G H x y := ⟨_, rfl⟩
  have hT := kronTau_sum_pos hM hG hH
  have hE := kronTau_pos hM hG hH (fun c r => Real.exp (-(x c + y r))) fun _ _ => Real.exp_pos _
  have hz : ∑ c, ∑ r, kronTau M G H c r * (x c + y r - m) = 0 := by
    have : ∑ c, ∑ r, kronTau M G H c r * (x c + y r - m) =
        ∑ c, ∑ r, kronTau M G H c r * (x c + y r) - m * ∑ c, ∑ r, kronTau M G H c r := by
      simp only [mul_sub, Finset.sum_sub_distrib, Finset.mul_sum]
      simp only [mul_comm]
    rw [this, hm, kronMean, div_mul_cancel₀ _ hT.ne', sub_self]
  have hsplit : ∑ c, ∑ r, kronTau M G H c r * Real.exp (-(x c + y r)) =
      Real.exp (-m) * ∑ c, ∑ r, kronTau M G H c r * Real.exp (-(x c + y r - m)) := by
    rw [Finset.mul_sum]
    refine Finset.sum_congr rfl fun c _ => ?_
    rw [Finset.mul_sum]
    refine Finset.sum_congr rfl fun r _ => ?_
    rw [mul_left_comm, ← Real.exp_add]
    congr 2
    ring
  have hE' : 0 < ∑ c, ∑ r, kronTau M G H c r * Real.exp (-(x c + y r - m)) :=
    kronTau_pos hM hG hH (fun c r => Real.exp (-(x c + y r - m))) fun _ _ => Real.exp_pos _
  rw [← hm, hsplit, Real.log_mul (Real.exp_pos _).ne' hE'.ne', Real.log_exp]
  constructor
  · have h1 : ∑ c, ∑ r, kronTau M G H c r ≤
        ∑ c, ∑ r, kronTau M G H c r * Real.exp (-(x c + y r - m)) := by
      have h2 : ∑ c, ∑ r, kronTau M G H c r * (1 - (x c + y r - m)) ≤
          ∑ c, ∑ r, kronTau M G H c r * Real.exp (-(x c + y r - m)) :=
        Finset.sum_le_sum fun c _ => Finset.sum_le_sum fun r _ =>
          mul_le_mul_of_nonneg_left (by linarith [Real.add_one_le_exp (-(x c + y r - m))])
            (kronTau_nonneg M G H c r)
      simp only [mul_sub (kronTau _ _ _ _ _) 1, mul_one, Finset.sum_sub_distrib] at h2
      have h3 := hz
      linarith
    linarith [Real.log_le_log hT h1]
  · intro hw
    obtain ⟨V, hV⟩ : ∃ V, V = kronVar M G H x y := ⟨_, rfl⟩
    have hV0 : 0 ≤ V := hV ▸ kronVar_nonneg M G H x y
    have hVT : ∑ c, ∑ r, kronTau M G H c r * (x c + y r - m) ^ 2 =
        V * ∑ c, ∑ r, kronTau M G H c r := by
      rw [hV, kronVar, ← hm, div_mul_cancel₀ _ hT.ne']
    have hV1 : V ≤ 1 := by
      have : V * ∑ c, ∑ r, kronTau M G H c r ≤ 1 * ∑ c, ∑ r, kronTau M G H c r := by
        rw [← hVT, one_mul]
        refine Finset.sum_le_sum fun c _ => Finset.sum_le_sum fun r _ => ?_
        refine mul_le_of_le_one_right (kronTau_nonneg M G H c r) ?_
        rw [← sq_abs]
        exact pow_le_one₀ (abs_nonneg _) (hm ▸ hw c r)
      exact le_of_mul_le_mul_right this hT
    have h1 : (1 + V / 4) * ∑ c, ∑ r, kronTau M G H c r ≤
        ∑ c, ∑ r, kronTau M G H c r * Real.exp (-(x c + y r - m)) := by
      have h2 : ∑ c, ∑ r, kronTau M G H c r * (1 - (x c + y r - m) + (x c + y r - m) ^ 2 / 4) ≤
          ∑ c, ∑ r, kronTau M G H c r * Real.exp (-(x c + y r - m)) :=
        Finset.sum_le_sum fun c _ => Finset.sum_le_sum fun r _ =>
          mul_le_mul_of_nonneg_left (exp_neg_ge (hm ▸ hw c r)) (kronTau_nonneg M G H c r)
      have h3 : ∑ c, ∑ r, kronTau M G H c r * (1 - (x c + y r - m) + (x c + y r - m) ^ 2 / 4) =
          ∑ c, ∑ r, kronTau M G H c r - ∑ c, ∑ r, kronTau M G H c r * (x c + y r - m) +
          (∑ c, ∑ r, kronTau M G H c r * (x c + y r - m) ^ 2) / 4 := by
        simp only [mul_add, mul_sub (kronTau _ _ _ _ _) 1, mul_one, Finset.sum_add_distrib,
          Finset.sum_sub_distrib, Finset.sum_div, mul_div_assoc]
      rw [h3, hz, hVT] at h2
      linarith
    have h4 : (0 : ℝ) < 1 + V / 4 := by linarith
    have h5 := Real.log_le_log (mul_pos h4 hT) h1
    rw [Real.log_mul h4.ne' hT.ne'] at h5
    have h6 : V / 5 ≤ Real.log (1 + V / 4) := by
      have h7 := Real.one_sub_inv_le_log_of_pos h4
      refine le_trans ?_ h7
      have : (1 + V / 4)⁻¹ ≤ 1 - V / 5 := by
        rw [inv_le_iff_one_le_mul₀ h4]
        nlinarith
      linarith
    rw [← hV]
    linarith

/-! ## Bounds for the cost -/

theorem kronF_ge (M : Fin N → Matrix (Fin b) (Fin a) 𝕜) (hM : ∀ i, M i ≠ 0) (hN : 0 < N)
    {A G : Matrix (Fin a) (Fin a) 𝕜} {B H : Matrix (Fin b) (Fin b) 𝕜} (hG : IsUnit G)
    (hH : IsUnit H) (h1 : G * A * Gᴴ = 1) (h2 : H * B * Hᴴ = 1) (x : Fin a → ℝ) (y : Fin b → ℝ) :
    N * (b * ∑ c, x c * (1 - RCLike.re ((G * scatterA M A B * Gᴴ) c c)) +
      a * ∑ r, y r * (1 - RCLike.re ((H * scatterB M A B * Hᴴ) r r))) ≤ kronF M G H x y := by
  have h3 := kronMean_sum M hN hG hH h1 h2 x y
  have h4 := Finset.sum_le_sum fun i (_ : i ∈ Finset.univ) => (kron_log_ge (hM i) hG hH x y).1
  rw [Finset.sum_neg_distrib] at h4
  have hab : (0 : ℝ) ≤ a * b := by positivity
  have h5 := mul_le_mul_of_nonneg_left h4 hab
  unfold kronF
  simp only [mul_sub, mul_one, Finset.sum_sub_distrib] at h5 ⊢
  linarith

theorem kronMean_abs_le (M : Matrix (Fin b) (Fin a) 𝕜) (G : Matrix (Fin a) (Fin a) 𝕜)
    (H : Matrix (Fin b) (Fin b) 𝕜) {x : Fin a → ℝ} {y : Fin b → ℝ} {R : ℝ} (hR : 0 ≤ R)
    (h : ∀ c r, |x c + y r| ≤ R) : |kronMean M G H x y| ≤ R := by
  have h0 : 0 ≤ ∑ c, ∑ r, kronTau M G H c r :=
    Finset.sum_nonneg fun c _ => Finset.sum_nonneg fun r _ => kronTau_nonneg M G H c r
  unfold kronMean
  rw [abs_div, abs_of_nonneg h0]
  refine div_le_of_le_mul₀ h0 hR ?_
  rw [Finset.mul_sum]
  refine (Finset.abs_sum_le_sum_abs _ _).trans (Finset.sum_le_sum fun c _ => ?_)
  rw [Finset.mul_sum]
  refine (Finset.abs_sum_le_sum_abs _ _).trans (Finset.sum_le_sum fun r _ => ?_)
  rw [abs_mul, abs_of_nonneg (kronTau_nonneg M G H c r), mul_comm]
  exact mul_le_mul_of_nonneg_right (h c r) (kronTau_nonneg M G H c r)

theorem kronF_quadratic (M : Fin N → Matrix (Fin b) (Fin a) 𝕜) (hM : ∀ i, M i ≠ 0) (hN : 0 < N)
    {A G : Matrix (Fin a) (Fin a) 𝕜} {B H : Matrix (Fin b) (Fin b) 𝕜} (hG : IsUnit G)
    (hH : IsUnit H) (h1 : G * A * Gᴴ = 1) (h2 : H * B * Hᴴ = 1) (hfA : scatterA M A B = A)
    (hfB : scatterB M A B = B) {x : Fin a → ℝ} {y : Fin b → ℝ} (hx : ∀ c, |x c| ≤ 1 / 4)
    (hy : ∀ r, |y r| ≤ 1 / 4) :
    a * b * ((∑ i, kronVar (M i) G H x y) / 5) ≤ kronF M G H x y := by
  have h3 := kronMean_sum M hN hG hH h1 h2 x y
  rw [hfA, hfB, h1, h2] at h3
  simp only [one_apply_eq, RCLike.one_re, mul_one] at h3
  have hv : ∀ c r, |x c + y r| ≤ 1 / 2 := fun c r =>
    (abs_add_le _ _).trans (by linarith [hx c, hy r])
  have h4 := Finset.sum_le_sum fun i (_ : i ∈ Finset.univ) => (kron_log_ge (hM i) hG hH x y).2
    fun c r => (abs_sub _ _).trans (by
      linarith [hv c r, kronMean_abs_le (M i) G H (by norm_num : (0 : ℝ) ≤ 1 / 2) hv])
  rw [Finset.sum_add_distrib, Finset.sum_neg_distrib, ← Finset.sum_div] at h4
  have hab : (0 : ℝ) ≤ a * b := by positivity
  have h5 := mul_le_mul_of_nonneg_left h4 hab
  unfold kronF
  rw [mul_add, mul_neg, h3] at h5
  linarith

theorem kronVar_smul (M : Matrix (Fin b) (Fin a) 𝕜) (G : Matrix (Fin a) (Fin a) 𝕜)
    (H : Matrix (Fin b) (Fin b) 𝕜) (x : Fin a → ℝ) (y : Fin b → ℝ) (s : ℝ) :
    kronVar M G H (s • x) (s • y) = s ^ 2 * kronVar M G H x y := by
  have h1 : kronMean M G H (s • x) (s • y) = s * kronMean M G H x y := by
    unfold kronMean
    rw [← mul_div_assoc, Finset.mul_sum]
    congr 1
    refine Finset.sum_congr rfl fun c _ => ?_
    rw [Finset.mul_sum]
    refine Finset.sum_congr rfl fun r _ => ?_
    simp only [Pi.smul_apply, smul_eq_mul]
    ring
  unfold kronVar
  rw [h1, ← mul_div_assoc, Finset.mul_sum]
  congr 1
  refine Finset.sum_congr rfl fun c _ => ?_
  rw [Finset.mul_sum]
  refine Finset.sum_congr rfl fun r _ => ?_
  simp only [Pi.smul_apply, smul_eq_mul]
  ring

/-- Without variance the cost is linear. -/
theorem kronF_of_var_zero (M : Fin N → Matrix (Fin b) (Fin a) 𝕜) (hM : ∀ i, M i ≠ 0) (hN : 0 < N)
    {A G : Matrix (Fin a) (Fin a) 𝕜} {B H : Matrix (Fin b) (Fin b) 𝕜} (hG : IsUnit G)
    (hH : IsUnit H) (h1 : G * A * Gᴴ = 1) (h2 : H * B * Hᴴ = 1) (hfA : scatterA M A B = A)
    (hfB : scatterB M A B = B) {x : Fin a → ℝ} {y : Fin b → ℝ}
    (hv : ∀ i, kronVar (M i) G H x y = 0) : kronF M G H x y = 0 := by
  have h3 := kronMean_sum M hN hG hH h1 h2 x y
  rw [hfA, hfB, h1, h2] at h3
  simp only [one_apply_eq, RCLike.one_re, mul_one] at h3
  have key : ∀ i, Real.log (∑ c, ∑ r, kronTau (M i) G H c r * Real.exp (-(x c + y r))) -
      Real.log (∑ c, ∑ r, kronTau (M i) G H c r) = -kronMean (M i) G H x y := fun i => by
    have hT := kronTau_sum_pos (hM i) hG hH
    have h4 : ∑ c, ∑ r, kronTau (M i) G H c r * (x c + y r - kronMean (M i) G H x y) ^ 2 = 0 := by
      have := hv i
      unfold kronVar at this
      rcases div_eq_zero_iff.1 this with h | h
      · exact h
      · exact absurd h hT.ne'
    have h0 : ∀ c r, 0 ≤ kronTau (M i) G H c r * (x c + y r - kronMean (M i) G H x y) ^ 2 :=
      fun c r => mul_nonneg (kronTau_nonneg _ _ _ _ _) (sq_nonneg _)
    have h5 : ∑ c, ∑ r, kronTau (M i) G H c r * Real.exp (-(x c + y r)) =
        (∑ c, ∑ r, kronTau (M i) G H c r) * Real.exp (-kronMean (M i) G H x y) := by
      rw [Finset.sum_mul]
      refine Finset.sum_congr rfl fun c _ => ?_
      rw [Finset.sum_mul]
      refine Finset.sum_congr rfl fun r _ => ?_
      have h6 := (Finset.sum_eq_zero_iff_of_nonneg fun c _ =>
        Finset.sum_nonneg fun r _ => h0 c r).1 h4 c (Finset.mem_univ c)
      have h7 := (Finset.sum_eq_zero_iff_of_nonneg fun r _ => h0 c r).1 h6 r (Finset.mem_univ r)
      rcases mul_eq_zero.1 h7 with h8 | h8
      · rw [h8, zero_mul, zero_mul]
      · rw [sub_eq_zero.1 (pow_eq_zero_iff two_ne_zero |>.1 h8)]
    rw [h5, Real.log_mul hT.ne' (Real.exp_pos _).ne', Real.log_exp]
    ring
  unfold kronF
  simp only [key, Finset.sum_neg_distrib]
  linarith

/-- The variance is bounded below on centred unit vectors. -/
theorem kronVar_pos (X : Matrix (Fin N) (Fin (a * b)) 𝕜) (hN : 0 < N) (h0 : ∀ i, X i ≠ 0)
    {A : Matrix (Fin a) (Fin a) 𝕜} {B : Matrix (Fin b) (Fin b) 𝕜} (hA : A.PosDef) (hB : B.PosDef)
    (hfA : scatterA (fun i => unstack (X i)) A B = A)
    (hfB : scatterB (fun i => unstack (X i)) A B = B)
    (huniq : ∀ (A' : Matrix (Fin a) (Fin a) 𝕜) (B' : Matrix (Fin b) (Fin b) 𝕜), A'.PosDef →
      B'.PosDef → tylerCost X (kron A'ᵀ B') = tylerCost X (kron Aᵀ B) →
      ∃ s t : ℝ, A' = (s : 𝕜) • A ∧ B' = (t : 𝕜) • B) :
    ∃ δ : ℝ, 0 < δ ∧ ∀ (G : Matrix (Fin a) (Fin a) 𝕜) (H : Matrix (Fin b) (Fin b) 𝕜)
      (x : Fin a → ℝ) (y : Fin b → ℝ), G * A * Gᴴ = 1 → H * B * Hᴴ = 1 → ∑ c, x c = 0 →
      ∑ r, y r = 0 → δ * ‖(x, y)‖ ^ 2 ≤ ∑ i, kronVar (unstack (X i)) G H x y := by
  set M : Fin N → Matrix (Fin b) (Fin a) 𝕜 := fun i => unstack (X i) with hMdef
  have hM : ∀ i, M i ≠ 0 := fun i => unstack_ne_zero (h0 i)
  set K : Set (Matrix (Fin a) (Fin a) 𝕜 × Matrix (Fin b) (Fin b) 𝕜 ×
      ((Fin a → ℝ) × (Fin b → ℝ))) :=
    {G | G * A * Gᴴ = 1} ×ˢ {H | H * B * Hᴴ = 1} ×ˢ
      (Metric.sphere 0 1 ∩ {z | ∑ c, z.1 c = 0 ∧ ∑ r, z.2 r = 0}) with hK
  have hKc : IsCompact K := by
    refine (isCompact_whitening hA).prod ((isCompact_whitening hB).prod
      ((isCompact_sphere _ _).inter_right ?_))
    exact (isClosed_eq (by fun_prop) continuous_const).inter
      (isClosed_eq (by fun_prop) continuous_const)
  have hpos : ∀ q ∈ K, 0 < ∑ i, kronVar (M i) q.1 q.2.1 q.2.2.1 q.2.2.2 := by
    rintro ⟨G, H, x, y⟩ ⟨hG, hH, hz, hx, hy⟩
    simp only [Set.mem_ofPred_eq] at hG hH hx hy
    refine lt_of_le_of_ne (Finset.sum_nonneg fun i _ => kronVar_nonneg _ _ _ _ _) fun h => ?_
    have hv := (Finset.sum_eq_zero_iff_of_nonneg fun i _ => kronVar_nonneg (M i) G H x y).1 h.symm
    have hF := kronF_of_var_zero M hM hN (whitening_isUnit hG) (whitening_isUnit hH) hG hH hfA hfB
      fun i => hv i (Finset.mem_univ i)
    obtain ⟨A', hA', g2⟩ := exists_unwhiten (whitening_isUnit hG) x
    obtain ⟨B', hB', k2⟩ := exists_unwhiten (whitening_isUnit hH) y
    have e := kronF_eq X hA hB hA' hB' (whitening_isUnit hG) (whitening_isUnit hH) x y hG hH g2 k2
    obtain ⟨s, t, h1, h2⟩ := huniq A' B' hA' hB' (by rw [e, ← hMdef, hF, add_zero])
    have hx0 := exp_const_zero hG g2 h1 hx
    have hy0 := exp_const_zero hH k2 h2 hy
    rw [mem_sphere_zero_iff_norm, hx0, hy0] at hz
    simp at hz
  have hcont : ContinuousOn (fun q : Matrix (Fin a) (Fin a) 𝕜 × Matrix (Fin b) (Fin b) 𝕜 ×
      ((Fin a → ℝ) × (Fin b → ℝ)) => ∑ i, kronVar (M i) q.1 q.2.1 q.2.2.1 q.2.2.2) K := by
    refine continuousOn_finsetSum _ fun i _ => ?_
    have hden : ∀ q ∈ K, ∑ c, ∑ r, kronTau (M i) q.1 q.2.1 c r ≠ 0 := by
      rintro ⟨G, H, x, y⟩ ⟨hG, hH, -⟩
      exact (kronTau_sum_pos (hM i) (whitening_isUnit hG) (whitening_isUnit hH)).ne'
    have hτ : ∀ c r, Continuous fun q : Matrix (Fin a) (Fin a) 𝕜 × Matrix (Fin b) (Fin b) 𝕜 ×
      ((Fin a → ℝ) × (Fin b → ℝ)) => kronTau (M i) q.1 q.2.1 c r := fun c r => by
      unfold kronTau
      fun_prop
    have hm : ContinuousOn (fun q : Matrix (Fin a) (Fin a) 𝕜 × Matrix (Fin b) (Fin b) 𝕜 ×
      ((Fin a → ℝ) × (Fin b → ℝ)) => kronMean (M i) q.1 q.2.1 q.2.2.1 q.2.2.2) K := by
      unfold kronMean
      refine ContinuousOn.div ?_ ?_ hden
      · apply Continuous.continuousOn
        fun_prop
      · apply Continuous.continuousOn
        fun_prop
    unfold kronVar
    refine ContinuousOn.div (continuousOn_finsetSum _ fun c _ => continuousOn_finsetSum _ fun r _ =>
      (hτ c r).continuousOn.mul ((ContinuousOn.sub ?_ hm).pow 2)) ?_ hden
    · apply Continuous.continuousOn
      fun_prop
    · apply Continuous.continuousOn
      fun_prop
  have hδ : ∃ δ : ℝ, 0 < δ ∧ ∀ q ∈ K, δ ≤ ∑ i, kronVar (M i) q.1 q.2.1 q.2.2.1 q.2.2.2 := by
    rcases K.eq_empty_or_nonempty with he | hne
    · exact ⟨1, one_pos, fun q hq => by rw [he] at hq; exact absurd hq (Set.notMem_empty q)⟩
    · obtain ⟨q, hq, hmin⟩ := hKc.exists_isMinOn hne hcont
      exact ⟨_, hpos q hq, fun q' hq' => hmin hq'⟩
  obtain ⟨δ, hδ0, hδ⟩ := hδ
  refine ⟨δ, hδ0, fun G H x y hG hH hx hy => ?_⟩
  rcases (norm_nonneg (x, y)).eq_or_lt with hn | hn0
  · rw [← hn]
    have := Finset.sum_nonneg fun i (_ : i ∈ Finset.univ) => kronVar_nonneg (M i) G H x y
    simpa using this
  have hmem : (G, H, (‖(x, y)‖⁻¹ • x, ‖(x, y)‖⁻¹ • y)) ∈ K := by
    refine ⟨hG, hH, ?_, ?_, ?_⟩
    · rw [mem_sphere_zero_iff_norm, ← Prod.smul_mk, norm_smul, norm_inv, norm_norm,
        inv_mul_cancel₀ hn0.ne']
    · simp [← Finset.mul_sum, hx]
    · simp [← Finset.mul_sum, hy]
  have h1 := hδ _ hmem
  simp only [kronVar_smul, ← Finset.mul_sum] at h1
  have h2 := mul_le_mul_of_nonneg_right h1 (sq_nonneg ‖(x, y)‖)
  rw [inv_pow, mul_right_comm, inv_mul_cancel₀ (pow_pos hn0 2).ne', one_mul] at h2
  exact h2

/-- Growth of the cost on bounded sets. -/
theorem kron_quadratic_growth (X : Matrix (Fin N) (Fin (a * b)) 𝕜) (hN : 0 < N) (ha : 0 < a)
    (hb : 0 < b) (h0 : ∀ i, X i ≠ 0)
    {A : Matrix (Fin a) (Fin a) 𝕜} {B : Matrix (Fin b) (Fin b) 𝕜} (hA : A.PosDef) (hB : B.PosDef)
    (hfA : scatterA (fun i => unstack (X i)) A B = A)
    (hfB : scatterB (fun i => unstack (X i)) A B = B)
    (huniq : ∀ (A' : Matrix (Fin a) (Fin a) 𝕜) (B' : Matrix (Fin b) (Fin b) 𝕜), A'.PosDef →
      B'.PosDef → tylerCost X (kron A'ᵀ B') = tylerCost X (kron Aᵀ B) →
      ∃ s t : ℝ, A' = (s : 𝕜) • A ∧ B' = (t : 𝕜) • B) (E : ℝ) :
    ∃ κ : ℝ, 0 < κ ∧ ∀ (G : Matrix (Fin a) (Fin a) 𝕜) (H : Matrix (Fin b) (Fin b) 𝕜)
      (x : Fin a → ℝ) (y : Fin b → ℝ), G * A * Gᴴ = 1 → H * B * Hᴴ = 1 → ∑ c, x c = 0 →
      ∑ r, y r = 0 → kronF (fun i => unstack (X i)) G H x y ≤ E →
      κ * ‖(x, y)‖ ^ 2 ≤ kronF (fun i => unstack (X i)) G H x y := by
  have hmin : ∀ (A' : Matrix (Fin a) (Fin a) 𝕜) (B' : Matrix (Fin b) (Fin b) 𝕜), A'.PosDef →
      B'.PosDef → tylerCost X (kron Aᵀ B) ≤ tylerCost X (kron A'ᵀ B') := fun A' B' hA' hB' =>
    kron_fixed_minimises X hN h0 hA hB hfA hfB hA' hB'
  obtain ⟨δ₁, hδ₁, hv⟩ := kronVar_pos X hN h0 hA hB hfA hfB huniq
  have hM : ∀ i, (unstack (X i) : Matrix (Fin b) (Fin a) 𝕜) ≠ 0 := fun i => unstack_ne_zero (h0 i)
  have hab : (1 : ℝ) ≤ a * b := by exact_mod_cast Nat.mul_pos ha hb
  -- small vectors
  have hsmall : ∀ (G : Matrix (Fin a) (Fin a) 𝕜) (H : Matrix (Fin b) (Fin b) 𝕜)
      (x : Fin a → ℝ) (y : Fin b → ℝ), G * A * Gᴴ = 1 → H * B * Hᴴ = 1 → ∑ c, x c = 0 →
      ∑ r, y r = 0 → ‖(x, y)‖ ≤ 1 / 4 →
      δ₁ / 5 * ‖(x, y)‖ ^ 2 ≤ kronF (fun i => unstack (X i)) G H x y := by
    intro G H x y hG hH hx hy hn
    have h1 := kronF_quadratic (fun i => (unstack (X i) : Matrix (Fin b) (Fin a) 𝕜)) hM hN
      (whitening_isUnit hG) (whitening_isUnit hH) hG hH hfA hfB (x := x) (y := y)
      (fun c => by
        rw [← Real.norm_eq_abs]
        exact ((norm_le_pi_norm x c).trans (norm_fst_le (x, y))).trans hn)
      (fun c => by
        rw [← Real.norm_eq_abs]
        exact ((norm_le_pi_norm y c).trans (norm_snd_le (x, y))).trans hn)
    have h2 := hv G H x y hG hH hx hy
    have h3 : 0 ≤ δ₁ * ‖(x, y)‖ ^ 2 := by positivity
    have h4 : (∑ i, kronVar (unstack (X i)) G H x y) / 5 ≤
        a * b * ((∑ i, kronVar (unstack (X i)) G H x y) / 5) :=
      le_mul_of_one_le_left (by linarith) hab
    linarith
  -- large vectors
  set δ₂ := δ₁ / 80 with hδ₂
  have hδ₂0 : 0 < δ₂ := by positivity
  have hlarge : ∀ (G : Matrix (Fin a) (Fin a) 𝕜) (H : Matrix (Fin b) (Fin b) 𝕜)
      (x : Fin a → ℝ) (y : Fin b → ℝ), G * A * Gᴴ = 1 → H * B * Hᴴ = 1 → ∑ c, x c = 0 →
      ∑ r, y r = 0 → 1 / 4 ≤ ‖(x, y)‖ →
      4 * δ₂ * ‖(x, y)‖ ≤ kronF (fun i => unstack (X i)) G H x y := by
    intro G H x y hG hH hx hy hn
    have hn0 : (0 : ℝ) < ‖(x, y)‖ := by linarith
    obtain ⟨s, hs⟩ : ∃ s, s = 4 * ‖(x, y)‖ := ⟨_, rfl⟩
    have hs0 : 0 < s := by rw [hs]; positivity
    have hsn : ‖(s⁻¹ • x, s⁻¹ • y)‖ = 1 / 4 := by
      rw [← Prod.smul_mk, norm_smul, norm_inv, Real.norm_eq_abs, abs_of_pos hs0, hs]
      field_simp
    have h1 := hsmall G H (s⁻¹ • x) (s⁻¹ • y) hG hH (by simp [← Finset.mul_sum, hx])
      (by simp [← Finset.mul_sum, hy]) hsn.le
    rw [hsn] at h1
    have h2 := kronF_ray (fun i => (unstack (X i) : Matrix (Fin b) (Fin a) 𝕜)) hM
      (whitening_isUnit hG) (whitening_isUnit hH) (s⁻¹ • x) (s⁻¹ • y) (s := s) (by linarith)
    rw [smul_smul, smul_smul, mul_inv_cancel₀ hs0.ne', one_smul, one_smul] at h2
    have h3 := mul_le_mul_of_nonneg_left h1 hs0.le
    have h4 : s * (δ₁ / 5 * (1 / 4) ^ 2) = 4 * δ₂ * ‖(x, y)‖ := by rw [hs, hδ₂]; ring
    linarith
  obtain ⟨R, hR⟩ : ∃ R, R = max 1 (E / (4 * δ₂)) := ⟨_, rfl⟩
  have hR1 : 1 ≤ R := hR ▸ le_max_left _ _
  refine ⟨min (δ₁ / 5) (4 * δ₂ / R), lt_min (by positivity) (by positivity),
    fun G H x y hG hH hx hy hE => ?_⟩
  rcases le_or_gt ‖(x, y)‖ (1 / 4) with hn | hn
  · exact (mul_le_mul_of_nonneg_right (min_le_left _ _) (sq_nonneg _)).trans
      (hsmall G H x y hG hH hx hy hn)
  · have h1 := hlarge G H x y hG hH hx hy hn.le
    have h2 : ‖(x, y)‖ ≤ R := by
      rw [hR]
      refine le_max_of_le_right ?_
      rw [le_div_iff₀ (by positivity)]
      linarith
    refine (mul_le_mul_of_nonneg_right (min_le_right _ _) (sq_nonneg _)).trans (le_trans ?_ h1)
    rw [div_mul_eq_mul_div, div_le_iff₀ (by linarith), sq]
    have h3 : 0 ≤ 4 * δ₂ * ‖(x, y)‖ := by positivity
    nlinarith [mul_le_mul_of_nonneg_left h2 h3]

/-! ## Half-steps -/

/-- Length of a half-step: the distance of `A'` to `A` after whitening by `A`. -/
noncomputable def halfStep {n : ℕ} (A A' : Matrix (Fin n) (Fin n) 𝕜) : ℝ :=
  Real.sqrt (2 * (n - RCLike.re (trace (A⁻¹ * A'))))

theorem halfStep_nonneg {n : ℕ} (A A' : Matrix (Fin n) (Fin n) 𝕜) : 0 ≤ halfStep A A' :=
  Real.sqrt_nonneg _

/-- A half-step lowers the cost by at least the square of its length. -/
theorem geo_descent {n : ℕ} {A A' : Matrix (Fin n) (Fin n) 𝕜} (hA : A.PosDef) (hA' : A'.PosDef)
    (C : Fin N → Matrix (Fin n) (Fin n) 𝕜) (d e : Fin N → ℝ)
    (hd : ∀ i, trace (A⁻¹ * C i) = (d i : 𝕜)) (hd0 : ∀ i, 0 < d i)
    (he : ∀ i, trace (A'⁻¹ * C i) = (e i : 𝕜)) (he0 : ∀ i, 0 < e i) (hN : 0 < N)
    (hS : A' * A⁻¹ * A' = ((n : 𝕜) / N) • ∑ i, (trace (A⁻¹ * C i))⁻¹ • C i) :
    RCLike.re (trace (A⁻¹ * (A' * A⁻¹ * A'))) = n ∧
    halfStep A A' ^ 2 = 2 * (n - RCLike.re (trace (A⁻¹ * A'))) ∧
    n * ∑ i, Real.log (e i) + N * Real.log (RCLike.re A'.det) + N / 2 * halfStep A A' ^ 2 ≤
      n * ∑ i, Real.log (d i) + N * Real.log (RCLike.re A.det) := by
  have hN' : (0 : ℝ) < N := by exact_mod_cast hN
  obtain ⟨T, hT⟩ : ∃ T, T = RCLike.re (trace (A⁻¹ * A')) := ⟨_, rfl⟩
  have hu := (isUnit_iff_isUnit_det A').1 hA'.isUnit
  have tr : ∀ P : Matrix (Fin n) (Fin n) 𝕜, ∀ f : Fin N → ℝ, (∀ i, trace (P * C i) = (f i : 𝕜)) →
      RCLike.re (trace (P * (A' * A⁻¹ * A'))) = n / N * ∑ i, f i / d i := fun P f hf => by
    rw [hS, Matrix.mul_smul, trace_smul, Matrix.mul_sum, trace_sum]
    have : ∀ i, trace (P * ((trace (A⁻¹ * C i))⁻¹ • C i)) = ((f i / d i : ℝ) : 𝕜) := fun i => by
      rw [Matrix.mul_smul, trace_smul, hd, hf, smul_eq_mul]
      push_cast
      rw [div_eq_inv_mul]
    simp only [this, smul_eq_mul]
    rw [← RCLike.ofReal_sum, show ((n : 𝕜) / N) = ((n / N : ℝ) : 𝕜) by push_cast; rfl,
      ← RCLike.ofReal_mul, RCLike.ofReal_re]
  have h1 := tr A⁻¹ d hd
  have h2 := tr A'⁻¹ e he
  have h3 : RCLike.re (trace (A'⁻¹ * (A' * A⁻¹ * A'))) = T := by
    rw [hT, Matrix.mul_assoc A', ← Matrix.mul_assoc A'⁻¹, nonsing_inv_mul _ hu, Matrix.one_mul]
  have h4 : ∑ i, d i / d i = N := by
    rw [Finset.sum_congr rfl fun i _ => div_self (hd0 i).ne']; simp
  rw [h3] at h2
  rw [h4, div_mul_cancel₀ _ hN'.ne'] at h1
  have h5 := trace_sq_ge hA hA'
  rw [h1, ← hT] at h5
  have h6 : (n : ℝ) * ∑ i, e i / d i = N * T := by rw [h2]; field_simp
  have h7 : ∑ i, Real.log (e i) ≤ ∑ i, (Real.log (d i) + (e i - d i) / d i) :=
    Finset.sum_le_sum fun i _ => log_tangent (hd0 i) (he0 i)
  have h8 : ∑ i, (Real.log (d i) + (e i - d i) / d i) =
      ∑ i, Real.log (d i) + ∑ i, e i / d i - N := by
    rw [Finset.sum_add_distrib]
    simp only [sub_div, Finset.sum_sub_distrib, h4]
    ring
  have h9 := log_det_le A A' hA hA'
  rw [← hT] at h9
  have hn : (0 : ℝ) ≤ n := Nat.cast_nonneg n
  have m1 := mul_le_mul_of_nonneg_left (h7.trans_eq h8) hn
  have hh : halfStep A A' ^ 2 = 2 * (n - T) := by
    rw [halfStep, ← hT, Real.sq_sqrt (by linarith)]
  refine ⟨h1, by rw [hh, hT], ?_⟩
  rw [hh]
  have h10 := mul_le_mul_of_nonneg_left h9 hN'.le
  have h11 : (n : ℝ) * (∑ i, Real.log (d i) + ∑ i, e i / d i - N) =
      n * ∑ i, Real.log (d i) + N * T - n * N := by
    rw [← h6]; ring
  rw [h11] at m1
  have h12 : (N : ℝ) * T ≤ N * n := mul_le_mul_of_nonneg_left (by linarith) hN'.le
  linarith

/-- Decrease of the cost along a step, and the traces of the two equations. -/
theorem kron_descent (X : Matrix (Fin N) (Fin (a * b)) 𝕜) (hN : 0 < N) (h0 : ∀ i, X i ≠ 0)
    {A A' : Matrix (Fin a) (Fin a) 𝕜} {B B' : Matrix (Fin b) (Fin b) 𝕜} (hA : A.PosDef)
    (hB : B.PosDef) (h : KronUpdate (fun i => unstack (X i)) A A' B B') :
    (RCLike.re (trace (A⁻¹ * (A' * A⁻¹ * A'))) = a ∧
      halfStep A A' ^ 2 = 2 * (a - RCLike.re (trace (A⁻¹ * A')))) ∧
    (RCLike.re (trace (B⁻¹ * (B' * B⁻¹ * B'))) = b ∧
      halfStep B B' ^ 2 = 2 * (b - RCLike.re (trace (B⁻¹ * B')))) ∧
    tylerCost X (kron A'ᵀ B') + N / 2 * (b * halfStep A A' ^ 2 + a * halfStep B B' ^ 2) ≤
      tylerCost X (kron Aᵀ B) := by
  have hne : ∀ i, unstack (X i) ≠ 0 := fun i => unstack_ne_zero (h0 i)
  choose d d1 d2 d3 using fun i => trace_den hA hB (unstack (X i))
  choose e e1 e2 e3 using fun i => trace_den h.posA hB (unstack (X i))
  choose f f1 f2 f3 using fun i => trace_den h.posA h.posB (unstack (X i))
  rw [tylerCost_kron X hA hB d d1, tylerCost_kron X h.posA h.posB f f1]
  obtain ⟨p1, q1, m1⟩ := geo_descent hA h.posA (fun i => (unstack (X i))ᴴ * B⁻¹ * unstack (X i)) d e
    d1 (fun i => d3 i (hne i)) e1 (fun i => e3 i (hne i)) hN h.eqA
  obtain ⟨p2, q2, m2⟩ := geo_descent hB h.posB (fun i => unstack (X i) * A'⁻¹ * (unstack (X i))ᴴ) e f
    (fun i => by rw [← trace_swap, e1]) (fun i => e3 i (hne i))
    (fun i => by rw [← trace_swap, f1]) (fun i => f3 i (hne i)) hN
    (by rw [h.eqB]; simp only [scatterB, trace_swap])
  refine ⟨⟨p1, q1⟩, ⟨p2, q2⟩, ?_⟩
  have k1 := mul_le_mul_of_nonneg_left m1 (Nat.cast_nonneg (α := ℝ) b)
  have k2 := mul_le_mul_of_nonneg_left m2 (Nat.cast_nonneg (α := ℝ) a)
  linarith

theorem whitening_inv {n : ℕ} {A G : Matrix (Fin n) (Fin n) 𝕜} (hG : G * A * Gᴴ = 1) :
    A⁻¹ = Gᴴ * G := by
  have := inv_of_diag (l := fun _ => 1) (whitening_isUnit hG) (fun _ => one_pos) (by rw [hG]; simp)
  simpa using this

/-- The length of a half-step, in any whitening basis. -/
theorem halfStep_eq {n : ℕ} {A A' G : Matrix (Fin n) (Fin n) 𝕜} (hA' : A'.PosDef)
    (h1 : RCLike.re (trace (A⁻¹ * (A' * A⁻¹ * A'))) = n)
    (h2 : halfStep A A' ^ 2 = 2 * (n - RCLike.re (trace (A⁻¹ * A'))))
    (hG : G * A * Gᴴ = 1) : frob (G * A' * Gᴴ - 1) = halfStep A A' := by
  have hW : (G * A' * Gᴴ - 1).IsHermitian :=
    (hA'.posSemidef.mul_mul_conjTranspose_same G).1.sub (isHermitian_one)
  have iA := whitening_inv hG
  have t1 : trace (A⁻¹ * A') = trace (G * A' * Gᴴ) := by
    rw [iA, Matrix.mul_assoc, trace_mul_comm]
  have t2 : trace (A⁻¹ * (A' * A⁻¹ * A')) = trace (G * A' * Gᴴ * (G * A' * Gᴴ)) := by
    rw [iA, Matrix.mul_assoc, trace_mul_comm]
    simp only [Matrix.mul_assoc]
  have e : frob (G * A' * Gᴴ - 1) ^ 2 = halfStep A A' ^ 2 := by
    rw [frob_sq_herm hW, h2, t1, Matrix.sub_mul, Matrix.mul_sub, Matrix.mul_one, Matrix.one_mul,
      trace_sub, trace_sub, trace_sub, trace_one, Fintype.card_fin, map_sub, map_sub, map_sub, ← t2,
      h1, RCLike.natCast_re]
    ring
  exact (sq_eq_sq₀ (frob_nonneg _) (halfStep_nonneg _ _)).1 e

theorem halfStep_le {n : ℕ} {A A' : Matrix (Fin n) (Fin n) 𝕜} (hA : A.PosDef) (hA' : A'.PosDef)
    (h2 : halfStep A A' ^ 2 = 2 * (n - RCLike.re (trace (A⁻¹ * A')))) :
    halfStep A A' ^ 2 ≤ 2 * n := by
  obtain ⟨G, l, hG, hl, g1, g2⟩ := simultaneous A A' hA hA'
  have t1 : trace (A⁻¹ * A') = trace (G * A' * Gᴴ) := by
    rw [whitening_inv g1, Matrix.mul_assoc, trace_mul_comm]
  have : 0 ≤ RCLike.re (trace (A⁻¹ * A')) := by
    rw [t1, g2, trace_diagonal, map_sum]
    exact Finset.sum_nonneg fun j _ => by rw [RCLike.ofReal_re]; exact (hl j).le
  linarith

/-- The diagonal of the whitened scatter matrix is near that of the identity. -/
theorem halfStep_diag {n : ℕ} {A A' S G : Matrix (Fin n) (Fin n) 𝕜} (hA : A.PosDef)
    (hA' : A'.PosDef) (hS : A' * A⁻¹ * A' = S)
    (h1 : RCLike.re (trace (A⁻¹ * (A' * A⁻¹ * A'))) = n)
    (h2 : halfStep A A' ^ 2 = 2 * (n - RCLike.re (trace (A⁻¹ * A'))))
    (hG : G * A * Gᴴ = 1) (c : Fin n) :
    |RCLike.re ((G * S * Gᴴ) c c) - 1| ≤ (2 * n + 2) * halfStep A A' := by
  have h3 := halfStep_eq hA' h1 h2 hG
  have h4 := halfStep_le hA hA' h2
  have hf := halfStep_nonneg A A'
  obtain ⟨Z, hZ⟩ : ∃ Z, Z = G * A' * Gᴴ - 1 := ⟨_, rfl⟩
  have e : G * S * Gᴴ - 1 = Z * Z + (Z + Z) := by
    have : G * S * Gᴴ = (Z + 1) * (Z + 1) := by
      rw [hZ, sub_add_cancel, ← hS, whitening_inv hG]
      simp only [Matrix.mul_assoc]
    rw [this]
    noncomm_ring
  have h5 : |RCLike.re ((G * S * Gᴴ) c c) - 1| ≤ ‖(G * S * Gᴴ - 1) c c‖ := by
    rw [Matrix.sub_apply, one_apply_eq]
    have := RCLike.abs_re_le_norm ((G * S * Gᴴ) c c - 1)
    rwa [map_sub, RCLike.one_re] at this
  rw [← hZ] at h3
  have h6 := (norm_entry_le (G * S * Gᴴ - 1) c c)
  rw [e] at h6 h5
  have h7 := frob_add_le (Z * Z) (Z + Z)
  have h8 := frob_mul_le Z Z
  have h9 := frob_add_le Z Z
  rw [h3] at h8 h9
  have hn : 1 ≤ n := by have := c.2; omega
  have hn' : (1 : ℝ) ≤ n := by exact_mod_cast hn
  have h10 : halfStep A A' ≤ 2 * n := by
    by_contra hcon
    push Not at hcon
    nlinarith
  have h11 := mul_le_mul_of_nonneg_right h10 hf
  linarith

/-- The scatter matrix of the rows changes little when the matrix of the columns does. -/
theorem scatterB_diag_change (M : Fin N → Matrix (Fin b) (Fin a) 𝕜) (hM : ∀ i, M i ≠ 0)
    {A A' : Matrix (Fin a) (Fin a) 𝕜} {B H : Matrix (Fin b) (Fin b) 𝕜} (hA : A.PosDef)
    (hA' : A'.PosDef) (h1 : RCLike.re (trace (A⁻¹ * (A' * A⁻¹ * A'))) = a)
    (h2 : halfStep A A' ^ 2 = 2 * (a - RCLike.re (trace (A⁻¹ * A'))))
    (hH : H * B * Hᴴ = 1) (hs : halfStep A A' ≤ 1 / 2) (r : Fin b) :
    |RCLike.re ((H * scatterB M A B * Hᴴ) r r) - RCLike.re ((H * scatterB M A' B * Hᴴ) r r)| ≤
      4 * halfStep A A' * RCLike.re ((H * scatterB M A' B * Hᴴ) r r) := by
  obtain ⟨G, l, hG, hl, g1, g2⟩ := simultaneous A A' hA hA'
  have hHu := whitening_isUnit hH
  obtain ⟨ε, hε⟩ : ∃ ε, ε = halfStep A A' := ⟨_, rfl⟩
  have hε0 : 0 ≤ ε := hε ▸ halfStep_nonneg A A'
  have hlε : ∀ c, |l c - 1| ≤ ε := fun c => by
    have h3 := norm_entry_le (G * A' * Gᴴ - 1) c c
    rw [halfStep_eq hA' h1 h2 g1, g2, Matrix.sub_apply, diagonal_apply_eq, one_apply_eq,
      ← RCLike.ofReal_one, ← RCLike.ofReal_sub, RCLike.norm_ofReal, ← hε] at h3
    exact h3
  rw [← hε] at hs ⊢
  rw [scatterB_entry M hG hHu (l := fun _ => 1) (fun _ => one_pos) (by rw [g1]; simp) hH,
    scatterB_entry M hG hHu hl g2 hH, RCLike.ofReal_re, RCLike.ofReal_re]
  simp only [div_one]
  have key : ∀ i, |(∑ c, kronTau (M i) G H c r) / (∑ c, ∑ r, kronTau (M i) G H c r) -
      (∑ c, kronTau (M i) G H c r / l c) / (∑ c, ∑ r, kronTau (M i) G H c r / l c)| ≤
      4 * ε * ((∑ c, kronTau (M i) G H c r / l c) / (∑ c, ∑ r, kronTau (M i) G H c r / l c)) := by
    intro i
    have hτ := kronTau_nonneg (M i) G H
    have hT := kronTau_sum_pos (hM i) hG hHu
    have hT' : 0 < ∑ c, ∑ r, kronTau (M i) G H c r / l c := by
      have := kronTau_pos (hM i) hG hHu (fun c _ => (l c)⁻¹) fun c _ => inv_pos.2 (hl c)
      simpa only [div_eq_mul_inv] using this
    obtain ⟨T, hTd⟩ : ∃ T, T = ∑ c, ∑ r, kronTau (M i) G H c r := ⟨_, rfl⟩
    obtain ⟨T', hTd'⟩ : ∃ T, T = ∑ c, ∑ r, kronTau (M i) G H c r / l c := ⟨_, rfl⟩
    obtain ⟨u, hu⟩ : ∃ u, u = ∑ c, kronTau (M i) G H c r := ⟨_, rfl⟩
    obtain ⟨u', hu'⟩ : ∃ u, u = ∑ c, kronTau (M i) G H c r / l c := ⟨_, rfl⟩
    have b1 : ∀ c r, (1 - ε) * (kronTau (M i) G H c r / l c) ≤ kronTau (M i) G H c r ∧
        kronTau (M i) G H c r ≤ (1 + ε) * (kronTau (M i) G H c r / l c) := fun c r => by
      have h3 := abs_le.1 (hlε c)
      have h4 : 0 ≤ kronTau (M i) G H c r / l c := div_nonneg (hτ c r) (hl c).le
      have h5 : kronTau (M i) G H c r = l c * (kronTau (M i) G H c r / l c) := by
        rw [mul_div_cancel₀ _ (hl c).ne']
      constructor
      · conv_rhs => rw [h5]
        exact mul_le_mul_of_nonneg_right (by linarith) h4
      · conv_lhs => rw [h5]
        exact mul_le_mul_of_nonneg_right (by linarith) h4
    have u1 : (1 - ε) * u' ≤ u ∧ u ≤ (1 + ε) * u' := by
      rw [hu, hu', Finset.mul_sum, Finset.mul_sum]
      exact ⟨Finset.sum_le_sum fun c _ => (b1 c r).1, Finset.sum_le_sum fun c _ => (b1 c r).2⟩
    have t1 : (1 - ε) * T' ≤ T ∧ T ≤ (1 + ε) * T' := by
      rw [hTd, hTd', Finset.mul_sum, Finset.mul_sum]
      simp only [Finset.mul_sum]
      exact ⟨Finset.sum_le_sum fun c _ => Finset.sum_le_sum fun r _ => (b1 c r).1,
        Finset.sum_le_sum fun c _ => Finset.sum_le_sum fun r _ => (b1 c r).2⟩
    have u0 : 0 ≤ u' := by
      rw [hu']
      exact Finset.sum_nonneg fun c _ => div_nonneg (hτ c r) (hl c).le
    rw [← hTd, ← hTd', ← hu, ← hu']
    rw [← hTd] at hT
    rw [← hTd'] at hT'
    have q0 : 0 ≤ u' / T' := div_nonneg u0 hT'.le
    have e1 : u' = u' / T' * T' := by rw [div_mul_cancel₀ _ hT'.ne']
    obtain ⟨q, hq⟩ : ∃ q, q = u' / T' := ⟨_, rfl⟩
    rw [← hq] at q0 e1 ⊢
    have m1 : 0 ≤ q * T' := mul_nonneg q0 hT'.le
    rw [abs_le]
    constructor
    · rw [neg_le_sub_iff_le_add, ← sub_le_iff_le_add]
      rw [le_div_iff₀ hT]
      have h3 : (q - 4 * ε * q) * T ≤ (1 - ε) * (q * T') := by
        rcases le_total 0 (1 - 4 * ε) with h4 | h4
        · have h5 := mul_le_mul_of_nonneg_left t1.2 (mul_nonneg q0 h4)
          have h6 : 0 ≤ (2 * ε + 4 * ε ^ 2) * (q * T') := by positivity
          linarith
        · have h5 : (q - 4 * ε * q) * T ≤ 0 :=
            mul_nonpos_of_nonpos_of_nonneg (by nlinarith) hT.le
          have h6 : 0 ≤ (1 - ε) * (q * T') := mul_nonneg (by linarith) m1
          linarith
      have h7 := u1.1
      rw [e1] at h7
      linarith
    · rw [sub_le_iff_le_add, div_le_iff₀ hT]
      have h3 : (1 + ε) * (q * T') ≤ (4 * ε * q + q) * T := by
        have h5 := mul_le_mul_of_nonneg_left t1.1 (show 0 ≤ 4 * ε * q + q by positivity)
        have h6 : 0 ≤ (2 * ε - 4 * ε ^ 2) * (q * T') := mul_nonneg (by nlinarith) m1
        linarith
      have h7 := u1.2
      rw [e1] at h7
      linarith
  rw [← mul_sub, ← Finset.sum_sub_distrib, abs_mul, abs_of_nonneg (by positivity : (0 : ℝ) ≤ b / N)]
  have h3 := (Finset.abs_sum_le_sum_abs (fun i => (∑ c, kronTau (M i) G H c r) /
      (∑ c, ∑ r, kronTau (M i) G H c r) - (∑ c, kronTau (M i) G H c r / l c) /
      (∑ c, ∑ r, kronTau (M i) G H c r / l c)) Finset.univ).trans
    (Finset.sum_le_sum fun i _ => key i)
  rw [← Finset.mul_sum] at h3
  have h4 := mul_le_mul_of_nonneg_left h3 (by positivity : (0 : ℝ) ≤ b / N)
  linarith

/-! ## The distance of the cost to its minimum -/

theorem rewhiten {n : ℕ} {A A' G : Matrix (Fin n) (Fin n) 𝕜} {x : Fin n → ℝ} (g1 : G * A * Gᴴ = 1)
    (g2 : G * A' * Gᴴ = diagonal fun j => ((Real.exp (x j) : ℝ) : 𝕜)) :
    ∃ G' : Matrix (Fin n) (Fin n) 𝕜, G' * A' * G'ᴴ = 1 ∧
      G' * A * G'ᴴ = diagonal fun j => ((Real.exp (-x j) : ℝ) : 𝕜) := by
  obtain ⟨D, hD⟩ : ∃ D : Matrix (Fin n) (Fin n) 𝕜,
    D = diagonal fun j => ((Real.exp (-(x j / 2)) : ℝ) : 𝕜) := ⟨_, rfl⟩
  have hDH : Dᴴ = D := by
    rw [hD, diagonal_conjTranspose]
    congr 1
    funext j
    simp only [Pi.star_apply, RCLike.star_def, RCLike.conj_ofReal]
  have e : ∀ Z : Matrix (Fin n) (Fin n) 𝕜, D * G * Z * (D * G)ᴴ = D * (G * Z * Gᴴ) * D := fun Z => by
    rw [conjTranspose_mul, hDH]
    simp only [Matrix.mul_assoc]
  refine ⟨D * G, ?_, ?_⟩
  · rw [e, g2, hD, diagonal_mul_diagonal, diagonal_mul_diagonal, ← diagonal_one]
    congr 1
    funext j
    rw [← RCLike.ofReal_mul, ← RCLike.ofReal_mul, ← Real.exp_add, ← Real.exp_add]
    rw [show -(x j / 2) + x j + -(x j / 2) = 0 by ring, Real.exp_zero, RCLike.ofReal_one]
  · rw [e, g1, Matrix.mul_one, hD, diagonal_mul_diagonal]
    congr 1
    funext j
    rw [← RCLike.ofReal_mul, ← Real.exp_add]
    congr 2
    ring

theorem sum_mul_le {n : ℕ} (x s : Fin n → ℝ) {R S : ℝ} (hR : 0 ≤ R) (hx : ∀ c, |x c| ≤ R)
    (hs : ∀ c, |s c - 1| ≤ S) : ∑ c, x c * (s c - 1) ≤ n * (R * S) := by
  have : ∑ c, x c * (s c - 1) ≤ ∑ _c : Fin n, R * S := Finset.sum_le_sum fun c _ => by
    refine (le_abs_self _).trans ?_
    rw [abs_mul]
    exact mul_le_mul (hx c) (hs c) (abs_nonneg _) hR
  simpa using this

theorem gap_arith {e L n w κ : ℝ} (hκ : 0 < κ) (hup : e ≤ L * (n * w)) (hgr : κ * n ^ 2 ≤ e) :
    e ≤ L ^ 2 / κ * w ^ 2 := by
  rcases le_or_gt e 0 with h1 | h1
  · exact h1.trans (by positivity)
  · have h2 : e ^ 2 ≤ L ^ 2 * w ^ 2 * n ^ 2 := by
      have := pow_le_pow_left₀ h1.le hup 2
      linarith [mul_pow L (n * w) 2, mul_pow n w 2]
    have h3 : κ * e ^ 2 ≤ L ^ 2 * w ^ 2 * e := by
      have h4 := mul_le_mul_of_nonneg_left hgr (show 0 ≤ L ^ 2 * w ^ 2 by positivity)
      have h5 := mul_le_mul_of_nonneg_left h2 hκ.le
      linarith
    have h6 : κ * e ≤ L ^ 2 * w ^ 2 := by
      refine le_of_mul_le_mul_right ?_ h1
      linarith
    rw [div_mul_eq_mul_div, le_div_iff₀ hκ]
    linarith

theorem kron_gap_le (X : Matrix (Fin N) (Fin (a * b)) 𝕜) (hN : 0 < N) (ha : 0 < a)
    (hb : 0 < b) (h0 : ∀ i, X i ≠ 0)
    {A : Matrix (Fin a) (Fin a) 𝕜} {B : Matrix (Fin b) (Fin b) 𝕜} (hA : A.PosDef) (hB : B.PosDef)
    (hfA : scatterA (fun i => unstack (X i)) A B = A)
    (hfB : scatterB (fun i => unstack (X i)) A B = B)
    (huniq : ∀ (A' : Matrix (Fin a) (Fin a) 𝕜) (B' : Matrix (Fin b) (Fin b) 𝕜), A'.PosDef →
      B'.PosDef → tylerCost X (kron A'ᵀ B') = tylerCost X (kron Aᵀ B) →
      ∃ s t : ℝ, A' = (s : 𝕜) • A ∧ B' = (t : 𝕜) • B) (E : ℝ) :
    ∃ C : ℝ, 0 < C ∧ ∀ (P P' : Matrix (Fin a) (Fin a) 𝕜) (Q Q' : Matrix (Fin b) (Fin b) 𝕜),
      P.PosDef → Q.PosDef → KronUpdate (fun i => unstack (X i)) P P' Q Q' →
      tylerCost X (kron Pᵀ Q) - tylerCost X (kron Aᵀ B) ≤ E →
      tylerCost X (kron Pᵀ Q) - tylerCost X (kron Aᵀ B) ≤
        C * (halfStep P P' ^ 2 + halfStep Q Q' ^ 2) := by
  obtain ⟨κ, hκ, hgrow⟩ := kron_quadratic_growth X hN ha hb h0 hA hB hfA hfB huniq E
  have hM : ∀ i, (unstack (X i) : Matrix (Fin b) (Fin a) 𝕜) ≠ 0 := fun i => unstack_ne_zero (h0 i)
  obtain ⟨K, hK⟩ : ∃ K : ℝ, K = 4 * (1 + (2 * b + 2) * (2 * b)) + (2 * b + 2) + (2 * a + 2) :=
    ⟨_, rfl⟩
  have hK0 : 0 < K := by rw [hK]; positivity
  obtain ⟨L, hL⟩ : ∃ L : ℝ, L = 2 * N * a * b * K := ⟨_, rfl⟩
  have hL0 : 0 ≤ L := by rw [hL]; positivity
  refine ⟨2 * (L ^ 2 / κ) + 4 * |E| + 1, by positivity, fun P P' Q Q' hP hQ u hE => ?_⟩
  obtain ⟨⟨p1, p2⟩, ⟨q1, q2⟩, -⟩ := kron_descent X hN h0 hP hQ u
  have f0 := halfStep_nonneg P P'
  have g0 := halfStep_nonneg Q Q'
  obtain ⟨e, he⟩ : ∃ e, e = tylerCost X (kron Pᵀ Q) - tylerCost X (kron Aᵀ B) := ⟨_, rfl⟩
  rw [← he] at hE ⊢
  have hsq : 0 ≤ halfStep P P' ^ 2 + halfStep Q Q' ^ 2 := by positivity
  rcases le_or_gt (halfStep P P') (1 / 2) with hf | hf
  swap
  · have h1 : 1 / 4 ≤ halfStep P P' ^ 2 := by nlinarith
    have h2 : e ≤ 4 * |E| * halfStep P P' ^ 2 := by
      have := mul_le_mul_of_nonneg_left h1 (abs_nonneg E)
      linarith [le_abs_self E]
    have h3 : 0 ≤ (2 * (L ^ 2 / κ) + 1) * (halfStep P P' ^ 2 + halfStep Q Q' ^ 2) := by positivity
    have h4 : 0 ≤ 4 * |E| * halfStep Q Q' ^ 2 := by positivity
    linarith
  obtain ⟨G, x, g1, g2⟩ := simultaneous_exp P A hP hA
  obtain ⟨H, y, k1, k2⟩ := simultaneous_exp Q B hQ hB
  have hG := whitening_isUnit g1
  have hH := whitening_isUnit k1
  have c1 := kronF_eq X hP hQ hA hB hG hH x y g1 k1 g2 k2
  rw [← kronF_shift _ hM hG hH x y (-((∑ c, x c) / a)) (-((∑ r, y r) / b))] at c1
  obtain ⟨G', g3, g4⟩ := rewhiten g1 g2
  obtain ⟨H', k3, k4⟩ := rewhiten k1 k2
  have c2 := kronF_eq X hA hB hP hQ (whitening_isUnit g3) (whitening_isUnit k3) (fun j => -x j)
    (fun j => -y j) g3 k3 g4 k4
  rw [← kronF_shift _ hM (whitening_isUnit g3) (whitening_isUnit k3) (fun j => -x j) (fun j => -y j)
    ((∑ c, x c) / a) ((∑ r, y r) / b)] at c2
  have s1 := sub_mean_sum x
  have s2 := sub_mean_sum y
  obtain ⟨x', hx'⟩ : ∃ x' : Fin a → ℝ, x' = fun c => x c + -((∑ c, x c) / a) := ⟨_, rfl⟩
  obtain ⟨y', hy'⟩ : ∃ y' : Fin b → ℝ, y' = fun r => y r + -((∑ r, y r) / b) := ⟨_, rfl⟩
  have ex : (fun c => -x c + (∑ c, x c) / a) = -x' := by
    rw [hx']; funext c; simp only [Pi.neg_apply]; ring
  have ey : (fun c => -y c + (∑ c, y c) / b) = -y' := by
    rw [hy']; funext c; simp only [Pi.neg_apply]; ring
  rw [ex, ey] at c2
  rw [← hx', ← hy'] at c1
  have s1' : ∑ c, x' c = 0 := by rw [hx']; exact s1
  have s2' : ∑ c, y' c = 0 := by rw [hy']; exact s2
  have hFe : kronF (fun i => (unstack (X i) : Matrix (Fin b) (Fin a) 𝕜)) G' H' (-x') (-y') = e := by
    linarith
  have hgr := hgrow G' H' (-x') (-y') g3 k3 (by simp [s1']) (by simp [s2']) (by rw [hFe]; exact hE)
  rw [hFe, ← Prod.neg_mk, norm_neg] at hgr
  obtain ⟨n, hn⟩ : ∃ n, n = ‖(x', y')‖ := ⟨_, rfl⟩
  rw [← hn] at hgr
  have hn0 : 0 ≤ n := hn ▸ norm_nonneg _
  have bx : ∀ c, |x' c| ≤ n := fun c => by
    rw [hn, ← Real.norm_eq_abs]
    exact (norm_le_pi_norm x' c).trans (norm_fst_le (x', y'))
  have bY : ∀ c, |y' c| ≤ n := fun c => by
    rw [hn, ← Real.norm_eq_abs]
    exact (norm_le_pi_norm y' c).trans (norm_snd_le (x', y'))
  -- the gradient
  have hb1 : (1 : ℝ) ≤ b := by exact_mod_cast hb
  have hgb : halfStep Q Q' ≤ 2 * b := by
    have h1 := halfStep_le hQ u.posB q2
    by_contra hcon
    push Not at hcon
    nlinarith
  obtain ⟨w, hw⟩ : ∃ w, w = halfStep P P' + halfStep Q Q' := ⟨_, rfl⟩
  have hw0 : 0 ≤ w := by rw [hw]; positivity
  have dA : ∀ c, |RCLike.re ((G * scatterA (fun i => unstack (X i)) P Q * Gᴴ) c c) - 1| ≤ K * w :=
    fun c => by
    refine (halfStep_diag hP u.posA u.eqA p1 p2 g1 c).trans ?_
    have h1 : (2 * (a : ℝ) + 2) ≤ K := by
      rw [hK]
      have : (0 : ℝ) ≤ 4 * (1 + (2 * b + 2) * (2 * b)) + (2 * b + 2) := by positivity
      linarith
    exact mul_le_mul h1 (by rw [hw]; linarith) f0 hK0.le
  have dB : ∀ r, |RCLike.re ((H * scatterB (fun i => unstack (X i)) P Q * Hᴴ) r r) - 1| ≤ K * w :=
    fun r => by
    have h1 := halfStep_diag hQ u.posB u.eqB q1 q2 k1 r
    have h2 := scatterB_diag_change (fun i => (unstack (X i) : Matrix (Fin b) (Fin a) 𝕜)) hM hP
      u.posA p1 p2 k1 hf r
    obtain ⟨T, hT⟩ : ∃ T, T = RCLike.re ((H * scatterB (fun i => unstack (X i)) P Q * Hᴴ) r r) :=
      ⟨_, rfl⟩
    obtain ⟨T', hT'⟩ : ∃ T, T = RCLike.re ((H * scatterB (fun i => unstack (X i)) P' Q * Hᴴ) r r) :=
      ⟨_, rfl⟩
    rw [← hT'] at h1
    rw [← hT, ← hT'] at h2
    rw [← hT]
    have h3 : T' ≤ 1 + (2 * b + 2) * (2 * b) := by
      have := mul_le_mul_of_nonneg_left hgb (show (0 : ℝ) ≤ 2 * b + 2 by positivity)
      linarith [(abs_le.1 h1).2]
    have h4 : 4 * halfStep P P' * T' ≤ 4 * halfStep P P' * (1 + (2 * b + 2) * (2 * b)) :=
      mul_le_mul_of_nonneg_left h3 (by positivity)
    have h5 : |T - 1| ≤ |T - T'| + |T' - 1| := abs_sub_le _ _ _
    have h6 : 0 ≤ (2 * (b : ℝ) + 2 + (2 * a + 2)) * halfStep P P' := by positivity
    have h7 : 0 ≤ (4 * (1 + (2 * (b : ℝ) + 2) * (2 * b)) + (2 * a + 2)) * halfStep Q Q' := by
      positivity
    rw [hw, hK]
    linarith
  have hge := kronF_ge (fun i => (unstack (X i) : Matrix (Fin b) (Fin a) 𝕜)) hM hN hG hH g1 k1 x' y'
  have m1 := sum_mul_le x' _ hn0 bx dA
  have m2 := sum_mul_le y' _ hn0 bY dB
  have n1 : ∀ {m : ℕ} (v s : Fin m → ℝ), ∑ c, v c * (1 - s c) = -∑ c, v c * (s c - 1) :=
    fun v s => by
      rw [← Finset.sum_neg_distrib]
      exact Finset.sum_congr rfl fun c _ => by ring
  rw [n1, n1] at hge
  have hbR : (0 : ℝ) ≤ b := Nat.cast_nonneg b
  have haR : (0 : ℝ) ≤ a := Nat.cast_nonneg a
  have hNR : (0 : ℝ) ≤ N := Nat.cast_nonneg N
  have m3 := mul_le_mul_of_nonneg_left (add_le_add (mul_le_mul_of_nonneg_left m1 hbR)
    (mul_le_mul_of_nonneg_left m2 haR)) hNR
  have hup : e ≤ L * (n * w) := by
    rw [hL]
    linarith
  have hfin : e ≤ L ^ 2 / κ * w ^ 2 := gap_arith hκ hup hgr
  have hw2 : w ^ 2 ≤ 2 * (halfStep P P' ^ 2 + halfStep Q Q' ^ 2) := by
    rw [hw]
    exact add_sq_le
  have h1 := mul_le_mul_of_nonneg_left hw2 (show 0 ≤ L ^ 2 / κ by positivity)
  have h2 : 0 ≤ (4 * |E| + 1) * (halfStep P P' ^ 2 + halfStep Q Q' ^ 2) := by positivity
  linarith

/-! ## The length of a half-step and the relative change -/

theorem halfStep_frob {n : ℕ} {A A' : Matrix (Fin n) (Fin n) 𝕜} (hA : A.PosDef) (hA' : A'.PosDef)
    (h1 : RCLike.re (trace (A⁻¹ * (A' * A⁻¹ * A'))) = n)
    (h2 : halfStep A A' ^ 2 = 2 * (n - RCLike.re (trace (A⁻¹ * A')))) :
    frob (A' - A) ≤ RCLike.re A.trace * halfStep A A' ∧
    halfStep A A' ≤ RCLike.re (A⁻¹).trace * frob (A' - A) := by
  obtain ⟨R, hR, hRR⟩ := exists_pd_root hA
  have hu := (isUnit_iff_isUnit_det R).1 hR.isUnit
  have hRi : (R⁻¹)ᴴ = R⁻¹ := hR.inv.1.eq
  have hw : R⁻¹ * A * (R⁻¹)ᴴ = 1 := by
    rw [hRi, ← hRR, ← Matrix.mul_assoc, nonsing_inv_mul _ hu, Matrix.one_mul, mul_nonsing_inv _ hu]
  have h3 := halfStep_eq hA' h1 h2 hw
  rw [hRi] at h3 hw
  have e1 : R⁻¹ * A' * R⁻¹ - 1 = R⁻¹ * (A' - A) * R⁻¹ := by
    rw [Matrix.mul_sub, Matrix.sub_mul, hw]
  have e2 : A' - A = R * (R⁻¹ * A' * R⁻¹ - 1) * R := by
    rw [e1]
    calc A' - A = (R * R⁻¹) * (A' - A) * (R⁻¹ * R) := by
          rw [mul_nonsing_inv _ hu, nonsing_inv_mul _ hu, Matrix.one_mul, Matrix.mul_one]
      _ = _ := by simp only [Matrix.mul_assoc]
  have f1 : frob R * frob R = RCLike.re A.trace := by
    rw [← sq, frob_sq_herm hR.1, hRR]
  have f2 : frob R⁻¹ * frob R⁻¹ = RCLike.re (A⁻¹).trace := by
    rw [← sq, frob_sq_herm hR.inv.1, ← hRR, Matrix.mul_inv_rev]
  constructor
  · have := frob_sandwich R (R⁻¹ * A' * R⁻¹ - 1)
    rwa [← e2, f1, h3] at this
  · have := frob_sandwich R⁻¹ (A' - A)
    rwa [← e1, f2, h3] at this

end
end RS
