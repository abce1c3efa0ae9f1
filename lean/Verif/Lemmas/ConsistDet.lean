import Verif.Lemmas.ExistIff
import Verif.Lemmas.Structured

/-! The cost of the Tyler and Student estimators near a reference matrix `S = R R^H`, written in the
coordinates `R U diag(exp m) U^H R^H` (`U` unitary): convexity along `t ↦ t m`, bounds and continuity
that are uniform in the sample. -/
set_option autoImplicit false

namespace RS
open Matrix ComplexOrder Filter Topology

section
variable {𝕜 : Type} [RCLike 𝕜] {N p : ℕ}

/-- The contribution of one (whitened) sample `y` to the cost of `R U diag(exp m) U^H R^H` minus the
cost of `R R^H`. -/
noncomputable def psi (nu : ℝ) (U : Matrix (Fin p) (Fin p) 𝕜) (m : Fin p → ℝ) (y : Fin p → 𝕜) : ℝ :=
  (nu + p) * (Real.log (nu + ∑ j, ‖(Uᴴ *ᵥ y) j‖ ^ 2 * Real.exp (-m j)) -
    Real.log (nu + ∑ j, ‖y j‖ ^ 2)) + ∑ j, m j

theorem unitary_nsq {U : Matrix (Fin p) (Fin p) 𝕜} (hU : Uᴴ * U = 1) (y : Fin p → 𝕜) :
    ∑ j, ‖(Uᴴ *ᵥ y) j‖ ^ 2 = ∑ j, ‖y j‖ ^ 2 := by
  have h := eigen_qf (l := fun _ => 1) hU (fun _ => one_pos) y
  have e : (diagonal fun _ : Fin p => ((1 : ℝ) : 𝕜)) = 1 := by simp
  rw [e, Matrix.mul_one, mul_eq_one_comm.1 hU, qf_one] at h
  simpa using h.symm

theorem param_qf {R U : Matrix (Fin p) (Fin p) 𝕜} (hR : IsUnit R) (hU : Uᴴ * U = 1) (m : Fin p → ℝ)
    (x : Fin p → 𝕜) :
    qf (R * (U * diagonal (fun j => ((Real.exp (m j) : ℝ) : 𝕜)) * Uᴴ) * Rᴴ) x =
      ∑ j, ‖(Uᴴ *ᵥ (R⁻¹ *ᵥ x)) j‖ ^ 2 * Real.exp (-m j) := by
  have hx : x = R *ᵥ (R⁻¹ *ᵥ x) := by
    rw [mulVec_mulVec, Matrix.mul_nonsing_inv R ((Matrix.isUnit_iff_isUnit_det R).1 hR), one_mulVec]
  conv_lhs => rw [hx]
  rw [qf_congr R hR, eigen_qf hU (fun j => Real.exp_pos (m j))]
  simp only [Real.exp_neg, div_eq_mul_inv]

theorem param_posDef {R U : Matrix (Fin p) (Fin p) 𝕜} (hR : IsUnit R) (hU : Uᴴ * U = 1)
    (m : Fin p → ℝ) :
    (R * (U * diagonal (fun j => ((Real.exp (m j) : ℝ) : 𝕜)) * Uᴴ) * Rᴴ).PosDef := by
  have h1 : (diagonal (fun j => ((Real.exp (m j) : ℝ) : 𝕜))).PosDef := by
    rw [posDef_diagonal_iff]
    intro j
    exact_mod_cast Real.exp_pos (m j)
  have h2 := (IsUnit.posDef_star_right_conjugate_iff (U := U)
    ⟨⟨U, Uᴴ, mul_eq_one_comm.1 hU, hU⟩, rfl⟩).2 h1
  exact (IsUnit.posDef_star_right_conjugate_iff hR).2 h2

theorem param_exists {R Q : Matrix (Fin p) (Fin p) 𝕜} (hR : IsUnit R) (hQ : Q.PosDef) :
    ∃ (U : Matrix (Fin p) (Fin p) 𝕜) (m : Fin p → ℝ), Uᴴ * U = 1 ∧
      Q = R * (U * diagonal (fun j => ((Real.exp (m j) : ℝ) : 𝕜)) * Uᴴ) * Rᴴ := by
  have hRd := (Matrix.isUnit_iff_isUnit_det R).1 hR
  have h1 : (R⁻¹ * Q * R⁻¹ᴴ).PosDef :=
    (IsUnit.posDef_star_right_conjugate_iff (Matrix.isUnit_nonsing_inv_iff.2 hR)).2 hQ
  obtain ⟨U, l, hU, hl, h⟩ := spectral_exists _ h1
  refine ⟨U, fun j => Real.log (l j), hU, ?_⟩
  have e : (fun j => ((Real.exp (Real.log (l j)) : ℝ) : 𝕜)) = fun j => (l j : 𝕜) := by
    funext j; rw [Real.exp_log (hl j)]
  rw [e, ← h]
  have h2 : R * R⁻¹ = 1 := Matrix.mul_nonsing_inv R hRd
  have h3 : R⁻¹ᴴ * Rᴴ = 1 := by rw [← conjTranspose_mul, h2, conjTranspose_one]
  calc Q = (R * R⁻¹) * Q * (R⁻¹ᴴ * Rᴴ) := by rw [h2, h3, Matrix.one_mul, Matrix.mul_one]
    _ = _ := by simp only [Matrix.mul_assoc]

theorem param_logdet {R U : Matrix (Fin p) (Fin p) 𝕜} (hR : IsUnit R) (hU : Uᴴ * U = 1)
    (m : Fin p → ℝ) :
    Real.log (RCLike.re (R * (U * diagonal (fun j => ((Real.exp (m j) : ℝ) : 𝕜)) * Uᴴ) * Rᴴ).det) =
      Real.log (RCLike.re (R * Rᴴ).det) + ∑ j, m j := by
  have h1 : (U * diagonal (fun j => ((Real.exp (m j) : ℝ) : 𝕜)) * Uᴴ).det =
      ((Real.exp (∑ j, m j) : ℝ) : 𝕜) := by
    rw [det_mul, det_mul, mul_right_comm, ← det_mul, mul_eq_one_comm.1 hU, det_one, one_mul,
      det_diagonal, Real.exp_sum]
    push_cast
    rfl
  have h2 : (R * (U * diagonal (fun j => ((Real.exp (m j) : ℝ) : 𝕜)) * Uᴴ) * Rᴴ).det =
      ((Real.exp (∑ j, m j) : ℝ) : 𝕜) * (R * Rᴴ).det := by
    rw [det_mul, det_mul, h1, det_mul]; ring
  have h3 : (R * Rᴴ).PosDef := by
    have := param_posDef hR (U := 1) (by simp) 0
    simpa using this
  have h4 : 0 < RCLike.re (R * Rᴴ).det := (posDef_det_pos h3).1
  rw [h2, RCLike.re_ofReal_mul, Real.log_mul (Real.exp_pos _).ne' h4.ne', Real.log_exp]
  ring

theorem cost_psi {nu : ℝ} (X : Matrix (Fin N) (Fin p) 𝕜) {R U : Matrix (Fin p) (Fin p) 𝕜}
    (hR : IsUnit R) (hU : Uᴴ * U = 1) (m : Fin p → ℝ) :
    studentCost nu X (R * (U * diagonal (fun j => ((Real.exp (m j) : ℝ) : 𝕜)) * Uᴴ) * Rᴴ) -
      studentCost nu X (R * Rᴴ) = ∑ i, psi nu U m (R⁻¹ *ᵥ sample X i) := by
  have h0 : ∀ x, qf (R * Rᴴ) x = ∑ j, ‖(R⁻¹ *ᵥ x) j‖ ^ 2 := fun x => by
    have := param_qf hR (U := 1) (by simp) 0 x
    simpa using this
  unfold studentCost
  rw [param_logdet hR hU]
  simp only [param_qf hR hU, h0, psi]
  rw [Finset.sum_add_distrib, ← Finset.mul_sum, Finset.sum_sub_distrib, Finset.sum_const,
    Finset.card_univ, Fintype.card_fin, nsmul_eq_mul]
  ring

theorem exp_sum_pos {nu : ℝ} (hnu : 0 ≤ nu) {U : Matrix (Fin p) (Fin p) 𝕜} (hU : Uᴴ * U = 1)
    (m : Fin p → ℝ) (y : Fin p → 𝕜) :
    Real.exp (-‖m‖) * (nu + ∑ j, ‖y j‖ ^ 2) ≤ nu + ∑ j, ‖(Uᴴ *ᵥ y) j‖ ^ 2 * Real.exp (-m j) ∧
    nu + ∑ j, ‖(Uᴴ *ᵥ y) j‖ ^ 2 * Real.exp (-m j) ≤ Real.exp ‖m‖ * (nu + ∑ j, ‖y j‖ ^ 2) := by
  have hm : ∀ j, |m j| ≤ ‖m‖ := fun j => norm_le_pi_norm m j
  rw [← unitary_nsq hU y]
  have e1 : Real.exp (-‖m‖) ≤ 1 := Real.exp_le_one_iff.2 (by linarith [norm_nonneg m])
  have e2 : 1 ≤ Real.exp ‖m‖ := Real.one_le_exp (norm_nonneg m)
  rw [mul_add, mul_add, Finset.mul_sum, Finset.mul_sum]
  constructor
  · refine add_le_add (by nlinarith) (Finset.sum_le_sum fun j _ => ?_)
    rw [mul_comm]
    exact mul_le_mul_of_nonneg_left (Real.exp_le_exp.2 (by linarith [(abs_le.1 (hm j)).2])) (sq_nonneg _)
  · refine add_le_add (by nlinarith) (Finset.sum_le_sum fun j _ => ?_)
    rw [mul_comm (Real.exp ‖m‖)]
    exact mul_le_mul_of_nonneg_left (Real.exp_le_exp.2 (by linarith [(abs_le.1 (hm j)).1])) (sq_nonneg _)

theorem psi_bound {nu : ℝ} (hnu : 0 ≤ nu) {U : Matrix (Fin p) (Fin p) 𝕜} (hU : Uᴴ * U = 1)
    (m : Fin p → ℝ) (y : Fin p → 𝕜) (hy : 0 < nu + ∑ j, ‖y j‖ ^ 2) :
    |psi nu U m y| ≤ (nu + p) * ‖m‖ + |∑ j, m j| := by
  obtain ⟨h1, h2⟩ := exp_sum_pos hnu hU m y
  have hpos : 0 < nu + ∑ j, ‖(Uᴴ *ᵥ y) j‖ ^ 2 * Real.exp (-m j) :=
    lt_of_lt_of_le (mul_pos (Real.exp_pos _) hy) h1
  have l1 := Real.log_le_log (mul_pos (Real.exp_pos _) hy) h1
  have l2 := Real.log_le_log hpos h2
  rw [Real.log_mul (Real.exp_pos _).ne' hy.ne', Real.log_exp] at l1 l2
  unfold psi
  refine (abs_add_le _ _).trans (add_le_add ?_ le_rfl)
  rw [abs_mul, abs_of_nonneg (by positivity : 0 ≤ nu + (p : ℝ))]
  exact mul_le_mul_of_nonneg_left (abs_le.2 ⟨by linarith, by linarith⟩) (by positivity)

/-- Convexity along `t ↦ t m`. -/
theorem psi_convex {nu : ℝ} (hnu : 0 ≤ nu) {U : Matrix (Fin p) (Fin p) 𝕜} (hU : Uᴴ * U = 1)
    (m : Fin p → ℝ) (y : Fin p → 𝕜) (hy : 0 < nu + ∑ j, ‖y j‖ ^ 2) {t : ℝ} (h0 : 0 ≤ t) (h1 : t ≤ 1) :
    psi nu U (t • m) y ≤ t * psi nu U m y := by
  have hA : 0 < nu + ∑ j, ‖(Uᴴ *ᵥ y) j‖ ^ 2 := by rwa [unitary_nsq hU y]
  have hB := lt_of_lt_of_le (mul_pos (Real.exp_pos _) hy) (exp_sum_pos hnu hU m y).1
  have hC := lt_of_lt_of_le (mul_pos (Real.exp_pos _) hy) (exp_sum_pos hnu hU (t • m) y).1
  have key : Real.log (nu + ∑ j, ‖(Uᴴ *ᵥ y) j‖ ^ 2 * Real.exp (-(t • m) j)) ≤
      (1 - t) * Real.log (nu + ∑ j, ‖(Uᴴ *ᵥ y) j‖ ^ 2) +
      t * Real.log (nu + ∑ j, ‖(Uᴴ *ᵥ y) j‖ ^ 2 * Real.exp (-m j)) := by
    set A := nu + ∑ j, ‖(Uᴴ *ᵥ y) j‖ ^ 2 with hAe
    set B := nu + ∑ j, ‖(Uᴴ *ᵥ y) j‖ ^ 2 * Real.exp (-m j) with hBe
    set D := A ^ (1 - t) * B ^ t with hD
    have hD0 : 0 < D := mul_pos (Real.rpow_pos_of_pos hA _) (Real.rpow_pos_of_pos hB _)
    have hlog : Real.log D = (1 - t) * Real.log A + t * Real.log B := by
      rw [hD, Real.log_mul (Real.rpow_pos_of_pos hA _).ne' (Real.rpow_pos_of_pos hB _).ne',
        Real.log_rpow hA, Real.log_rpow hB]
    rw [← hlog]
    refine Real.log_le_log hC ?_
    have term : ∀ a s : ℝ, 0 ≤ a →
        a * Real.exp (-(t * s)) ≤ D * ((1 - t) * (a / A) + t * (a * Real.exp (-s) / B)) := by
      intro a s ha
      have g := Real.geom_mean_le_arith_mean2_weighted (by linarith : 0 ≤ 1 - t) h0
        (div_nonneg ha hA.le) (div_nonneg (mul_nonneg ha (Real.exp_pos (-s)).le) hB.le) (by ring)
      have e : a * Real.exp (-(t * s)) = D * ((a / A) ^ (1 - t) * (a * Real.exp (-s) / B) ^ t) := by
        rw [Real.div_rpow ha hA.le, Real.div_rpow (mul_nonneg ha (Real.exp_pos _).le) hB.le,
          Real.mul_rpow ha (Real.exp_pos _).le, ← Real.exp_mul, hD]
        have hA' := (Real.rpow_pos_of_pos hA (1 - t)).ne'
        have hB' := (Real.rpow_pos_of_pos hB t).ne'
        have ea : a ^ (1 - t) * a ^ t = a := by
          rcases ha.eq_or_lt with h | h
          · rw [← h]
            rcases h0.eq_or_lt with h' | h'
            · rw [← h', sub_zero, Real.rpow_one, zero_mul]
            · rw [Real.zero_rpow h'.ne', mul_zero]
          · rw [← Real.rpow_add h, sub_add_cancel, Real.rpow_one]
        have ee : -s * t = -(t * s) := by ring
        rw [ee]
        field_simp
        exact ea.symm
      rw [e]
      exact mul_le_mul_of_nonneg_left g hD0.le
    calc nu + ∑ j, ‖(Uᴴ *ᵥ y) j‖ ^ 2 * Real.exp (-(t • m) j)
        ≤ D * ((1 - t) * (nu / A) + t * (nu / B)) +
          ∑ j, D * ((1 - t) * (‖(Uᴴ *ᵥ y) j‖ ^ 2 / A) +
            t * (‖(Uᴴ *ᵥ y) j‖ ^ 2 * Real.exp (-m j) / B)) := by
          refine add_le_add ?_ (Finset.sum_le_sum fun j _ => ?_)
          · have := term nu 0 hnu
            simpa using this
          · exact term _ (m j) (sq_nonneg _)
      _ = D * ((1 - t) * (A / A) + t * (B / B)) := by
          rw [← Finset.mul_sum, Finset.sum_add_distrib, ← Finset.mul_sum, ← Finset.mul_sum,
            ← Finset.sum_div, ← Finset.sum_div, ← mul_add]
          congr 1
          rw [hAe, hBe, add_div _ _ (nu + ∑ j, ‖(Uᴴ *ᵥ y) j‖ ^ 2),
            add_div _ _ (nu + ∑ j, ‖(Uᴴ *ᵥ y) j‖ ^ 2 * Real.exp (-m j))]
          ring
      _ = D := by rw [div_self hA.ne', div_self hB.ne']; ring
  rw [unitary_nsq hU y] at key
  unfold psi
  have hs : ∑ j, (t • m) j = t * ∑ j, m j := by
    rw [Finset.mul_sum]; rfl
  rw [hs]
  have := mul_le_mul_of_nonneg_left key (by positivity : 0 ≤ nu + (p : ℝ))
  linarith

theorem log_ratio_le {a b k : ℝ} (ha : 0 < a) (hb : 0 < b) (hk : k ≤ 1 / 2)
    (h : |b - a| ≤ k * a) : |Real.log b - Real.log a| ≤ 2 * k := by
  have hk0 : 0 ≤ k := by
    by_contra hc
    push Not at hc
    nlinarith [abs_nonneg (b - a)]
  obtain ⟨h1, h2⟩ := abs_le.1 h
  rw [abs_le]
  constructor
  · have := Real.log_le_sub_one_of_pos (div_pos ha hb)
    rw [Real.log_div ha.ne' hb.ne'] at this
    have h3 : a / b - 1 ≤ 2 * k := by
      rw [div_sub_one hb.ne', div_le_iff₀ hb]
      nlinarith
    linarith
  · have := Real.log_le_sub_one_of_pos (div_pos hb ha)
    rw [Real.log_div hb.ne' ha.ne'] at this
    have h3 : b / a - 1 ≤ k := by
      rw [div_sub_one ha.ne', div_le_iff₀ ha]
      exact h2
    linarith

theorem quad_sum_eq (U : Matrix (Fin p) (Fin p) 𝕜) (m : Fin p → ℝ) (y : Fin p → 𝕜) :
    ∑ j, ‖(Uᴴ *ᵥ y) j‖ ^ 2 * Real.exp (-m j) =
      RCLike.re (star y ⬝ᵥ ((U * diagonal (fun j => ((Real.exp (-m j) : ℝ) : 𝕜)) * Uᴴ) *ᵥ y)) := by
  have : star y ⬝ᵥ ((U * diagonal (fun j => ((Real.exp (-m j) : ℝ) : 𝕜)) * Uᴴ) *ᵥ y) =
      star (Uᴴ *ᵥ y) ⬝ᵥ (diagonal (fun j => ((Real.exp (-m j) : ℝ) : 𝕜)) *ᵥ (Uᴴ *ᵥ y)) := by
    rw [star_mulVec, conjTranspose_conjTranspose, ← dotProduct_mulVec, mulVec_mulVec, mulVec_mulVec,
      Matrix.mul_assoc]
  rw [this]
  simp only [dotProduct, mulVec_diagonal, map_sum, Pi.star_apply]
  refine Finset.sum_congr rfl fun j _ => ?_
  rw [mul_left_comm, RCLike.star_def, RCLike.conj_mul, RCLike.re_ofReal_mul, ← RCLike.ofReal_pow,
    RCLike.ofReal_re]
  ring

theorem quad_le (D : Matrix (Fin p) (Fin p) 𝕜) (y : Fin p → 𝕜) :
    |RCLike.re (star y ⬝ᵥ (D *ᵥ y))| ≤ (∑ i, ∑ k, ‖D i k‖) * ∑ j, ‖y j‖ ^ 2 := by
  refine (RCLike.abs_re_le_norm _).trans ?_
  simp only [dotProduct, mulVec, Finset.mul_sum]
  refine (norm_sum_le _ _).trans ?_
  rw [← Finset.mul_sum, Finset.sum_mul]
  refine Finset.sum_le_sum fun i _ => (norm_sum_le _ _).trans ?_
  rw [Finset.sum_mul]
  refine Finset.sum_le_sum fun k _ => ?_
  rw [norm_mul, norm_mul, Pi.star_apply, norm_star]
  have h1 : ‖y i‖ ^ 2 ≤ ∑ j, ‖y j‖ ^ 2 :=
    Finset.single_le_sum (f := fun j => ‖y j‖ ^ 2) (fun j _ => sq_nonneg _) (Finset.mem_univ i)
  have h2 : ‖y k‖ ^ 2 ≤ ∑ j, ‖y j‖ ^ 2 :=
    Finset.single_le_sum (f := fun j => ‖y j‖ ^ 2) (fun j _ => sq_nonneg _) (Finset.mem_univ k)
  have h3 : ‖y i‖ * ‖y k‖ ≤ ∑ j, ‖y j‖ ^ 2 := by nlinarith [sq_nonneg (‖y i‖ - ‖y k‖)]
  calc ‖y i‖ * (‖D i k‖ * ‖y k‖) = ‖D i k‖ * (‖y i‖ * ‖y k‖) := by ring
    _ ≤ _ := mul_le_mul_of_nonneg_left h3 (norm_nonneg _)

/-- Continuity in `(U, m)`, uniformly in the sample. -/
theorem psi_uniform {nu : ℝ} (hnu : 0 ≤ nu) (U₀ : Matrix (Fin p) (Fin p) 𝕜) (hU₀ : U₀ᴴ * U₀ = 1)
    (m₀ : Fin p → ℝ) {ε : ℝ} (hε : 0 < ε) :
    ∀ᶠ z in 𝓝 (U₀, m₀), (z.1ᴴ * z.1 = 1) → ∀ y : Fin p → 𝕜, 0 < nu + ∑ j, ‖y j‖ ^ 2 →
      |psi nu z.1 z.2 y - psi nu U₀ m₀ y| ≤ ε := by
  let M : Matrix (Fin p) (Fin p) 𝕜 × (Fin p → ℝ) → Matrix (Fin p) (Fin p) 𝕜 := fun z =>
    z.1 * diagonal (fun j => ((Real.exp (-z.2 j) : ℝ) : 𝕜)) * z.1ᴴ
  have hM : Continuous M := by
    have hd : Continuous fun z : Matrix (Fin p) (Fin p) 𝕜 × (Fin p → ℝ) =>
        (diagonal (fun j => ((Real.exp (-z.2 j) : ℝ) : 𝕜)) : Matrix (Fin p) (Fin p) 𝕜) := by
      apply Continuous.matrix_diagonal
      refine continuous_pi fun j => RCLike.continuous_ofReal.comp ?_
      fun_prop
    exact (continuous_fst.matrix_mul hd).matrix_mul continuous_fst.matrix_conjTranspose
  set c := Real.exp (-‖m₀‖) with hc
  have hc0 : 0 < c := Real.exp_pos _
  let k : Matrix (Fin p) (Fin p) 𝕜 × (Fin p → ℝ) → ℝ := fun z =>
    (∑ i, ∑ l, ‖(M z - M (U₀, m₀)) i l‖) / c
  have hk : Continuous k := by
    refine Continuous.div_const ?_ c
    refine continuous_finsetSum _ fun i _ => continuous_finsetSum _ fun l _ => ?_
    exact ((hM.sub continuous_const).matrix_elem i l).norm
  have hk0 : k (U₀, m₀) = 0 := by simp [k]
  let F : Matrix (Fin p) (Fin p) 𝕜 × (Fin p → ℝ) → ℝ := fun z =>
    (nu + p) * (2 * k z) + |∑ j, z.2 j - ∑ j, m₀ j|
  have hF : Continuous F := by
    have : Continuous fun z : Matrix (Fin p) (Fin p) 𝕜 × (Fin p → ℝ) => ∑ j, z.2 j :=
      continuous_finsetSum _ fun j _ => (continuous_apply j).comp continuous_snd
    exact (continuous_const.mul (continuous_const.mul hk)).add (this.sub continuous_const).abs
  have hF0 : F (U₀, m₀) = 0 := by simp [F, hk0]
  have e1 : ∀ᶠ z in 𝓝 (U₀, m₀), F z < ε := by
    have := hF.tendsto (U₀, m₀)
    rw [hF0] at this
    exact this.eventually (gt_mem_nhds hε)
  have e2 : ∀ᶠ z in 𝓝 (U₀, m₀), k z < 1 / 2 := by
    have := hk.tendsto (U₀, m₀)
    rw [hk0] at this
    exact this.eventually (gt_mem_nhds (by norm_num))
  filter_upwards [e1, e2] with z h1 h2 hz y hy
  have b0 := (exp_sum_pos hnu hU₀ m₀ y).1
  have a0 := lt_of_lt_of_le (mul_pos (Real.exp_pos _) hy) b0
  have a1 := lt_of_lt_of_le (mul_pos (Real.exp_pos _) hy) (exp_sum_pos hnu hz z.2 y).1
  have hdiff : |(nu + ∑ j, ‖(z.1ᴴ *ᵥ y) j‖ ^ 2 * Real.exp (-z.2 j)) -
      (nu + ∑ j, ‖(U₀ᴴ *ᵥ y) j‖ ^ 2 * Real.exp (-m₀ j))| ≤
      k z * (nu + ∑ j, ‖(U₀ᴴ *ᵥ y) j‖ ^ 2 * Real.exp (-m₀ j)) := by
    rw [add_sub_add_left_eq_sub, quad_sum_eq, quad_sum_eq, ← map_sub, ← dotProduct_sub, ← sub_mulVec]
    refine (quad_le _ y).trans ?_
    rw [← quad_sum_eq]
    have hs : (0 : ℝ) ≤ ∑ i, ∑ l, ‖(M z - M (U₀, m₀)) i l‖ :=
      Finset.sum_nonneg fun i _ => Finset.sum_nonneg fun l _ => norm_nonneg _
    calc (∑ i, ∑ l, ‖(M z - M (U₀, m₀)) i l‖) * ∑ j, ‖y j‖ ^ 2
        ≤ (∑ i, ∑ l, ‖(M z - M (U₀, m₀)) i l‖) *
          ((nu + ∑ j, ‖(U₀ᴴ *ᵥ y) j‖ ^ 2 * Real.exp (-m₀ j)) / c) := by
          refine mul_le_mul_of_nonneg_left ?_ hs
          rw [le_div_iff₀ hc0]
          nlinarith
      _ = _ := by simp only [k]; ring
  have hl := log_ratio_le a0 a1 h2.le hdiff
  have hp : (0 : ℝ) ≤ nu + p := by positivity
  refine le_trans ?_ h1.le
  unfold psi
  calc _ = |(nu + p) * (Real.log (nu + ∑ j, ‖(z.1ᴴ *ᵥ y) j‖ ^ 2 * Real.exp (-z.2 j)) -
        Real.log (nu + ∑ j, ‖(U₀ᴴ *ᵥ y) j‖ ^ 2 * Real.exp (-m₀ j))) +
        (∑ j, z.2 j - ∑ j, m₀ j)| := by congr 1; ring
    _ ≤ _ := abs_add_le _ _
    _ ≤ _ := by
      refine add_le_add ?_ le_rfl
      rw [abs_mul, abs_of_nonneg hp]
      exact mul_le_mul_of_nonneg_left hl hp

theorem isCompact_sphere_param (M : Submodule ℝ (Fin p → ℝ)) (δ : ℝ) :
    IsCompact {z : Matrix (Fin p) (Fin p) 𝕜 × (Fin p → ℝ) |
      z.1ᴴ * z.1 = 1 ∧ z.2 ∈ M ∧ ‖z.2‖ = δ} := by
  have h1 : IsCompact {m : Fin p → ℝ | m ∈ M ∧ ‖m‖ = δ} := by
    have : {m : Fin p → ℝ | m ∈ M ∧ ‖m‖ = δ} = (M : Set (Fin p → ℝ)) ∩ Metric.sphere 0 δ := by
      ext m; simp
    rw [this]
    exact (isCompact_sphere 0 δ).inter_left M.closed_of_finiteDimensional
  exact isCompact_unitary.prod h1

end
end RS
