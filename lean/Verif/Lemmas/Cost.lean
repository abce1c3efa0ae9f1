import Verif.Spec.Cost
import Verif.Lemmas.Runs
import Mathlib.Analysis.Convex.SpecificFunctions.Basic
import Mathlib.Analysis.SpecialFunctions.Log.Basic

/-! Majorisation-minimisation and Jensen arguments for the costs. -/
set_option autoImplicit false

namespace RS
open Matrix ComplexOrder

section
variable {𝕜 : Type} [RCLike 𝕜] {N p : ℕ}

theorem posDef_det_pos {S : Matrix (Fin p) (Fin p) 𝕜} (hS : S.PosDef) :
    0 < RCLike.re S.det ∧ ((RCLike.re S.det : ℝ) : 𝕜) = S.det := by
  have h := RCLike.pos_iff.1 hS.det_pos
  exact ⟨h.1, RCLike.ext (by simp) (by simp [h.2])⟩

theorem spectral_exists (C : Matrix (Fin p) (Fin p) 𝕜) (hC : C.PosDef) :
    ∃ (U : Matrix (Fin p) (Fin p) 𝕜) (l : Fin p → ℝ), Uᴴ * U = 1 ∧ (∀ j, 0 < l j) ∧
      C = U * diagonal (fun j => (l j : 𝕜)) * Uᴴ :=
  ⟨hC.1.eigenvectorUnitary, hC.1.eigenvalues,
    (Matrix.mem_unitaryGroup_iff').1 hC.1.eigenvectorUnitary.2, fun j => hC.eigenvalues_pos j,
    hC.1.spectral_theorem⟩

/-- Simultaneous diagonalisation by congruence. -/
theorem simultaneous (A B : Matrix (Fin p) (Fin p) 𝕜) (hA : A.PosDef) (hB : B.PosDef) :
    ∃ (G : Matrix (Fin p) (Fin p) 𝕜) (l : Fin p → ℝ), IsUnit G ∧ (∀ j, 0 < l j) ∧
      G * A * Gᴴ = 1 ∧ G * B * Gᴴ = diagonal (fun j => (l j : 𝕜)) := by
  obtain ⟨s, hs⟩ := eigh_exists (ι := Fin p) (𝕜 := 𝕜)
  have hR := invsqrtm_herm hs hA
  have hRR := invsqrtm_sq hs hA
  have hRP : (invsqrtm s A).PosDef := C08_invsqrtm_posDef s hs A hA
  set R := invsqrtm s A
  have hRu : IsUnit R := hRP.isUnit
  have hAu : IsUnit A.det := (Matrix.isUnit_iff_isUnit_det A).1 hA.isUnit
  have hRAR : R * A * R = 1 := by
    have h1 : R * (R * A) = 1 := by
      rw [← Matrix.mul_assoc, hRR, Matrix.nonsing_inv_mul A hAu]
    exact mul_eq_one_comm.1 h1
  have hC : (R * B * Rᴴ).PosDef := hB.mul_mul_conjTranspose_same (Matrix.vecMul_injective_of_isUnit hRu)
  obtain ⟨U, l, hUU, hl, hsp⟩ := spectral_exists _ hC
  refine ⟨Uᴴ * R, l, ?_, hl, ?_, ?_⟩
  · have hUu : IsUnit Uᴴ := ⟨⟨Uᴴ, U, hUU, mul_eq_one_comm.1 hUU⟩, rfl⟩
    exact hUu.mul hRu
  · rw [conjTranspose_mul, conjTranspose_conjTranspose, hR,
      show Uᴴ * R * A * (R * U) = Uᴴ * (R * A * R) * U by simp only [Matrix.mul_assoc], hRAR,
      Matrix.mul_one, hUU]
  · rw [conjTranspose_mul, conjTranspose_conjTranspose,
      show Uᴴ * R * B * (Rᴴ * U) = Uᴴ * (R * B * Rᴴ) * U by simp only [Matrix.mul_assoc], hsp,
      show Uᴴ * (U * diagonal (fun j => (l j : 𝕜)) * Uᴴ) * U =
        (Uᴴ * U) * diagonal (fun j => (l j : 𝕜)) * (Uᴴ * U) by simp only [Matrix.mul_assoc],
      hUU, Matrix.one_mul, Matrix.mul_one]

theorem qf_diagonal (l : Fin p → ℝ) (hl : ∀ j, 0 < l j) (y : Fin p → 𝕜) :
    qf (diagonal fun j => (l j : 𝕜)) y = ∑ j, ‖y j‖ ^ 2 / l j := by
  have hinv : (diagonal fun j => (l j : 𝕜))⁻¹ = diagonal fun j => ((l j)⁻¹ : 𝕜) := by
    apply Matrix.inv_eq_right_inv
    rw [diagonal_mul_diagonal, ← diagonal_one]
    congr 1
    funext j
    apply mul_inv_cancel₀
    rw [Ne, RCLike.ofReal_eq_zero]
    exact (hl j).ne'
  unfold qf
  rw [hinv]
  simp only [dotProduct, mulVec_diagonal, map_sum]
  apply Finset.sum_congr rfl
  intro j _
  rw [Pi.star_apply, RCLike.star_def, mul_left_comm, RCLike.conj_mul, ← RCLike.ofReal_inv,
    ← RCLike.ofReal_pow, ← RCLike.ofReal_mul, RCLike.ofReal_re, div_eq_inv_mul]

theorem qf_one (y : Fin p → 𝕜) : qf (1 : Matrix (Fin p) (Fin p) 𝕜) y = ∑ j, ‖y j‖ ^ 2 := by
  have := qf_diagonal (𝕜 := 𝕜) (fun _ : Fin p => (1 : ℝ)) (fun _ => one_pos) y
  simpa using this

theorem det_congr_re {G A D : Matrix (Fin p) (Fin p) 𝕜} (hG : IsUnit G) (hA : A.PosDef)
    (hD : D.PosDef) (h : G * A * Gᴴ = D) :
    Real.log (RCLike.re D.det) = Real.log (RCLike.re A.det) + 2 * Real.log ‖G.det‖ := by
  have hg : G.det ≠ 0 := ((Matrix.isUnit_iff_isUnit_det G).1 hG).ne_zero
  have hg' : ‖G.det‖ ≠ 0 := norm_ne_zero_iff.2 hg
  have h1 : D.det = ((‖G.det‖ ^ 2 : ℝ) : 𝕜) * A.det := by
    rw [← h, det_mul, det_mul, det_conjTranspose, RCLike.star_def, mul_right_comm, RCLike.mul_conj]
    push_cast
    ring
  rw [h1, RCLike.re_ofReal_mul, Real.log_mul (pow_ne_zero 2 hg') (posDef_det_pos hA).1.ne',
    Real.log_pow]
  push_cast
  ring

theorem det_diagonal_re (l : Fin p → ℝ) :
    RCLike.re (diagonal fun j => (l j : 𝕜)).det = ∏ j, l j := by
  rw [det_diagonal, ← map_prod (algebraMap ℝ 𝕜)]
  exact RCLike.ofReal_re _

/-- `log det B - log det A` in the common basis. -/
theorem log_det_diff {A B G : Matrix (Fin p) (Fin p) 𝕜} {l : Fin p → ℝ} (hA : A.PosDef)
    (hB : B.PosDef) (hG : IsUnit G) (hl : ∀ j, 0 < l j) (h1 : G * A * Gᴴ = 1)
    (h2 : G * B * Gᴴ = diagonal (fun j => (l j : 𝕜))) :
    Real.log (RCLike.re B.det) = Real.log (RCLike.re A.det) + ∑ j, Real.log (l j) := by
  have hD : (diagonal (fun j => (l j : 𝕜))).PosDef := by
    rw [← h2]
    exact hB.mul_mul_conjTranspose_same (Matrix.vecMul_injective_of_isUnit hG)
  have e1 := det_congr_re hG hA PosDef.one h1
  have e2 := det_congr_re hG hB hD h2
  rw [det_diagonal_re, Real.log_prod (fun j _ => (hl j).ne')] at e2
  rw [det_one, RCLike.one_re, Real.log_one] at e1
  linarith

theorem trace_inv_mul {A B G : Matrix (Fin p) (Fin p) 𝕜} {l : Fin p → ℝ}
    (hG : IsUnit G) (h1 : G * A * Gᴴ = 1)
    (h2 : G * B * Gᴴ = diagonal (fun j => (l j : 𝕜))) :
    (A⁻¹ * B).trace = ((∑ j, l j : ℝ) : 𝕜) := by
  have hinv : A⁻¹ = Gᴴ * G := by
    apply Matrix.inv_eq_left_inv
    have h3 : Gᴴ * (G * A) = 1 := mul_eq_one_comm.1 h1
    rw [Matrix.mul_assoc, h3]
  rw [hinv, Matrix.mul_assoc, trace_mul_comm, h2, trace_diagonal]
  push_cast
  rfl

/-- `log det B - log det A <= tr(A^{-1} B) - p`. -/
theorem log_det_le (A B : Matrix (Fin p) (Fin p) 𝕜) (hA : A.PosDef) (hB : B.PosDef) :
    Real.log (RCLike.re B.det) ≤
      Real.log (RCLike.re A.det) + (RCLike.re (A⁻¹ * B).trace - p) := by
  obtain ⟨G, l, hG, hl, h1, h2⟩ := simultaneous A B hA hB
  rw [log_det_diff hA hB hG hl h1 h2, trace_inv_mul hG h1 h2, RCLike.ofReal_re]
  have : ∑ j, Real.log (l j) ≤ ∑ j, (l j - 1) :=
    Finset.sum_le_sum fun j _ => Real.log_le_sub_one_of_pos (hl j)
  rw [Finset.sum_sub_distrib] at this
  simp only [Finset.sum_const, Finset.card_univ, Fintype.card_fin, nsmul_eq_mul, mul_one] at this
  linarith

/-- `sum_i w_i x_i^H S^{-1} x_i = N tr(S^{-1} scatter)`. -/
theorem sum_weights_qf (w : Fin N → ℝ) (X : Matrix (Fin N) (Fin p) 𝕜)
    (S : Matrix (Fin p) (Fin p) 𝕜) :
    ∑ i, w i * qf S (sample X i) = N * RCLike.re (S⁻¹ * scatter w X).trace := by
  have h1 : (S⁻¹ * scatter w X).trace =
      (N : 𝕜)⁻¹ * ∑ i, (w i : 𝕜) * (star (sample X i) ⬝ᵥ (S⁻¹ *ᵥ sample X i)) := by
    unfold scatter
    rw [Matrix.mul_smul, trace_smul, Matrix.mul_sum, trace_sum, smul_eq_mul]
    congr 1
    apply Finset.sum_congr rfl
    intro i _
    rw [Matrix.mul_smul, trace_smul, mul_vecMulVec, trace_vecMulVec, smul_eq_mul, dotProduct_comm]
  rw [h1, show ((N : 𝕜)⁻¹) = (((N : ℝ)⁻¹ : ℝ) : 𝕜) by simp, RCLike.re_ofReal_mul, map_sum]
  simp only [RCLike.re_ofReal_mul]
  rcases Nat.eq_zero_or_pos N with h | h
  · subst h; simp
  · have : (N : ℝ) ≠ 0 := by exact_mod_cast h.ne'
    rw [← mul_assoc, mul_inv_cancel₀ this, one_mul]
    rfl

/-- Majorisation-minimisation: if `w` is the slope of `rho` in the sense of the tangent
inequality, one M-estimation step does not increase the cost. -/
theorem mm_step (rho w : ℝ → ℝ) (X : Matrix (Fin N) (Fin p) 𝕜) (S : Matrix (Fin p) (Fin p) 𝕜)
    (hS : S.PosDef) (hS' : (mStep w X S).PosDef)
    (ht : ∀ i, rho (qf (mStep w X S) (sample X i)) ≤ rho (qf S (sample X i)) +
      w (qf S (sample X i)) * (qf (mStep w X S) (sample X i) - qf S (sample X i))) :
    ∑ i, rho (qf (mStep w X S) (sample X i)) + N * Real.log (RCLike.re (mStep w X S).det) ≤
      ∑ i, rho (qf S (sample X i)) + N * Real.log (RCLike.re S.det) := by
  have h1 := Finset.sum_le_sum fun i (_ : i ∈ Finset.univ) => ht i
  rw [Finset.sum_add_distrib] at h1
  have h2 := log_det_le S (mStep w X S) hS hS'
  have h3 := sum_weights_qf (fun i => w (qf S (sample X i))) X S
  have h4 := sum_weights_qf (fun i => w (qf S (sample X i))) X (mStep w X S)
  have h5 : (mStep w X S)⁻¹ * scatter (fun i => w (qf S (sample X i))) X = 1 :=
    Matrix.nonsing_inv_mul _ ((Matrix.isUnit_iff_isUnit_det _).1 hS'.isUnit)
  rw [h5, trace_one, Fintype.card_fin] at h4
  have h6 : ∑ i, w (qf S (sample X i)) * (qf (mStep w X S) (sample X i) - qf S (sample X i)) =
      N * p - N * RCLike.re (S⁻¹ * mStep w X S).trace := by
    simp only [mul_sub, Finset.sum_sub_distrib]
    rw [h3, h4]
    simp [mStep]
  rw [h6] at h1
  have hN : (0 : ℝ) ≤ N := Nat.cast_nonneg N
  nlinarith [mul_le_mul_of_nonneg_left h2 hN]

theorem log_tangent {a b : ℝ} (ha : 0 < a) (hb : 0 < b) :
    Real.log b ≤ Real.log a + (b - a) / a := by
  have := Real.log_le_sub_one_of_pos (div_pos hb ha)
  rw [Real.log_div hb.ne' ha.ne'] at this
  have h2 : b / a - 1 = (b - a) / a := by field_simp
  linarith

/-- Jensen's inequality in the form used for global optimality. -/
theorem jensen_log {nu : ℝ} (hnu : 0 ≤ nu) (t l : Fin p → ℝ) (ht : ∀ j, 0 ≤ t j)
    (hl : ∀ j, 0 < l j) (hpos : 0 < nu + ∑ j, t j) :
    Real.log (nu + ∑ j, t j) - (∑ j, t j * Real.log (l j)) / (nu + ∑ j, t j) ≤
      Real.log (nu + ∑ j, t j / l j) := by
  set T := nu + ∑ j, t j with hT
  have hpos2 : 0 < nu + ∑ j, t j / l j := by
    rcases eq_or_lt_of_le hnu with h0 | h0
    · have h1 : 0 < ∑ j, t j := by rw [hT, ← h0] at hpos; simpa using hpos
      obtain ⟨j, _, hj⟩ := Finset.exists_lt_of_sum_lt (s := Finset.univ) (f := fun _ : Fin p => (0 : ℝ))
        (g := t) (by simpa using h1)
      have : 0 < ∑ j, t j / l j := Finset.sum_pos' (fun j _ => div_nonneg (ht j) (hl j).le)
        ⟨j, Finset.mem_univ j, div_pos hj (hl j)⟩
      linarith
    · have : 0 ≤ ∑ j, t j / l j := Finset.sum_nonneg fun j _ => div_nonneg (ht j) (hl j).le
      linarith
  -- tangent of the logarithm at each point, weighted
  set Z := nu + ∑ j, t j / l j with hZ
  have key : ∀ u : ℝ, 0 < u → Real.log u ≤ Real.log (Z / T) + u * (T / Z) - 1 := by
    intro u hu
    have := log_tangent (div_pos hpos2 hpos) hu
    have e : (u - Z / T) / (Z / T) = u * (T / Z) - 1 := by
      field_simp
    linarith
  have h1 : ∑ j, t j * Real.log (1 / l j) ≤
      ∑ j, t j * (Real.log (Z / T) + (1 / l j) * (T / Z) - 1) :=
    Finset.sum_le_sum fun j _ => mul_le_mul_of_nonneg_left (key _ (by have := hl j; positivity)) (ht j)
  have h0 : nu * Real.log 1 ≤ nu * (Real.log (Z / T) + 1 * (T / Z) - 1) :=
    mul_le_mul_of_nonneg_left (key 1 one_pos) hnu
  have h2 : ∑ j, t j * (Real.log (Z / T) + (1 / l j) * (T / Z) - 1) =
      (∑ j, t j) * Real.log (Z / T) + (∑ j, t j / l j) * (T / Z) - ∑ j, t j := by
    rw [Finset.sum_mul, Finset.sum_mul, ← Finset.sum_add_distrib, ← Finset.sum_sub_distrib]
    apply Finset.sum_congr rfl
    intro j _
    ring
  have h3 : ∑ j, t j * Real.log (1 / l j) = -∑ j, t j * Real.log (l j) := by
    rw [← Finset.sum_neg_distrib]
    apply Finset.sum_congr rfl
    intro j _
    rw [one_div, Real.log_inv]
    ring
  rw [h3, h2] at h1
  rw [Real.log_one] at h0
  have h4 : Real.log (Z / T) = Real.log Z - Real.log T := Real.log_div hpos2.ne' hpos.ne'
  have h5 : -(∑ j, t j * Real.log (l j)) ≤ T * Real.log (Z / T) + Z * (T / Z) - T := by
    have e1 : T * Real.log (Z / T) = nu * Real.log (Z / T) + (∑ j, t j) * Real.log (Z / T) := by
      rw [hT]; ring
    have e2 : Z * (T / Z) = nu * (T / Z) + (∑ j, t j / l j) * (T / Z) := by rw [hZ]; ring
    rw [e1, e2]
    linarith
  have h6 : Z * (T / Z) = T := by field_simp
  rw [h6, h4] at h5
  have h7 : (∑ j, t j * Real.log (l j)) / T ≥ -(Real.log Z - Real.log T) := by
    rw [ge_iff_le, le_div_iff₀ hpos]
    linarith
  linarith

/-- A fixed point of the iteration with weight `(nu+p)/(nu+t)` minimises the cost over all
positive definite matrices (`nu = 0` is Tyler's case). -/
theorem fixed_point_minimises {nu : ℝ} (hnu : 0 ≤ nu) (X : Matrix (Fin N) (Fin p) 𝕜)
    (S S' : Matrix (Fin p) (Fin p) 𝕜) (hS : S.PosDef) (hS' : S'.PosDef)
    (hpos : ∀ i, 0 < nu + qf S (sample X i))
    (hfix : mStep (wStudent nu p) X S = S) : studentCost nu X S ≤ studentCost nu X S' := by
  obtain ⟨G, l, hG, hl, h1, h2⟩ := simultaneous S S' hS hS'
  set y : Fin N → Fin p → 𝕜 := fun i => G *ᵥ sample X i with hy
  have hq : ∀ i, qf S (sample X i) = ∑ j, ‖y i j‖ ^ 2 := fun i => by
    rw [← qf_congr G hG S (sample X i), h1, qf_one]
  have hq' : ∀ i, qf S' (sample X i) = ∑ j, ‖y i j‖ ^ 2 / l j := fun i => by
    rw [← qf_congr G hG S' (sample X i), h2, qf_diagonal l hl]
  have hdet := log_det_diff hS hS' hG hl h1 h2
  -- the fixed-point equation in the common basis
  have hdiag : ∀ j, ∑ i, wStudent nu p (qf S (sample X i)) * ‖y i j‖ ^ 2 = N := by
    intro j
    have e1 : G * mStep (wStudent nu p) X S * Gᴴ = 1 := by rw [hfix, h1]
    have e2 : G * mStep (wStudent nu p) X S * Gᴴ =
        scatter (fun i => wStudent nu p (qf S (sample X i))) (X * Gᵀ) := by
      rw [scatter_mul]; rfl
    rw [e2] at e1
    have e3 := congrFun (congrFun e1 j) j
    rw [scatter_apply, Matrix.one_apply_eq] at e3
    have e4 : ∀ i, (X * Gᵀ) i j = y i j := fun i => congrFun (sample_mul X G i) j
    simp only [e4, RCLike.star_def, RCLike.mul_conj] at e3
    have e5 : ((((N : ℝ)⁻¹ * ∑ i, wStudent nu p (qf S (sample X i)) * ‖y i j‖ ^ 2 : ℝ)) : 𝕜) = 1 := by
      push_cast
      exact e3
    have e6 : (N : ℝ)⁻¹ * ∑ i, wStudent nu p (qf S (sample X i)) * ‖y i j‖ ^ 2 = 1 := by
      exact_mod_cast e5
    have hN : (N : ℝ) ≠ 0 := by
      intro h0
      rw [h0] at e6
      simp at e6
    field_simp at e6
    linarith
  unfold studentCost
  rw [hdet]
  have hJ : ∀ i, Real.log (nu + qf S (sample X i)) -
      (∑ j, ‖y i j‖ ^ 2 * Real.log (l j)) / (nu + qf S (sample X i)) ≤
      Real.log (nu + qf S' (sample X i)) := fun i => by
    have hp' := hpos i
    rw [hq] at hp'
    rw [hq, hq']
    exact jensen_log hnu _ l (fun j => sq_nonneg _) hl hp'
  have hsum := Finset.sum_le_sum fun i (_ : i ∈ Finset.univ) => hJ i
  rw [Finset.sum_sub_distrib] at hsum
  have hnp : 0 ≤ nu + p := by positivity
  have hswap : (nu + p) * ∑ i, (∑ j, ‖y i j‖ ^ 2 * Real.log (l j)) / (nu + qf S (sample X i)) =
      N * ∑ j, Real.log (l j) := by
    rw [Finset.mul_sum, Finset.mul_sum]
    have : ∀ i, (nu + p) * ((∑ j, ‖y i j‖ ^ 2 * Real.log (l j)) / (nu + qf S (sample X i))) =
        ∑ j, wStudent nu p (qf S (sample X i)) * ‖y i j‖ ^ 2 * Real.log (l j) := by
      intro i
      rw [Finset.sum_div, Finset.mul_sum]
      apply Finset.sum_congr rfl
      intro j _
      unfold wStudent
      ring
    simp only [this]
    rw [Finset.sum_comm]
    apply Finset.sum_congr rfl
    intro j _
    rw [← Finset.sum_mul, hdiag j]
  have := mul_le_mul_of_nonneg_left hsum hnp
  rw [mul_sub, hswap] at this
  linarith

end
end RS
