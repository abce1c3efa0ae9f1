import Verif.Lemmas.Cost
import Verif.Spec.Optimality
import Verif.Props.CovRun

/-! The equality case of the optimality argument: uniqueness of fixed points. -/
set_option autoImplicit false

namespace RS
open Matrix ComplexOrder

section
variable {𝕜 : Type} [RCLike 𝕜] {N p : ℕ}

theorem log_eq_sub_one {x : ℝ} (hx : 0 < x) (h : Real.log x = x - 1) : x = 1 := by
  by_contra hne
  have := Real.log_lt_sub_one_of_pos hx hne
  linarith

/-- Equality in `jensen_log`. -/
theorem jensen_log_eq {nu : ℝ} (hnu : 0 ≤ nu) (t l : Fin p → ℝ) (ht : ∀ j, 0 ≤ t j)
    (hl : ∀ j, 0 < l j) (hpos : 0 < nu + ∑ j, t j)
    (heq : Real.log (nu + ∑ j, t j / l j) ≤
      Real.log (nu + ∑ j, t j) - (∑ j, t j * Real.log (l j)) / (nu + ∑ j, t j)) :
    ∃ r : ℝ, 0 < r ∧ (∀ j, 0 < t j → l j = r) ∧ (0 < nu → r = 1) := by
  set T := nu + ∑ j, t j with hT
  have hpos2 : 0 < nu + ∑ j, t j / l j := by
    rcases eq_or_lt_of_le hnu with h0 | h0
    · have h1 : 0 < ∑ j, t j := by rw [hT, ← h0] at hpos; simpa using hpos
      obtain ⟨j, _, hj⟩ := Finset.exists_lt_of_sum_lt (s := Finset.univ) (f := fun _ : Fin p => (0 : ℝ))
        (g := t) (by simpa using h1)
      have : 0 < ∑ j, t j / l j := Finset.sum_pos' (fun j _ => div_nonneg (ht j) (hl j).le)
        ⟨j, Finset.mem_univ j, div_pos hj (hl j)⟩
      linarith
    · have : 0 ≤ ∑ j, t j / l j := Finset.sum_nonneg fun j _ => div_nonneg (ht j) (hl j).le
      linarith
  set Z := nu + ∑ j, t j / l j with hZ
  -- slack of the tangent inequality
  let sl : ℝ → ℝ := fun u => u * (T / Z) - 1 - Real.log (u * (T / Z))
  have hTZ : 0 < T / Z := div_pos hpos hpos2
  have sl_nonneg : ∀ u, 0 < u → 0 ≤ sl u := fun u hu => by
    have := Real.log_le_sub_one_of_pos (mul_pos hu hTZ)
    simp only [sl]; linarith
  have sl_zero : ∀ u, 0 < u → sl u = 0 → u * (T / Z) = 1 := fun u hu h => by
    apply log_eq_sub_one (mul_pos hu hTZ)
    simp only [sl] at h
    linarith
  have hlog : ∀ u, 0 < u → sl u = u * (T / Z) - 1 - Real.log u - Real.log (T / Z) := fun u hu => by
    simp only [sl]
    rw [Real.log_mul hu.ne' hTZ.ne']
    ring
  have hu : ∀ j, 0 < 1 / l j := fun j => by have := hl j; positivity
  have hsum : nu * sl 1 + ∑ j, t j * sl (1 / l j) =
      Z * (T / Z) - T + (∑ j, t j * Real.log (l j)) - T * Real.log (T / Z) := by
    rw [hlog 1 one_pos, Real.log_one]
    have : ∑ j, t j * sl (1 / l j) = (∑ j, t j / l j) * (T / Z) - (∑ j, t j) +
        (∑ j, t j * Real.log (l j)) - (∑ j, t j) * Real.log (T / Z) := by
      rw [Finset.sum_mul, Finset.sum_mul, ← Finset.sum_sub_distrib, ← Finset.sum_add_distrib,
        ← Finset.sum_sub_distrib]
      apply Finset.sum_congr rfl
      intro j _
      rw [hlog _ (hu j), one_div, Real.log_inv]
      ring
    rw [this, hZ, hT]
    ring
  have h6 : Z * (T / Z) = T := by field_simp
  have hle : nu * sl 1 + ∑ j, t j * sl (1 / l j) ≤ 0 := by
    rw [hsum, h6, Real.log_div hpos.ne' hpos2.ne']
    have := mul_le_mul_of_nonneg_left heq hpos.le
    rw [mul_sub, mul_div_cancel₀ _ hpos.ne'] at this
    linarith
  have h1 : 0 ≤ nu * sl 1 := mul_nonneg hnu (sl_nonneg 1 one_pos)
  have h2 : ∀ j, 0 ≤ t j * sl (1 / l j) := fun j => mul_nonneg (ht j) (sl_nonneg _ (hu j))
  have h3 : 0 ≤ ∑ j, t j * sl (1 / l j) := Finset.sum_nonneg fun j _ => h2 j
  have h4 : nu * sl 1 = 0 := by linarith
  have h5 : ∑ j, t j * sl (1 / l j) = 0 := by linarith
  have h7 := (Finset.sum_eq_zero_iff_of_nonneg fun j _ => h2 j).1 h5
  refine ⟨T / Z, hTZ, fun j hj => ?_, fun hn => ?_⟩
  · have := h7 j (Finset.mem_univ j)
    have h8 := sl_zero _ (hu j) ((mul_eq_zero.1 this).resolve_left hj.ne')
    have := (hl j).ne'
    field_simp at h8
    field_simp
    linarith
  · have h8 := sl_zero 1 one_pos ((mul_eq_zero.1 h4).resolve_left hn.ne')
    linarith

/-- In the basis that diagonalises a fixed point `S` and a matrix `S'` that is not worse, each
sample lives in one eigenspace. -/
theorem fixed_point_equality {nu : ℝ} (hnu : 0 ≤ nu) (hp : 0 < p) (X : Matrix (Fin N) (Fin p) 𝕜)
    (S S' : Matrix (Fin p) (Fin p) 𝕜) (hS : S.PosDef) (hS' : S'.PosDef)
    (hpos : ∀ i, 0 < nu + qf S (sample X i))
    (hfix : mStep (wStudent nu p) X S = S) (hle : studentCost nu X S' ≤ studentCost nu X S) :
    ∃ (G : Matrix (Fin p) (Fin p) 𝕜) (l : Fin p → ℝ), IsUnit G ∧ (∀ j, 0 < l j) ∧
      G * S * Gᴴ = 1 ∧ G * S' * Gᴴ = diagonal (fun j => (l j : 𝕜)) ∧
      (∀ i, ∃ r : ℝ, (∀ j, (G *ᵥ sample X i) j ≠ 0 → l j = r) ∧ (0 < nu → r = 1)) ∧
      ∀ j, ∃ i, (G *ᵥ sample X i) j ≠ 0 := by
  obtain ⟨G, l, hG, hl, h1, h2⟩ := simultaneous S S' hS hS'
  refine ⟨G, l, hG, hl, h1, h2, ?_⟩
  set y : Fin N → Fin p → 𝕜 := fun i => G *ᵥ sample X i with hy
  have hq : ∀ i, qf S (sample X i) = ∑ j, ‖y i j‖ ^ 2 := fun i => by
    rw [← qf_congr G hG S (sample X i), h1, qf_one]
  have hq' : ∀ i, qf S' (sample X i) = ∑ j, ‖y i j‖ ^ 2 / l j := fun i => by
    rw [← qf_congr G hG S' (sample X i), h2, qf_diagonal l hl]
  have hdet := log_det_diff hS hS' hG hl h1 h2
  have hdiag' : ∀ j, (N : ℝ)⁻¹ * ∑ i, wStudent nu p (qf S (sample X i)) * ‖y i j‖ ^ 2 = 1 := by
    intro j
    have e1 : G * mStep (wStudent nu p) X S * Gᴴ = 1 := by rw [hfix, h1]
    have e2 : G * mStep (wStudent nu p) X S * Gᴴ =
        scatter (fun i => wStudent nu p (qf S (sample X i))) (X * Gᵀ) := by
      rw [scatter_mul]; rfl
    rw [e2] at e1
    have e3 := congrFun (congrFun e1 j) j
    rw [scatter_apply, Matrix.one_apply_eq] at e3
    have e4 : ∀ i, (X * Gᵀ) i j = y i j := fun i => congrFun (sample_mul X G i) j
    simp only [e4, RCLike.star_def, RCLike.mul_conj] at e3
    have e5 : ((((N : ℝ)⁻¹ * ∑ i, wStudent nu p (qf S (sample X i)) * ‖y i j‖ ^ 2 : ℝ)) : 𝕜) = 1 := by
      push_cast
      exact e3
    exact_mod_cast e5
  have hN : (N : ℝ) ≠ 0 := by
    intro h0
    have := hdiag' ⟨0, hp⟩
    rw [h0] at this
    simp at this
  have hdiag : ∀ j, ∑ i, wStudent nu p (qf S (sample X i)) * ‖y i j‖ ^ 2 = N := by
    intro j
    have := hdiag' j
    field_simp at this
    linarith
  have hJ : ∀ i, Real.log (nu + qf S (sample X i)) -
      (∑ j, ‖y i j‖ ^ 2 * Real.log (l j)) / (nu + qf S (sample X i)) ≤
      Real.log (nu + qf S' (sample X i)) := fun i => by
    have hp' := hpos i
    rw [hq] at hp'
    rw [hq, hq']
    exact jensen_log hnu _ l (fun j => sq_nonneg _) hl hp'
  have hnp : 0 < nu + p := by
    have : (0 : ℝ) < p := by exact_mod_cast hp
    linarith
  have hswap : (nu + p) * ∑ i, (∑ j, ‖y i j‖ ^ 2 * Real.log (l j)) / (nu + qf S (sample X i)) =
      N * ∑ j, Real.log (l j) := by
    rw [Finset.mul_sum, Finset.mul_sum]
    have : ∀ i, (nu + p) * ((∑ j, ‖y i j‖ ^ 2 * Real.log (l j)) / (nu + qf S (sample X i))) =
        ∑ j, wStudent nu p (qf S (sample X i)) * ‖y i j‖ ^ 2 * Real.log (l j) := by
      intro i
      rw [Finset.sum_div, Finset.mul_sum]
      apply Finset.sum_congr rfl
      intro j _
      unfold wStudent
      ring
    simp only [this]
    rw [Finset.sum_comm]
    apply Finset.sum_congr rfl
    intro j _
    rw [← Finset.sum_mul, hdiag j]
  have htot : ∑ i, (Real.log (nu + qf S' (sample X i)) - (Real.log (nu + qf S (sample X i)) -
      (∑ j, ‖y i j‖ ^ 2 * Real.log (l j)) / (nu + qf S (sample X i)))) ≤ 0 := by
    unfold studentCost at hle
    rw [hdet] at hle
    have e : (nu + p) * ∑ i, (Real.log (nu + qf S' (sample X i)) - (Real.log (nu + qf S (sample X i)) -
      (∑ j, ‖y i j‖ ^ 2 * Real.log (l j)) / (nu + qf S (sample X i)))) ≤ 0 := by
      simp only [Finset.sum_sub_distrib, mul_sub]
      rw [hswap]
      linarith
    by_contra hcon
    push Not at hcon
    have := mul_pos hnp hcon
    linarith
  have hnn : ∀ i ∈ Finset.univ, 0 ≤ Real.log (nu + qf S' (sample X i)) -
      (Real.log (nu + qf S (sample X i)) -
      (∑ j, ‖y i j‖ ^ 2 * Real.log (l j)) / (nu + qf S (sample X i))) :=
    fun i _ => by linarith [hJ i]
  have heq := (Finset.sum_eq_zero_iff_of_nonneg hnn).1 (le_antisymm htot (Finset.sum_nonneg hnn))
  constructor
  · intro i
    have h3 := heq i (Finset.mem_univ i)
    have hp' := hpos i
    rw [hq] at hp'
    rw [hq, hq'] at h3
    obtain ⟨r, hr, hr1, hr2⟩ := jensen_log_eq hnu (fun j => ‖y i j‖ ^ 2) l (fun j => sq_nonneg _) hl hp'
      (by linarith)
    refine ⟨r, fun j hj => hr1 j ?_, hr2⟩
    have := norm_pos_iff.2 hj
    positivity
  · intro j
    by_contra hcon
    push Not at hcon
    have h3 := hdiag j
    rw [Finset.sum_eq_zero] at h3
    · exact hN h3.symm
    · intro i _
      rw [show y i j = 0 from hcon i]
      simp

theorem congr_injective {G A B : Matrix (Fin p) (Fin p) 𝕜} (hG : IsUnit G)
    (h : G * A * Gᴴ = G * B * Gᴴ) : A = B := by
  have hGd : IsUnit G.det := (Matrix.isUnit_iff_isUnit_det G).1 hG
  have hGd' : IsUnit Gᴴ.det := by rw [det_conjTranspose]; exact hGd.star
  have h1 : G⁻¹ * (G * A * Gᴴ) * (Gᴴ)⁻¹ = A := by
    rw [show G⁻¹ * (G * A * Gᴴ) * (Gᴴ)⁻¹ = (G⁻¹ * G) * A * (Gᴴ * (Gᴴ)⁻¹) by
      simp only [Matrix.mul_assoc], Matrix.nonsing_inv_mul G hGd, Matrix.mul_nonsing_inv _ hGd',
      Matrix.one_mul, Matrix.mul_one]
  have h2 : G⁻¹ * (G * B * Gᴴ) * (Gᴴ)⁻¹ = B := by
    rw [show G⁻¹ * (G * B * Gᴴ) * (Gᴴ)⁻¹ = (G⁻¹ * G) * B * (Gᴴ * (Gᴴ)⁻¹) by
      simp only [Matrix.mul_assoc], Matrix.nonsing_inv_mul G hGd, Matrix.mul_nonsing_inv _ hGd',
      Matrix.one_mul, Matrix.mul_one]
  rw [← h1, h, h2]

/-- Student: a matrix that is not worse than a fixed point is the fixed point. -/
theorem student_unique {nu : ℝ} (hnu : 0 < nu) (hp : 0 < p) (X : Matrix (Fin N) (Fin p) 𝕜)
    (S S' : Matrix (Fin p) (Fin p) 𝕜) (hS : S.PosDef) (hS' : S'.PosDef)
    (hfix : mStep (wStudent nu p) X S = S) (hle : studentCost nu X S' ≤ studentCost nu X S) :
    S' = S := by
  obtain ⟨G, l, hG, hl, h1, h2, h3, h4⟩ := fixed_point_equality hnu.le hp X S S' hS hS'
    (fun i => by linarith [qf_nonneg hS (sample X i)]) hfix hle
  apply congr_injective hG
  rw [h1, h2, ← diagonal_one]
  congr 1
  funext j
  obtain ⟨i, hi⟩ := h4 j
  obtain ⟨r, hr1, hr2⟩ := h3 i
  rw [hr1 j hi, hr2 hnu, RCLike.ofReal_one]

theorem wTyler_eq (p : ℕ) : wTyler p = wStudent 0 p := by
  funext t; simp [wTyler, wStudent]

theorem tylerCost_eq (X : Matrix (Fin N) (Fin p) 𝕜) (S : Matrix (Fin p) (Fin p) 𝕜) :
    tylerCost X S = studentCost 0 X S := by
  simp [tylerCost, studentCost]

theorem qf_smul {S : Matrix (Fin p) (Fin p) 𝕜} (hS : S.PosDef) {c : ℝ} (hc : 0 < c)
    (x : Fin p → 𝕜) : qf ((c : 𝕜) • S) x = qf S x / c := by
  have hc0 : (c : 𝕜) ≠ 0 := by rw [Ne, RCLike.ofReal_eq_zero]; exact hc.ne'
  have hu : IsUnit S.det := (Matrix.isUnit_iff_isUnit_det S).1 hS.isUnit
  have hinv : ((c : 𝕜) • S)⁻¹ = ((c⁻¹ : ℝ) : 𝕜) • S⁻¹ := by
    apply Matrix.inv_eq_right_inv
    rw [Matrix.smul_mul, Matrix.mul_smul, smul_smul, Matrix.mul_nonsing_inv S hu,
      RCLike.ofReal_inv, mul_inv_cancel₀ hc0, one_smul]
  unfold qf
  rw [hinv, Matrix.smul_mulVec, dotProduct_smul, smul_eq_mul, RCLike.re_ofReal_mul]
  ring

/-- Tyler: a matrix that is not worse than a fixed point is a multiple of it, on data that
cannot be split. -/
theorem tyler_unique (hp : 0 < p) (X : Matrix (Fin N) (Fin p) 𝕜) (hn : NonzeroSamples X)
    (hX : Indecomposable X)
    (S S' : Matrix (Fin p) (Fin p) 𝕜) (hS : S.PosDef) (hS' : S'.PosDef)
    (hfix : mStep (wTyler p) X S = S) (hle : tylerCost X S' ≤ tylerCost X S) :
    ∃ c : ℝ, 0 < c ∧ S' = (c : 𝕜) • S := by
  rw [wTyler_eq] at hfix
  rw [tylerCost_eq, tylerCost_eq] at hle
  obtain ⟨G, l, hG, hl, h1, h2, h3, h4⟩ := fixed_point_equality le_rfl hp X S S' hS hS'
    (fun i => by linarith [qf_pos hS (hn i)]) hfix hle
  have hGd : IsUnit G.det := (Matrix.isUnit_iff_isUnit_det G).1 hG
  let j0 : Fin p := ⟨0, hp⟩
  let D : Matrix (Fin p) (Fin p) 𝕜 := diagonal fun j => if l j = l j0 then 1 else 0
  have hDD : D * D = D := by
    simp only [D, diagonal_mul_diagonal]
    congr 1
    funext j
    split_ifs <;> simp
  have hP := hX (G⁻¹ * D * G) (by
    rw [show G⁻¹ * D * G * (G⁻¹ * D * G) = G⁻¹ * (D * (G * G⁻¹) * D) * G by
      simp only [Matrix.mul_assoc], Matrix.mul_nonsing_inv G hGd, Matrix.mul_one, hDD])
    (fun i => by
      obtain ⟨r, hr, _⟩ := h3 i
      have e : (G⁻¹ * D * G) *ᵥ sample X i = G⁻¹ *ᵥ (D *ᵥ (G *ᵥ sample X i)) := by
        simp only [mulVec_mulVec, Matrix.mul_assoc]
      rw [e]
      by_cases hrr : r = l j0
      · left
        have : D *ᵥ (G *ᵥ sample X i) = G *ᵥ sample X i := by
          funext j
          rw [mulVec_diagonal]
          by_cases hy : (G *ᵥ sample X i) j = 0
          · rw [hy, mul_zero]
          · rw [if_pos (by rw [hr j hy, hrr]), one_mul]
        rw [this, mulVec_mulVec, Matrix.nonsing_inv_mul G hGd, one_mulVec]
      · right
        have : D *ᵥ (G *ᵥ sample X i) = 0 := by
          funext j
          rw [mulVec_diagonal]
          by_cases hy : (G *ᵥ sample X i) j = 0
          · rw [hy, mul_zero]; rfl
          · rw [if_neg (by rw [hr j hy]; exact hrr), zero_mul]; rfl
        rw [this, mulVec_zero])
  have hback : ∀ c : Matrix (Fin p) (Fin p) 𝕜, G⁻¹ * D * G = c → D = G * c * G⁻¹ := by
    intro c hc
    rw [← hc, show G * (G⁻¹ * D * G) * G⁻¹ = (G * G⁻¹) * D * (G * G⁻¹) by
      simp only [Matrix.mul_assoc], Matrix.mul_nonsing_inv G hGd, Matrix.one_mul, Matrix.mul_one]
  have hl' : ∀ j, l j = l j0 := by
    rcases hP with hP | hP
    · have hD0 := hback _ hP
      rw [Matrix.mul_zero, Matrix.zero_mul] at hD0
      have := congrFun (congrFun hD0 j0) j0
      simp [D] at this
    · have hD1 := hback _ hP
      rw [Matrix.mul_one, Matrix.mul_nonsing_inv G hGd] at hD1
      intro j
      have := congrFun (congrFun hD1 j) j
      simp only [D, diagonal_apply_eq, Matrix.one_apply_eq] at this
      by_contra hne
      rw [if_neg hne] at this
      exact zero_ne_one this
  refine ⟨l j0, hl j0, congr_injective hG ?_⟩
  rw [h2, Matrix.mul_smul, Matrix.smul_mul, h1, ← diagonal_one, ← diagonal_smul]
  congr 1
  funext j
  simp [hl' j]

/-- If the data can be split, a fixed point is not unique up to scale. -/
theorem tyler_not_unique (X : Matrix (Fin N) (Fin p) 𝕜)
    (P : Matrix (Fin p) (Fin p) 𝕜) (hPP : P * P = P)
    (hPx : ∀ i, P *ᵥ sample X i = sample X i ∨ P *ᵥ sample X i = 0) (h0 : P ≠ 0) (h1 : P ≠ 1)
    (S : Matrix (Fin p) (Fin p) 𝕜) (hS : S.PosDef) (hfix : mStep (wTyler p) X S = S) :
    ∃ S' : Matrix (Fin p) (Fin p) 𝕜, S'.PosDef ∧ mStep (wTyler p) X S' = S' ∧
      ∀ c : ℝ, 0 < c → S' ≠ (c : 𝕜) • S := by
  set T : Matrix (Fin p) (Fin p) 𝕜 := 1 + P with hTdef
  have hTinv : T * (1 - (2⁻¹ : 𝕜) • P) = 1 := by
    rw [hTdef, Matrix.add_mul, Matrix.one_mul, Matrix.mul_sub, Matrix.mul_one, Matrix.mul_smul, hPP]
    have : P = (2⁻¹ : 𝕜) • P + (2⁻¹ : 𝕜) • P := by
      rw [← add_smul, show (2⁻¹ : 𝕜) + 2⁻¹ = 1 by norm_num, one_smul]
    nth_rw 2 [this]
    abel
  have hT : IsUnit T := IsUnit.of_mul_eq_one _ hTinv
  have hPD : (T * S * Tᴴ).PosDef :=
    hS.mul_mul_conjTranspose_same (Matrix.vecMul_injective_of_isUnit hT)
  have hd : ∃ d : Fin N → 𝕜, (∀ i, d i ≠ 0) ∧ X * Tᵀ = of fun i j => d i * X i j := by
    have : ∀ i, ∃ c : 𝕜, c ≠ 0 ∧ T *ᵥ sample X i = c • sample X i := fun i => by
      rcases hPx i with h | h
      · exact ⟨2, two_ne_zero, by rw [hTdef, Matrix.add_mulVec, one_mulVec, h, two_smul]⟩
      · exact ⟨1, one_ne_zero, by rw [hTdef, Matrix.add_mulVec, one_mulVec, h, add_zero, one_smul]⟩
    choose d hd0 hd1 using this
    refine ⟨d, hd0, ?_⟩
    ext i j
    have := congrFun (hd1 i) j
    rw [← sample_mul] at this
    exact this
  obtain ⟨d, hd0, hd1⟩ := hd
  refine ⟨T * S * Tᴴ, hPD, ?_, ?_⟩
  · rw [← mStep_tyler_scale X d hd0 (T * S * Tᴴ), ← hd1, mStep_equivariant _ X T hT, hfix]
  · intro c hc heq
    have hq : ∀ v : Fin p → 𝕜, qf S v = qf S (T *ᵥ v) / c := fun v => by
      rw [← qf_congr T hT S v, heq, qf_smul hS hc]
    -- a vector kept by P
    obtain ⟨v, hv⟩ : ∃ v : Fin p → 𝕜, P *ᵥ v ≠ 0 := by
      by_contra hcon
      push Not at hcon
      exact h0 (Matrix.ext_of_mulVec_single fun j => by rw [hcon, Matrix.zero_mulVec])
    obtain ⟨u, hu⟩ : ∃ u : Fin p → 𝕜, u - P *ᵥ u ≠ 0 := by
      by_contra hcon
      push Not at hcon
      exact h1 (Matrix.ext_of_mulVec_single fun j => by
        rw [one_mulVec]; exact (sub_eq_zero.1 (hcon _)).symm)
    have e1 := hq (P *ᵥ v)
    have e2 := hq (u - P *ᵥ u)
    have t1 : T *ᵥ (P *ᵥ v) = (2 : 𝕜) • (P *ᵥ v) := by
      rw [hTdef, Matrix.add_mulVec, one_mulVec, mulVec_mulVec, hPP, two_smul]
    have t2 : T *ᵥ (u - P *ᵥ u) = u - P *ᵥ u := by
      rw [hTdef, Matrix.add_mulVec, one_mulVec, Matrix.mulVec_sub, mulVec_mulVec, hPP, sub_self,
        add_zero]
    rw [t2] at e2
    have hu' := qf_pos hS hu
    have hv' := qf_pos hS hv
    have hc1 : c = 1 := by field_simp at e2; linarith
    have e3 : qf S ((2 : 𝕜) • (P *ᵥ v)) = 4 * qf S (P *ᵥ v) := by
      unfold qf
      rw [star_smul, mulVec_smul, smul_dotProduct, dotProduct_smul, smul_smul]
      have : (star (2 : 𝕜)) * 2 = ((4 : ℝ) : 𝕜) := by
        have h2 : (2 : 𝕜) = ((2 : ℝ) : 𝕜) := by push_cast; rfl
        rw [h2, RCLike.star_def, RCLike.conj_ofReal, ← RCLike.ofReal_mul]
        norm_num
      rw [this, smul_eq_mul, RCLike.re_ofReal_mul]
    rw [t1, e3, hc1] at e1
    linarith

/-! ### Strict decrease -/

theorem log_det_eq {A B : Matrix (Fin p) (Fin p) 𝕜} (hA : A.PosDef) (hB : B.PosDef)
    (h : Real.log (RCLike.re A.det) + (RCLike.re (A⁻¹ * B).trace - p) ≤
      Real.log (RCLike.re B.det)) : B = A := by
  obtain ⟨G, l, hG, hl, h1, h2⟩ := simultaneous A B hA hB
  rw [log_det_diff hA hB hG hl h1 h2, trace_inv_mul hG h1 h2, RCLike.ofReal_re] at h
  have hnn : ∀ j ∈ Finset.univ, 0 ≤ l j - 1 - Real.log (l j) := fun j _ => by
    linarith [Real.log_le_sub_one_of_pos (hl j)]
  have hs : ∑ j, (l j - 1 - Real.log (l j)) = 0 := by
    apply le_antisymm _ (Finset.sum_nonneg hnn)
    rw [Finset.sum_sub_distrib, Finset.sum_sub_distrib]
    simp only [Finset.sum_const, Finset.card_univ, Fintype.card_fin, nsmul_eq_mul, mul_one]
    linarith
  have hj := (Finset.sum_eq_zero_iff_of_nonneg hnn).1 hs
  apply congr_injective hG
  rw [h1, h2, ← diagonal_one]
  congr 1
  funext j
  rw [log_eq_sub_one (hl j) (by linarith [hj j (Finset.mem_univ j)]), RCLike.ofReal_one]

/-- A step that does not decrease the cost does not move. -/
theorem mm_step_eq (rho w : ℝ → ℝ) (X : Matrix (Fin N) (Fin p) 𝕜) (S : Matrix (Fin p) (Fin p) 𝕜)
    (hN : 0 < N) (hS : S.PosDef) (hS' : (mStep w X S).PosDef)
    (ht : ∀ i, rho (qf (mStep w X S) (sample X i)) ≤ rho (qf S (sample X i)) +
      w (qf S (sample X i)) * (qf (mStep w X S) (sample X i) - qf S (sample X i)))
    (hle : ∑ i, rho (qf S (sample X i)) + N * Real.log (RCLike.re S.det) ≤
      ∑ i, rho (qf (mStep w X S) (sample X i)) + N * Real.log (RCLike.re (mStep w X S).det)) :
    mStep w X S = S := by
  have h1 := Finset.sum_le_sum fun i (_ : i ∈ Finset.univ) => ht i
  rw [Finset.sum_add_distrib] at h1
  have h3 := sum_weights_qf (fun i => w (qf S (sample X i))) X S
  have h4 := sum_weights_qf (fun i => w (qf S (sample X i))) X (mStep w X S)
  have h5 : (mStep w X S)⁻¹ * scatter (fun i => w (qf S (sample X i))) X = 1 :=
    Matrix.nonsing_inv_mul _ ((Matrix.isUnit_iff_isUnit_det _).1 hS'.isUnit)
  rw [h5, trace_one, Fintype.card_fin] at h4
  have h6 : ∑ i, w (qf S (sample X i)) * (qf (mStep w X S) (sample X i) - qf S (sample X i)) =
      N * p - N * RCLike.re (S⁻¹ * mStep w X S).trace := by
    simp only [mul_sub, Finset.sum_sub_distrib]
    rw [h3, h4]
    simp [mStep]
  rw [h6] at h1
  have hN' : (0 : ℝ) < N := by exact_mod_cast hN
  apply log_det_eq hS hS'
  by_contra hcon
  push Not at hcon
  nlinarith [mul_lt_mul_of_pos_left hcon hN']

/-- The Student (and, for `nu = 0`, Tyler) step strictly decreases its cost unless it is at a
fixed point. -/
theorem student_step_eq {nu : ℝ} (hnu : 0 ≤ nu) (hN : 0 < N) (hp : 0 < p)
    (X : Matrix (Fin N) (Fin p) 𝕜) (hX : Spans X)
    (hpos : ∀ S : Matrix (Fin p) (Fin p) 𝕜, S.PosDef → ∀ i, 0 < nu + qf S (sample X i))
    (S : Matrix (Fin p) (Fin p) 𝕜) (hS : S.PosDef)
    (hle : studentCost nu X S ≤ studentCost nu X (mStep (wStudent nu p) X S)) :
    mStep (wStudent nu p) X S = S := by
  have hp' : (0 : ℝ) < p := by exact_mod_cast hp
  have hS' : (mStep (wStudent nu p) X S).PosDef :=
    mStep_posDef _ X hX S fun i => div_pos (by linarith) (hpos S hS i)
  refine mm_step_eq (fun t => (nu + p) * Real.log (nu + t)) _ X S hN hS hS' (fun i => ?_) ?_
  · have h1 := mul_le_mul_of_nonneg_left (log_tangent (hpos S hS i) (hpos _ hS' i))
      (show (0 : ℝ) ≤ nu + p by positivity)
    simp only [wStudent] at h1 ⊢
    calc _ ≤ _ := h1
      _ = _ := by ring
  · unfold studentCost at hle
    rw [Finset.mul_sum, Finset.mul_sum] at hle
    exact hle

end
end RS
