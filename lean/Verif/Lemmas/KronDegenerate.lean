import Verif.Lemmas.Structured
import Verif.Lemmas.LogDist

/-
The Kronecker MM algorithm on degenerate data.
-/
set_option autoImplicit false

namespace RS
open Matrix ComplexOrder

variable {𝕜 : Type} [RCLike 𝕜] {N a b : ℕ}

theorem SqrtmPSD.toPD {sq : Sqrtm 𝕜} (h : SqrtmPSD sq) : SqrtmPD sq := by
  intro n S hS
  obtain ⟨R, e, hR, hRR⟩ := h n S hS.posSemidef
  refine ⟨R, e, hR.posDef_iff_isUnit.2 ?_, hRR⟩
  have : IsUnit (R * R) := by rw [hRR]; exact hS.isUnit
  rw [isUnit_iff_isUnit_det] at this ⊢
  rw [det_mul] at this
  exact isUnit_of_mul_isUnit_left this

theorem SqrtmPSD.one {sq : Sqrtm 𝕜} (h : SqrtmPSD sq) (n : ℕ) : sq n 1 = .ok 1 := by
  obtain ⟨R, e, hR, hRR⟩ := h n 1 PosSemidef.one
  rw [e, psd_sqrt_unique hR PosSemidef.one hRR (by rw [one_mul])]

theorem pyInv_one (n : ℕ) : pyInv (1 : Matrix (Fin n) (Fin n) 𝕜) = .ok 1 := by
  rw [pyInv_posDef PosDef.one, inv_one]

theorem pyInv_singular {n : ℕ} {A : Matrix (Fin n) (Fin n) 𝕜} (h : A.det = 0) :
    pyInv A = .error .linAlgError := by
  unfold pyInv
  rw [if_neg (by rw [h]; simp)]

/-- The weights of a half-step are real and nonnegative. -/
theorem weighted_posSemidef {n : ℕ} (C : Fin N → Matrix (Fin n) (Fin n) 𝕜)
    (hC : ∀ i, (C i).PosSemidef) (c : 𝕜) (hc : 0 ≤ c) (d : Fin N → 𝕜) (hd : ∀ i, 0 ≤ d i) :
    (∑ i, c • ((d i)⁻¹ • C i)).PosSemidef := by
  refine posSemidef_sum _ fun i _ => ((hC i).smul ?_).smul hc
  obtain ⟨h1, h2⟩ := RCLike.nonneg_iff.1 (hd i)
  have : d i = ((RCLike.re (d i) : ℝ) : 𝕜) := by
    apply RCLike.ext <;> simp [h2]
  rw [this, ← RCLike.ofReal_inv]
  exact_mod_cast inv_nonneg.2 h1

theorem det_zero_of_sq {n : ℕ} {R S : Matrix (Fin n) (Fin n) 𝕜} (h : R * R = S)
    {v : Fin n → 𝕜} (hv : v ≠ 0) (hS : S *ᵥ v = 0) : R.det = 0 := by
  have hd : S.det = 0 := exists_mulVec_eq_zero_iff.1 ⟨v, hv, hS⟩
  rw [← h, det_mul] at hd
  exact (mul_self_eq_zero).1 hd

/-- The numerator and the denominators of the first half-step from the identity. -/
theorem first_den (M : Matrix (Fin b) (Fin a) 𝕜) :
    0 ≤ (Mᴴ * M).trace ∧ ((Mᴴ * M).trace = 0 ↔ M = 0) :=
  ⟨(posSemidef_conjTranspose_mul_self M).trace_nonneg, trace_conjTranspose_mul_self_eq_zero_iff⟩

theorem kronStep_zero {sq : Sqrtm 𝕜} (hsq : SqrtmPSD sq) {M : Fin N → Matrix (Fin b) (Fin a) 𝕜}
    (i : Fin N) (hi : M i = 0) : kronStep sq M 1 1 1 = .error .valueError := by
  have h : ∃ i, ((1 : Matrix (Fin a) (Fin a) 𝕜) * ((M i)ᴴ * (1 : Matrix (Fin b) (Fin b) 𝕜) * M i)).trace = 0 :=
    ⟨i, by simp [hi]⟩
  simp only [kronStep, bind, Except.bind, pyInv_one, hsq.one, if_pos h]

theorem kronStep_cols {sq : Sqrtm 𝕜} (hsq : SqrtmPSD sq) {M : Fin N → Matrix (Fin b) (Fin a) 𝕜}
    (h0 : ∀ i, M i ≠ 0) {v : Fin a → 𝕜} (hv : v ≠ 0) (hM : ∀ i, M i *ᵥ v = 0) :
    kronStep sq M 1 1 1 = .error .linAlgError := by
  have h : ¬ ∃ i, ((1 : Matrix (Fin a) (Fin a) 𝕜) * ((M i)ᴴ * (1 : Matrix (Fin b) (Fin b) 𝕜) * M i)).trace = 0 := by
    rintro ⟨i, hi⟩
    rw [Matrix.one_mul, Matrix.mul_one] at hi
    exact h0 i ((first_den (M i)).2.1 hi)
  set S : Matrix (Fin a) (Fin a) 𝕜 := 1 * (∑ i, ((a : 𝕜) / (N : 𝕜)) •
    (((1 : Matrix (Fin a) (Fin a) 𝕜) * ((M i)ᴴ * (1 : Matrix (Fin b) (Fin b) 𝕜) * M i)).trace⁻¹ • ((M i)ᴴ * (1 : Matrix (Fin b) (Fin b) 𝕜) * M i))) * 1
    with hS
  have hSp : S.PosSemidef := by
    rw [hS, Matrix.one_mul, Matrix.mul_one]
    refine weighted_posSemidef _ (fun i => ?_) _ ?_ _ fun i => ?_
    · rw [Matrix.mul_one]; exact posSemidef_conjTranspose_mul_self _
    · exact div_nonneg (Nat.cast_nonneg a) (Nat.cast_nonneg N)
    · rw [Matrix.one_mul, Matrix.mul_one]; exact (first_den _).1
  obtain ⟨R, e, -, hRR⟩ := hsq a S hSp
  have hSv : S *ᵥ v = 0 := by
    rw [hS, Matrix.one_mul, Matrix.mul_one, Matrix.sum_mulVec]
    refine Finset.sum_eq_zero fun i _ => ?_
    rw [smul_mulVec, smul_mulVec, Matrix.mul_one, ← mulVec_mulVec, hM i, mulVec_zero, smul_zero,
      smul_zero]
  have hd := det_zero_of_sq hRR hv hSv
  have e2 : pyInv (1 * R * 1) = .error .linAlgError := by
    rw [Matrix.one_mul, Matrix.mul_one]; exact pyInv_singular hd
  simp only [kronStep, bind, Except.bind, pyInv_one, hsq.one, if_neg h, ← hS, e, e2]

/-- With enough columns but not enough rows the first step returns a singular second factor. -/
theorem kronStep_rows {sq : Sqrtm 𝕜} (hsq : SqrtmPSD sq) {M : Fin N → Matrix (Fin b) (Fin a) 𝕜}
    (h0 : ∀ i, M i ≠ 0) (hc : ∀ v, (∀ i, M i *ᵥ v = 0) → v = 0) (ha : 0 < a)
    {u : Fin b → 𝕜} (hM : ∀ i, (M i)ᴴ *ᵥ u = 0) :
    ∃ A B, kronStep sq M 1 1 1 = .ok (A, A⁻¹, B) ∧ A.PosDef ∧ B.PosSemidef ∧ B *ᵥ u = 0 := by
  have hN : 0 < N := by
    rcases Nat.eq_zero_or_pos N with h | h
    · subst h
      have := congrFun (hc (fun _ => 1) fun i => i.elim0) ⟨0, ha⟩
      simp at this
    · exact h
  have h : ¬ ∃ i, ((1 : Matrix (Fin a) (Fin a) 𝕜) * ((M i)ᴴ * (1 : Matrix (Fin b) (Fin b) 𝕜) * M i)).trace = 0 := by
    rintro ⟨i, hi⟩
    rw [Matrix.one_mul, Matrix.mul_one] at hi
    exact h0 i ((first_den (M i)).2.1 hi)
  set S : Matrix (Fin a) (Fin a) 𝕜 := 1 * (∑ i, ((a : 𝕜) / (N : 𝕜)) •
    (((1 : Matrix (Fin a) (Fin a) 𝕜) * ((M i)ᴴ * (1 : Matrix (Fin b) (Fin b) 𝕜) * M i)).trace⁻¹ • ((M i)ᴴ * (1 : Matrix (Fin b) (Fin b) 𝕜) * M i))) * 1
    with hS
  have hSp : S.PosDef := by
    choose r h1 h2 h3 using fun i => trace_den (𝕜 := 𝕜) (PosDef.one : (1 : Matrix (Fin a) (Fin a) 𝕜).PosDef)
      (PosDef.one : (1 : Matrix (Fin b) (Fin b) 𝕜).PosDef) (M i)
    have e : S = ∑ i, (((a : ℝ) / N * (r i)⁻¹ : ℝ) : 𝕜) • ((M i)ᴴ * (1 : Matrix (Fin b) (Fin b) 𝕜)⁻¹ * M i) := by
      rw [hS, Matrix.one_mul, Matrix.mul_one]
      refine Finset.sum_congr rfl fun i _ => ?_
      have := h1 i
      rw [inv_one, inv_one] at this
      rw [this, smul_smul, inv_one]
      push_cast
      rfl
    rw [e]
    have ha' : (0 : ℝ) < a := by exact_mod_cast ha
    have hN' : (0 : ℝ) < N := by exact_mod_cast hN
    exact posDef_sum _ (fun i => num_posSemidef PosDef.one _)
      (fun v hv => hc v fun i => num_ker PosDef.one _ _ (hv i)) _
      fun i => by have := h3 i (h0 i); positivity
  obtain ⟨R, e, hR, hRR⟩ := hsq.toPD a S hSp
  have hA : (1 * R * 1).PosDef := by rwa [Matrix.one_mul, Matrix.mul_one]
  have h' : ¬ ∃ i, ((1 * R * 1)⁻¹ * ((M i)ᴴ * (1 : Matrix (Fin b) (Fin b) 𝕜) * M i)).trace = 0 := by
    rintro ⟨i, hi⟩
    obtain ⟨r, h1, h2, h3⟩ := trace_den hA (PosDef.one : (1 : Matrix (Fin b) (Fin b) 𝕜).PosDef) (M i)
    rw [inv_one] at h1
    rw [h1] at hi
    exact (h3 (h0 i)).ne' (by exact_mod_cast hi)
  set T : Matrix (Fin b) (Fin b) 𝕜 := 1 * (∑ i, ((b : 𝕜) / (N : 𝕜)) •
    (((1 * R * 1)⁻¹ * ((M i)ᴴ * (1 : Matrix (Fin b) (Fin b) 𝕜) * M i)).trace⁻¹ • (M i * (1 * R * 1)⁻¹ * (M i)ᴴ))) * 1 with hT
  have hTp : T.PosSemidef := by
    rw [hT, Matrix.one_mul, Matrix.mul_one]
    refine weighted_posSemidef _ (fun i => ?_) _ ?_ _ fun i => ?_
    · have := hA.inv.posSemidef.mul_mul_conjTranspose_same (M i)
      exact this
    · exact div_nonneg (Nat.cast_nonneg b) (Nat.cast_nonneg N)
    · obtain ⟨r, h1, h2, h3⟩ := trace_den hA (PosDef.one : (1 : Matrix (Fin b) (Fin b) 𝕜).PosDef) (M i)
      rw [inv_one] at h1
      rw [h1]
      exact_mod_cast h2
  obtain ⟨R', e', hR', hRR'⟩ := hsq b T hTp
  have hTu : T *ᵥ u = 0 := by
    rw [hT, Matrix.one_mul, Matrix.mul_one, Matrix.sum_mulVec]
    refine Finset.sum_eq_zero fun i _ => ?_
    rw [smul_mulVec, smul_mulVec, ← mulVec_mulVec, hM i, mulVec_zero, smul_zero, smul_zero]
  have hRu : R' *ᵥ u = 0 := by
    have h2 : star (R' *ᵥ u) ⬝ᵥ (R' *ᵥ u) = 0 := by
      rw [star_mulVec, hR'.1.eq, ← dotProduct_mulVec, mulVec_mulVec, hRR', hTu, dotProduct_zero]
    exact dotProduct_star_self_eq_zero.1 h2
  refine ⟨1 * R * 1, 1 * R' * 1, ?_, hA, by rwa [Matrix.one_mul, Matrix.mul_one],
    by rw [Matrix.one_mul, Matrix.mul_one]; exact hRu⟩
  simp only [kronStep, bind, Except.bind, pyInv_one, hsq.one, if_neg h, ← hS, e, pyInv_posDef hA,
    if_neg h', ← hT, e', pure, Except.pure]

/-- A matrix with a kernel is at Frobenius distance at least one from the identity. -/
theorem frob_sub_one {n : ℕ} {B : Matrix (Fin n) (Fin n) 𝕜} {u : Fin n → 𝕜} (hu : u ≠ 0)
    (hB : B *ᵥ u = 0) : 1 ≤ frob (B - 1) := by
  set U : Matrix (Fin n) (Fin n) 𝕜 := of fun i _ => u i with hU
  have e : (B - 1) * U = -U := by
    have : B * U = 0 := by
      ext i j
      exact congrFun hB i
    rw [Matrix.sub_mul, this, Matrix.one_mul, zero_sub]
  have h1 := frob_mul_le (B - 1) U
  have h2 : frob (-U) = frob U := by simp [frob]
  rw [e, h2] at h1
  have h3 : 0 < frob U := by
    refine lt_of_le_of_ne (frob_nonneg U) fun h => hu ?_
    have := (frob_eq_zero U).1 h.symm
    funext i
    exact congrFun (congrFun this i) i
  nlinarith

theorem frob_one (n : ℕ) : frob (1 : Matrix (Fin n) (Fin n) 𝕜) = Real.sqrt n := by
  have h := frob_sq (1 : Matrix (Fin n) (Fin n) 𝕜)
  rw [conjTranspose_one, Matrix.one_mul, trace_one, Fintype.card_fin, RCLike.natCast_re] at h
  rw [← h, Real.sqrt_sq (frob_nonneg _)]

end RS
