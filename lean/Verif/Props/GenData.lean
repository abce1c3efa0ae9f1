import Verif.Lemmas.GenData
import Verif.Props.Linalg
import Mathlib.Data.Matrix.ColumnRowPartitioned

/-
Properties of `robuststats/utils/generation_data.py` (C74-C76, C97-C99).
-/
set_option autoImplicit false

namespace RS
open Matrix MeasureTheory ProbabilityTheory ComplexOrder

/-! ## C75: points of the Stiefel manifold -/

theorem sliceCols_nonneg {α : Type*} {p : ℕ} (Q : Matrix (Fin p) (Fin p) α) (k : ℕ) :
    sliceCols Q (k : ℤ) = ⟨min k p, Q.submatrix id (Fin.castLE (min_le_right _ _))⟩ := by
  have h : (if (0 : ℤ) ≤ (k : ℤ) then min (k : ℤ).toNat p else ((p : ℤ) + k).toNat) = min k p := by
    simp
  unfold sliceCols
  simp only [Sigma.mk.injEq]
  refine ⟨h, ?_⟩
  congr! 2

theorem submatrix_orthonormal {𝕜 : Type*} [RCLike 𝕜] {p m : ℕ} (Q : Matrix (Fin p) (Fin p) 𝕜)
    (hQ : Qᴴ * Q = 1) (f : Fin m → Fin p) (hf : Function.Injective f) :
    (Q.submatrix id f)ᴴ * Q.submatrix id f = 1 := by
  have h : (Q.submatrix id f)ᴴ * Q.submatrix id f = (Qᴴ * Q).submatrix f f :=
    submatrix_mul_equiv Qᴴ Q f (Equiv.refl _) f
  rw [h, hQ]
  exact submatrix_one _ hf

/-- For every draw of an orthogonal (unitary) matrix, `generate_stiefel(p, k)`
(`generate_complex_stiefel`) returns a `p × min(k, p)` matrix with orthonormal columns: the first
columns of the draw. -/
theorem C75_stiefel {𝕜 : Type*} [RCLike 𝕜] (p k : ℕ) (Q : Matrix (Fin p) (Fin p) 𝕜)
    (hQ : Qᴴ * Q = 1) :
    ∃ V : Matrix (Fin p) (Fin (min k p)) 𝕜, generateStiefel p (.ok Q) k = .ok ⟨min k p, V⟩ ∧
      Vᴴ * V = 1 ∧ ∀ (i : Fin p) (j : Fin (min k p)) (j' : Fin p), (j : ℕ) = j' → V i j = Q i j' := by
  refine ⟨Q.submatrix id (Fin.castLE (min_le_right _ _)), ?_,
    submatrix_orthonormal Q hQ _ (Fin.castLE_injective _), fun i j j' h => ?_⟩
  · unfold generateStiefel
    by_cases h : (k : ℤ) < p
    · rw [if_pos h]
      change (Except.ok (sliceCols Q (k : ℤ)) : Py _) = _
      rw [sliceCols_nonneg]
    · rw [if_neg h]
      have h' : min k p = p := by omega
      change (Except.ok _ : Py _) = _
      congr 1
      rw [Sigma.mk.injEq]
      refine ⟨h'.symm, ?_⟩
      have : ∀ (m : ℕ) (hm : m = p) (hl : m ≤ p), HEq Q (Q.submatrix id (Fin.castLE hl)) := by
        intro m hm hl
        subst hm
        rfl
      exact this _ h' _
  · have : Fin.castLE (min_le_right k p) j = j' := Fin.ext h
    rw [submatrix_apply, id, this]

/-- A negative `k` removes the last columns; the remaining ones are orthonormal. -/
theorem C75_negative {𝕜 : Type*} [RCLike 𝕜] (p k : ℕ) (hk : 0 < k) (hkp : k ≤ p)
    (Q : Matrix (Fin p) (Fin p) 𝕜) (hQ : Qᴴ * Q = 1) :
    ∃ V : Matrix (Fin p) (Fin (p - k)) 𝕜, generateStiefel p (.ok Q) (-(k : ℤ)) = .ok ⟨p - k, V⟩ ∧
      Vᴴ * V = 1 := by
  refine ⟨Q.submatrix id (Fin.castLE (Nat.sub_le _ _)), ?_,
    submatrix_orthonormal Q hQ _ (Fin.castLE_injective _)⟩
  unfold generateStiefel
  rw [if_pos (by omega)]
  change (Except.ok _ : Py _) = _
  congr 1
  have h : (if (0 : ℤ) ≤ -(k : ℤ) then min (-(k : ℤ)).toNat p else ((p : ℤ) + -(k : ℤ)).toNat) =
      p - k := by
    rw [if_neg (by omega)]; omega
  unfold sliceCols
  simp only [Sigma.mk.injEq]
  refine ⟨h, ?_⟩
  congr! 2

/-- A draw which is not the identity. -/
example : (!![0, 1; 1, 0] : Matrix (Fin 2) (Fin 2) ℂ)ᴴ * !![0, 1; 1, 0] = 1 := by
  ext i j
  fin_cases i <;> fin_cases j <;> simp [Matrix.mul_apply, Fin.sum_univ_two]

/-! ## C74: covariances -/

theorem conj_charpoly {𝕜 : Type*} [RCLike 𝕜] {p : ℕ} (Q : Matrix (Fin p) (Fin p) 𝕜)
    (hQ : Qᴴ * Q = 1) (d : Fin p → ℝ) :
    EigenvaluesAre (Q * diagonal (fun i => (d i : 𝕜)) * Qᴴ) d := by
  unfold EigenvaluesAre
  rw [Matrix.mul_assoc, charpoly_mul_comm, Matrix.mul_assoc, hQ, Matrix.mul_one, charpoly_diagonal]

theorem conj_det {𝕜 : Type*} [RCLike 𝕜] {p : ℕ} (Q : Matrix (Fin p) (Fin p) 𝕜)
    (hQ : Qᴴ * Q = 1) (d : Fin p → ℝ) :
    (Q * diagonal (fun i => (d i : 𝕜)) * Qᴴ).det = ((∏ i, d i : ℝ) : 𝕜) := by
  have h := congrArg Matrix.det hQ
  rw [det_mul, det_one] at h
  rw [det_mul, det_mul, mul_comm, ← mul_assoc, h, one_mul, det_diagonal]
  push_cast
  rfl

theorem conj_posSemidef {𝕜 : Type*} [RCLike 𝕜] {p : ℕ} (Q : Matrix (Fin p) (Fin p) 𝕜)
    (d : Fin p → ℝ) (hd : ∀ i, 0 ≤ d i) :
    (Q * diagonal (fun i => (d i : 𝕜)) * Qᴴ).PosSemidef :=
  (posSemidef_diagonal_iff.2 fun i => by exact_mod_cast hd i).mul_mul_conjTranspose_same Q

theorem conj_posDef {𝕜 : Type*} [RCLike 𝕜] {p : ℕ} (Q : Matrix (Fin p) (Fin p) 𝕜)
    (hQ : Qᴴ * Q = 1) (d : Fin p → ℝ) (hd : ∀ i, 0 ≤ d i) :
    (Q * diagonal (fun i => (d i : 𝕜)) * Qᴴ).PosDef ↔ ∀ i, d i ≠ 0 := by
  rw [(conj_posSemidef Q d hd).posDef_iff_isUnit, isUnit_iff_isUnit_det, conj_det Q hQ d,
    isUnit_iff_ne_zero]
  simp [Finset.prod_eq_zero_iff]

theorem unitDet_spec {𝕜 : Type*} [RCLike 𝕜] {p : ℕ} (S : Matrix (Fin p) (Fin p) 𝕜) (hS : S.PosDef) :
    (unitDet true S).PosDef ∧ (unitDet true S).det = 1 ∧
      ∃ c : ℝ, 0 < c ∧ unitDet true S = c • S := by
  have hd : 0 < RCLike.re S.det := (RCLike.pos_iff.1 hS.det_pos).1
  have hdet : S.det = ((RCLike.re S.det : ℝ) : 𝕜) :=
    (RCLike.ext (by simp) (by simpa using (RCLike.pos_iff.1 hS.det_pos).2))
  set r := RCLike.re S.det with hr
  have hc : 0 < r ^ (1 / p : ℝ) := Real.rpow_pos_of_pos hd _
  have e : unitDet true S = (r ^ (1 / p : ℝ))⁻¹ • S := by
    ext i j
    simp only [unitDet, if_true, Matrix.of_apply, Matrix.smul_apply, RCLike.real_smul_eq_coe_mul,
      ← hr]
    push_cast
    rw [div_eq_inv_mul]
  rw [e]
  refine ⟨hS.smul (inv_pos.2 hc), ?_, _, inv_pos.2 hc, rfl⟩
  have e2 : (r ^ (1 / p : ℝ))⁻¹ • S = (((r ^ (1 / p : ℝ))⁻¹ : ℝ) : 𝕜) • S := by
    ext i j
    simp [RCLike.real_smul_eq_coe_mul]
  rw [e2, det_smul, Fintype.card_fin]
  by_cases hp : p = 0
  · subst hp
    simp
  · rw [hdet, ← RCLike.ofReal_pow, ← RCLike.ofReal_mul, inv_pow, ← Real.rpow_natCast, ← Real.rpow_mul hd.le,
      one_div, inv_mul_cancel₀ (by exact_mod_cast hp), Real.rpow_one, inv_mul_cancel₀ hd.ne',
      RCLike.ofReal_one]

theorem generateCovariance_eq (p : ℕ) (u : Fin p → ℝ) (Q : Matrix (Fin p) (Fin p) ℝ) (b : Bool) :
    generateCovariance p u (.ok Q) b =
      .ok (unitDet b (Q * diagonal (fun i => ((u i ^ 2 : ℝ) : ℝ)) * Qᴴ)) := by
  have h : generateStiefel p (.ok Q) (p : ℤ) = .ok ⟨p, Q⟩ := by
    unfold generateStiefel
    rw [if_neg (lt_irrefl _)]
    rfl
  unfold generateCovariance
  rw [h]
  simp only [bind, Except.bind, dite_true, conjTranspose_eq_transpose_of_trivial]
  rfl

theorem generateComplexCovariance_eq (p : ℕ) (u : Fin p → ℝ) (Q : Matrix (Fin p) (Fin p) ℂ)
    (b : Bool) : generateComplexCovariance p u (.ok Q) b =
      .ok (unitDet b (Q * diagonal (fun i => ((1 + u i : ℝ) : ℂ)) * Qᴴ)) := by
  have h : generateStiefel p (.ok Q) (p : ℤ) = .ok ⟨p, Q⟩ := by
    unfold generateStiefel
    rw [if_neg (lt_irrefl _)]
    rfl
  unfold generateComplexCovariance
  rw [h]
  simp only [bind, Except.bind, dite_true]
  rfl

/-- `generate_covariance(p)`, for every draw: symmetric positive semi-definite, with the squares of
the uniform draws as eigenvalues; so it is positive definite unless one of them is 0. -/
theorem C74_real (p : ℕ) (u : Fin p → ℝ) (Q : Matrix (Fin p) (Fin p) ℝ) (hQ : Qᵀ * Q = 1) :
    ∃ S, generateCovariance p u (.ok Q) false = .ok S ∧ Sᵀ = S ∧ S.PosSemidef ∧
      EigenvaluesAre S (fun i => u i ^ 2) ∧ (S.PosDef ↔ ∀ i, u i ≠ 0) := by
  have hQ' : Qᴴ * Q = 1 := by rw [conjTranspose_eq_transpose_of_trivial]; exact hQ
  have hp := conj_posSemidef Q (fun i => u i ^ 2) fun i => sq_nonneg _
  refine ⟨_, generateCovariance_eq p u Q false, ?_, hp, conj_charpoly Q hQ' _, ?_⟩
  · rw [← conjTranspose_eq_transpose_of_trivial]
    exact hp.isHermitian
  · have := conj_posDef Q hQ' (fun i => u i ^ 2) fun i => sq_nonneg _
    exact this.trans (by simp)

/-- With `unit_det=True`, unless a draw is 0: a positive multiple of the same matrix, of
determinant 1. -/
theorem C74_real_unit (p : ℕ) (u : Fin p → ℝ) (hu : ∀ i, u i ≠ 0) (Q : Matrix (Fin p) (Fin p) ℝ)
    (hQ : Qᵀ * Q = 1) :
    ∃ S S', generateCovariance p u (.ok Q) false = .ok S ∧
      generateCovariance p u (.ok Q) true = .ok S' ∧ S'.PosDef ∧ S'.det = 1 ∧
      ∃ c : ℝ, 0 < c ∧ S' = c • S := by
  have hQ' : Qᴴ * Q = 1 := by rw [conjTranspose_eq_transpose_of_trivial]; exact hQ
  refine ⟨_, _, generateCovariance_eq p u Q false, generateCovariance_eq p u Q true, ?_⟩
  exact unitDet_spec _ ((conj_posDef Q hQ' (fun i => u i ^ 2) fun i => sq_nonneg _).2
    fun i => pow_ne_zero 2 (hu i))

/-- `generate_complex_covariance(p)`, for every draw: Hermitian positive definite, with eigenvalues
1 plus the uniform draws, hence between 1 and 2. -/
theorem C74_complex (p : ℕ) (u : Fin p → ℝ) (hu : ∀ i, 0 ≤ u i ∧ u i < 1)
    (Q : Matrix (Fin p) (Fin p) ℂ) (hQ : Qᴴ * Q = 1) :
    ∃ S, generateComplexCovariance p u (.ok Q) false = .ok S ∧ S.PosDef ∧
      EigenvaluesAre S (fun i => 1 + u i) ∧ (S - 1).PosSemidef ∧
      ((2 : ℂ) • (1 : Matrix (Fin p) (Fin p) ℂ) - S).PosDef := by
  have h1 : Q * Qᴴ = 1 := mul_eq_one_comm.1 hQ
  refine ⟨_, generateComplexCovariance_eq p u Q false,
    (conj_posDef Q hQ (fun i => 1 + u i) fun i => by linarith [(hu i).1]).2 fun i => by
      have := (hu i).1
      positivity, conj_charpoly Q hQ _, ?_, ?_⟩
  · have e : unitDet false (Q * diagonal (fun i => ((1 + u i : ℝ) : ℂ)) * Qᴴ) - 1 =
        Q * diagonal (fun i => ((u i : ℝ) : ℂ)) * Qᴴ := by
      have : (diagonal fun i => ((1 + u i : ℝ) : ℂ)) =
          1 + diagonal fun i => ((u i : ℝ) : ℂ) := by
        rw [← diagonal_one, diagonal_add]
        simp
      change Q * diagonal (fun i => ((1 + u i : ℝ) : ℂ)) * Qᴴ - 1 = _
      rw [this, Matrix.mul_add, Matrix.mul_one, Matrix.add_mul, h1, add_sub_cancel_left]
    rw [e]
    exact conj_posSemidef Q u fun i => (hu i).1
  · have e : (2 : ℂ) • (1 : Matrix (Fin p) (Fin p) ℂ) -
        unitDet false (Q * diagonal (fun i => ((1 + u i : ℝ) : ℂ)) * Qᴴ) =
        Q * diagonal (fun i => ((1 - u i : ℝ) : ℂ)) * Qᴴ := by
      have : (diagonal fun i => ((1 - u i : ℝ) : ℂ)) =
          (2 : ℂ) • (1 : Matrix (Fin p) (Fin p) ℂ) - diagonal fun i => ((1 + u i : ℝ) : ℂ) := by
        rw [← diagonal_one, ← diagonal_smul, diagonal_sub]
        congr 1
        funext i
        simp
        ring
      change _ - Q * diagonal (fun i => ((1 + u i : ℝ) : ℂ)) * Qᴴ = _
      rw [this, Matrix.mul_sub, Matrix.sub_mul, Matrix.mul_smul, Matrix.mul_one, Matrix.smul_mul, h1]
    rw [e]
    exact (conj_posDef Q hQ (fun i => 1 - u i) fun i => by linarith [(hu i).2]).2 fun i => by
      have := (hu i).2
      intro h
      linarith

theorem C74_complex_unit (p : ℕ) (u : Fin p → ℝ) (hu : ∀ i, 0 ≤ u i)
    (Q : Matrix (Fin p) (Fin p) ℂ) (hQ : Qᴴ * Q = 1) :
    ∃ S S', generateComplexCovariance p u (.ok Q) false = .ok S ∧
      generateComplexCovariance p u (.ok Q) true = .ok S' ∧ S'.PosDef ∧ S'.det = 1 ∧
      ∃ c : ℝ, 0 < c ∧ S' = c • S := by
  refine ⟨_, _, generateComplexCovariance_eq p u Q false, generateComplexCovariance_eq p u Q true, ?_⟩
  exact unitDet_spec _ ((conj_posDef Q hQ (fun i => 1 + u i) fun i => by linarith [hu i]).2
    fun i => by have := hu i; positivity)

/-- Draws which meet the hypotheses. -/
example : (∀ i : Fin 2, 0 ≤ (![1/2, 1/3] : Fin 2 → ℝ) i ∧ (![1/2, 1/3] : Fin 2 → ℝ) i < 1) ∧
    (∀ i : Fin 2, (![1/2, 1/3] : Fin 2 → ℝ) i ≠ 0) ∧
    (!![0, 1; 1, 0] : Matrix (Fin 2) (Fin 2) ℝ)ᵀ * !![0, 1; 1, 0] = 1 := by
  refine ⟨fun i => ?_, fun i => ?_, ?_⟩
  · fin_cases i <;> norm_num
  · fin_cases i <;> norm_num
  · ext i j
    fin_cases i <;> fin_cases j <;> simp [Matrix.mul_apply, Fin.sum_univ_two]

/-! ## C76: normal samples -/

theorem idx_inj {N a b i j : ℕ} (hi : i < N) (hj : j < N) (h : a * N + i = b * N + j) :
    a = b ∧ i = j := by
  have h1 : (a * N + i) / N = a := by
    rw [mul_comm, Nat.mul_add_div (by omega), Nat.div_eq_of_lt hi, add_zero]
  have h2 : (b * N + j) / N = b := by
    rw [mul_comm, Nat.mul_add_div (by omega), Nat.div_eq_of_lt hj, add_zero]
  have h3 : a = b := by rw [← h1, ← h2, h]
  subst h3
  exact ⟨rfl, by omega⟩

theorem idx_lt {N p a j : ℕ} (ha : a < p) (hj : j < N) : a * N + j < p * N := by
  have : (a + 1) * N ≤ p * N := Nat.mul_le_mul_right N ha
  rw [add_mul, one_mul] at this
  omega

/-- Samples which are linear functions of their own parts of the stream are independent and
normal. -/
theorem cols_law {d N : ℕ} {K : Type*} [Fintype K] (P : Fin N → K → ℕ)
    (hP : Function.Injective fun q : Fin N × K => P q.1 q.2) (A : Fin N → Matrix (Fin d) K ℝ)
    (X : (ℕ → ℝ) → Matrix (Fin d) (Fin N) ℝ)
    (hX : ∀ w j, sampleOf (X w) j = A j *ᵥ fun k => w (P j k)) :
    (∀ j, NormalRow gaussSeq (fun w => sampleOf (X w) j) 0 (A j * (A j)ᵀ)) ∧
      iIndepFun (fun j w => sampleOf (X w) j) gaussSeq := by
  constructor
  · intro j
    rw [funext fun w => hX w j]
    exact gauss_linear (P j) (fun k l h => by simpa using hP (a₁ := (j, k)) (a₂ := (j, l)) h) (A j)
  · have h := (gauss_blocks P hP).comp (fun j (v : K → ℝ) => A j *ᵥ v) fun j => by
      refine measurable_pi_lambda _ fun a => ?_
      simp only [mulVec, dotProduct]
      fun_prop
    have e : (fun j (w : ℕ → ℝ) => sampleOf (X w) j) =
        fun j => (fun v : K → ℝ => A j *ᵥ v) ∘ fun w k => w (P j k) := by
      funext j w
      exact hX w j
    rw [e]
    exact h

theorem ccols_law {d N : ℕ} {K : Type*} [Fintype K] (P : Fin N → K ⊕ K → ℕ)
    (hP : Function.Injective fun q : Fin N × (K ⊕ K) => P q.1 q.2) (A : Fin N → Matrix (Fin d) K ℂ)
    (X : (ℕ → ℝ) → Matrix (Fin d) (Fin N) ℂ)
    (hX : ∀ w j, sampleOf (X w) j = A j *ᵥ fun k => ((1 / Real.sqrt 2 : ℝ) : ℂ) *
      ((w (P j (.inl k)) : ℂ) + Complex.I * (w (P j (.inr k)) : ℂ))) :
    (∀ j, CNormalRow gaussSeq (fun w => sampleOf (X w) j) 0 (A j * (A j)ᴴ)) ∧
      iIndepFun (fun j w => sampleOf (X w) j) gaussSeq := by
  constructor
  · intro j
    rw [funext fun w => hX w j]
    exact gauss_clinear (P j) (fun k l h => by simpa using hP (a₁ := (j, k)) (a₂ := (j, l)) h) (A j)
  · have h := (gauss_blocks P hP).comp (fun j (v : K ⊕ K → ℝ) => A j *ᵥ fun k =>
        ((1 / Real.sqrt 2 : ℝ) : ℂ) * ((v (.inl k) : ℂ) + Complex.I * (v (.inr k) : ℂ))) fun j => by
      refine measurable_pi_lambda _ fun a => ?_
      simp only [mulVec, dotProduct]
      refine Finset.measurable_sum _ fun k _ => ?_
      have h1 : Measurable fun v : K ⊕ K → ℝ => ((v (.inl k) : ℝ) : ℂ) :=
        Complex.measurable_ofReal.comp (measurable_pi_apply _)
      have h2 : Measurable fun v : K ⊕ K → ℝ => ((v (.inr k) : ℝ) : ℂ) :=
        Complex.measurable_ofReal.comp (measurable_pi_apply _)
      exact ((h1.add (h2.const_mul _)).const_mul _).const_mul _
    have e : (fun j (w : ℕ → ℝ) => sampleOf (X w) j) =
        fun j => (fun v : K ⊕ K → ℝ => A j *ᵥ fun k =>
        ((1 / Real.sqrt 2 : ℝ) : ℂ) * ((v (.inl k) : ℂ) + Complex.I * (v (.inr k) : ℂ))) ∘
          fun w k => w (P j k) := by
      funext j w
      exact hX w j
    rw [e]
    exact h

theorem sampleNormal_eq (eigh : (n : ℕ) → Eigh (Fin n) ℝ) (w : ℕ → ℝ) (pos N p : ℕ)
    (C : Matrix (Fin p) (Fin p) ℝ) :
    sampleNormal eigh w pos N (.real (.d2 p p C)) =
      .ok (.real (.d2 p N (sqrtm (eigh p) C * (randn w pos p N).1)), pos + p * N) := by
  simp only [sampleNormal, dite_true]
  rfl

theorem sampleCNormal_eq (eigh : (n : ℕ) → Eigh (Fin n) ℂ) (w : ℕ → ℝ) (pos N p : ℕ)
    (C : Matrix (Fin p) (Fin p) ℂ) :
    sampleCNormal eigh w pos N (.cplx (.d2 p p C)) =
      .ok (.cplx (.d2 p N (sqrtm (eigh p) C * (crandn w pos p N).1)), pos + p * N + p * N) := by
  simp only [sampleCNormal, dite_true]
  rfl

/-- `sample_normal_distribution(N, cov)`: when the random generator delivers independent standard
normal variables, the `N` columns are independent and normal with mean 0 and covariance `cov`. -/
theorem C76_normal (eigh : (n : ℕ) → Eigh (Fin n) ℝ) (heigh : ∀ n, (eigh n).Ok) (pos N p : ℕ)
    (C : Matrix (Fin p) (Fin p) ℝ) (hC : C.PosSemidef) :
    ∃ X : (ℕ → ℝ) → Matrix (Fin p) (Fin N) ℝ,
      (∀ w, ∃ pos', sampleNormal eigh w pos N (.real (.d2 p p C)) =
        .ok (.real (.d2 p N (X w)), pos')) ∧
      (∀ j, NormalRow gaussSeq (fun w => sampleOf (X w) j) 0 C) ∧
      iIndepFun (fun j w => sampleOf (X w) j) gaussSeq := by
  have hs := C08_sqrtm_posSemidef (eigh p) (heigh p) C hC
  have hA : sqrtm (eigh p) C * (sqrtm (eigh p) C)ᵀ = C := by
    rw [← conjTranspose_eq_transpose_of_trivial, hs.isHermitian.eq]
    exact C08_sqrtm_mul_self (eigh p) (heigh p) C hC
  have key := cols_law (d := p) (N := N) (K := Fin p) (fun j k => pos + (k * N + j))
    (fun ⟨j, k⟩ ⟨j', k'⟩ h => by
      simp only [add_right_inj] at h
      obtain ⟨h1, h2⟩ := idx_inj j.2 j'.2 h
      exact Prod.ext (Fin.ext h2) (Fin.ext h1))
    (fun _ => sqrtm (eigh p) C) (fun w => sqrtm (eigh p) C * (randn w pos p N).1)
    (fun w j => by
      funext a
      simp [sampleOf, Matrix.mul_apply, randn, mulVec, dotProduct])
  simp only [hA] at key
  exact ⟨_, fun w => ⟨_, sampleNormal_eq eigh w pos N p C⟩, key⟩

/-- `sample_complex_normal_distribution(N, cov)`: the columns are independent and circular complex
normal with mean 0 and covariance `cov`. -/
theorem C76_cnormal (eigh : (n : ℕ) → Eigh (Fin n) ℂ) (heigh : ∀ n, (eigh n).Ok) (pos N p : ℕ)
    (C : Matrix (Fin p) (Fin p) ℂ) (hC : C.PosSemidef) :
    ∃ X : (ℕ → ℝ) → Matrix (Fin p) (Fin N) ℂ,
      (∀ w, ∃ pos', sampleCNormal eigh w pos N (.cplx (.d2 p p C)) =
        .ok (.cplx (.d2 p N (X w)), pos')) ∧
      (∀ j, CNormalRow gaussSeq (fun w => sampleOf (X w) j) 0 C) ∧
      iIndepFun (fun j w => sampleOf (X w) j) gaussSeq := by
  have hs := C08_sqrtm_posSemidef (eigh p) (heigh p) C hC
  have hA : sqrtm (eigh p) C * (sqrtm (eigh p) C)ᴴ = C := by
    rw [hs.isHermitian.eq]
    exact C08_sqrtm_mul_self (eigh p) (heigh p) C hC
  have key := ccols_law (d := p) (N := N) (K := Fin p)
    (fun j => Sum.elim (fun k => pos + (k * N + j)) fun k => pos + p * N + (k * N + j))
    (fun ⟨j, k⟩ ⟨j', k'⟩ h => by
      rcases k with k | k <;> rcases k' with k' | k' <;>
        simp only [Sum.elim_inl, Sum.elim_inr, add_assoc, add_right_inj] at h
      · obtain ⟨h1, h2⟩ := idx_inj j.2 j'.2 h
        rw [Fin.ext h2, Fin.ext h1]
      · have := idx_lt k.2 j.2
        omega
      · have := idx_lt k'.2 j'.2
        omega
      · obtain ⟨h1, h2⟩ := idx_inj j.2 j'.2 h
        rw [Fin.ext h2, Fin.ext h1])
    (fun _ => sqrtm (eigh p) C) (fun w => sqrtm (eigh p) C * (crandn w pos p N).1)
    (fun w j => by
      funext a
      simp [sampleOf, Matrix.mul_apply, randn, crandn, mulVec, dotProduct])
  simp only [hA] at key
  exact ⟨_, fun w => ⟨_, sampleCNormal_eq eigh w pos N p C⟩, key⟩

/-- The same without probabilities: white noise with empirical second moment 1 gives samples with
empirical second moment `cov`. -/
theorem C76_empirical (eigh : (n : ℕ) → Eigh (Fin n) ℝ) (heigh : ∀ n, (eigh n).Ok) (pos N p : ℕ)
    (C : Matrix (Fin p) (Fin p) ℝ) (hC : C.PosSemidef) (w : ℕ → ℝ)
    (hw : ∀ a b : Fin p, (∑ j : Fin N, w (pos + (a * N + j)) * w (pos + (b * N + j))) / N =
      if a = b then 1 else 0) :
    ∃ (X : Matrix (Fin p) (Fin N) ℝ) (pos' : ℕ),
      sampleNormal eigh w pos N (.real (.d2 p p C)) = .ok (.real (.d2 p N X), pos') ∧
      ∀ a b, (∑ j, X a j * X b j) / N = C a b := by
  refine ⟨_, _, sampleNormal_eq eigh w pos N p C, fun a b => ?_⟩
  have hs := C08_sqrtm_posSemidef (eigh p) (heigh p) C hC
  have hA : sqrtm (eigh p) C * (sqrtm (eigh p) C)ᵀ = C := by
    rw [← conjTranspose_eq_transpose_of_trivial, hs.isHermitian.eq]
    exact C08_sqrtm_mul_self (eigh p) (heigh p) C hC
  set R := (randn w pos p N).1 with hR
  have hRR : (N : ℝ)⁻¹ • (R * Rᵀ) = 1 := by
    ext a b
    have := hw a b
    rw [Matrix.smul_apply, Matrix.mul_apply, Matrix.one_apply, ← this, smul_eq_mul, div_eq_inv_mul]
    rfl
  have h1 : (N : ℝ)⁻¹ • ((sqrtm (eigh p) C * R) * (sqrtm (eigh p) C * R)ᵀ) = C := by
    rw [transpose_mul, Matrix.mul_assoc, ← Matrix.mul_assoc R, ← Matrix.mul_smul, ← Matrix.smul_mul,
      hRR, Matrix.one_mul, hA]
  have h2 := congrFun (congrFun h1 a) b
  rw [Matrix.smul_apply, Matrix.mul_apply, smul_eq_mul, ← div_eq_inv_mul] at h2
  exact h2

/-- An array of the other kind is refused. -/
theorem C76_dtype (eR : (n : ℕ) → Eigh (Fin n) ℝ) (eC : (n : ℕ) → Eigh (Fin n) ℂ) (w : ℕ → ℝ)
    (pos N : ℕ) (tau : Arr ℝ) (a : Arr ℝ) (b : Arr ℂ) :
    sampleNormal eR w pos N (.cplx b) = .error .assertionError ∧
    sampleCNormal eC w pos N (.real a) = .error .assertionError ∧
    sampleCompound eR w pos tau (.cplx b) = .error .assertionError ∧
    sampleCCompound eC w pos tau (.real a) = .error .assertionError ∧
    sampleTauUUH eR w pos tau (.cplx b) = .error .assertionError ∧
    sampleCTauUUH eC w pos tau (.real a) = .error .assertionError :=
  ⟨rfl, rfl, rfl, rfl, rfl, rfl⟩

/-! ## Compound samples -/

theorem textureRow_of {tau : Arr ℝ} {N : ℕ} {t : Fin N → ℝ} (h : TexturesAre tau N t) :
    ∃ (L : ℕ) (hL : L = N), textureRow tau =
      .ok (N, ⟨L, fun i => Real.sqrt (t (i.cast hL))⟩) := by
  cases h with
  | vec => exact ⟨N, rfl, rfl⟩
  | col =>
    refine ⟨N * 1, mul_one N, ?_⟩
    simp only [textureRow, Matrix.of_apply]
    congr 3
    funext i
    congr 2
    apply Fin.ext
    simp [finProdFinEquiv, Fin.divNat]

theorem rowTimes_of {𝕜 : Type} [SMul ℝ 𝕜] {L p N : ℕ} (h : L = N) (t : Fin N → ℝ)
    (X : Matrix (Fin p) (Fin N) 𝕜) :
    rowTimes (fun i : Fin L => t (i.cast h)) X = .ok (.d2 p N (Matrix.of fun a j => t j • X a j)) := by
  subst h
  unfold rowTimes bcast2
  rw [dif_pos rfl]
  rfl

theorem sampleCompound_eq (eigh : (n : ℕ) → Eigh (Fin n) ℝ) (w : ℕ → ℝ) (pos N p : ℕ)
    (C : Matrix (Fin p) (Fin p) ℝ) {tau : Arr ℝ} {t : Fin N → ℝ} (h : TexturesAre tau N t) :
    sampleCompound eigh w pos tau (.real (.d2 p p C)) = .ok (.real (.d2 p N (Matrix.of fun a j =>
      Real.sqrt (t j) • (sqrtm (eigh p) C * (randn w pos p N).1) a j)), pos + p * N) := by
  obtain ⟨L, hL, h1⟩ := textureRow_of h
  unfold sampleCompound
  rw [h1]
  simp only [NDArr.isComplex, Bool.false_eq_true, if_false, bind, Except.bind, pure, Except.pure,
    sampleNormal_eq, rowTimes_of hL (fun j => Real.sqrt (t j))]

theorem sampleCCompound_eq (eigh : (n : ℕ) → Eigh (Fin n) ℂ) (w : ℕ → ℝ) (pos N p : ℕ)
    (C : Matrix (Fin p) (Fin p) ℂ) {tau : Arr ℝ} {t : Fin N → ℝ} (h : TexturesAre tau N t) :
    sampleCCompound eigh w pos tau (.cplx (.d2 p p C)) = .ok (.cplx (.d2 p N (Matrix.of fun a j =>
      Real.sqrt (t j) • (sqrtm (eigh p) C * (crandn w pos p N).1) a j)), pos + p * N + p * N) := by
  obtain ⟨L, hL, h1⟩ := textureRow_of h
  unfold sampleCCompound
  rw [h1]
  simp only [NDArr.isComplex, Bool.true_eq_false, if_false, bind, Except.bind, pure, Except.pure,
    sampleCNormal_eq, rowTimes_of hL (fun j => Real.sqrt (t j))]

/-- `sample_compound_distribution(tau, cov)`: with the same random numbers, the `i`-th sample is
`sqrt(tau_i)` times the `i`-th sample of `sample_normal_distribution`. -/
theorem C76_compound (eigh : (n : ℕ) → Eigh (Fin n) ℝ) (w : ℕ → ℝ) (pos N p : ℕ)
    (C : Matrix (Fin p) (Fin p) ℝ) {tau : Arr ℝ} {t : Fin N → ℝ} (h : TexturesAre tau N t) :
    ∃ X Y pos', sampleNormal eigh w pos N (.real (.d2 p p C)) = .ok (.real (.d2 p N X), pos') ∧
      sampleCompound eigh w pos tau (.real (.d2 p p C)) = .ok (.real (.d2 p N Y), pos') ∧
      ∀ a j, Y a j = Real.sqrt (t j) * X a j :=
  ⟨_, _, _, sampleNormal_eq eigh w pos N p C, sampleCompound_eq eigh w pos N p C h, fun _ _ => rfl⟩

theorem C76_ccompound (eigh : (n : ℕ) → Eigh (Fin n) ℂ) (w : ℕ → ℝ) (pos N p : ℕ)
    (C : Matrix (Fin p) (Fin p) ℂ) {tau : Arr ℝ} {t : Fin N → ℝ} (h : TexturesAre tau N t) :
    ∃ X Y pos', sampleCNormal eigh w pos N (.cplx (.d2 p p C)) = .ok (.cplx (.d2 p N X), pos') ∧
      sampleCCompound eigh w pos tau (.cplx (.d2 p p C)) = .ok (.cplx (.d2 p N Y), pos') ∧
      ∀ a j, Y a j = Real.sqrt (t j) * X a j :=
  ⟨_, _, _, sampleCNormal_eq eigh w pos N p C, sampleCCompound_eq eigh w pos N p C h,
    fun _ _ => Complex.real_smul⟩

/-- So its samples are independent and normal with covariances `tau_i * cov`. -/
theorem C76_compound_law (eigh : (n : ℕ) → Eigh (Fin n) ℝ) (heigh : ∀ n, (eigh n).Ok) (pos N p : ℕ)
    (C : Matrix (Fin p) (Fin p) ℝ) (hC : C.PosSemidef) {tau : Arr ℝ} {t : Fin N → ℝ}
    (h : TexturesAre tau N t) (ht : ∀ i, 0 ≤ t i) :
    ∃ X : (ℕ → ℝ) → Matrix (Fin p) (Fin N) ℝ,
      (∀ w, ∃ pos', sampleCompound eigh w pos tau (.real (.d2 p p C)) =
        .ok (.real (.d2 p N (X w)), pos')) ∧
      (∀ j, NormalRow gaussSeq (fun w => sampleOf (X w) j) 0 (t j • C)) ∧
      iIndepFun (fun j w => sampleOf (X w) j) gaussSeq := by
  have hs := C08_sqrtm_posSemidef (eigh p) (heigh p) C hC
  have hA : ∀ j, (Real.sqrt (t j) • sqrtm (eigh p) C) * (Real.sqrt (t j) • sqrtm (eigh p) C)ᵀ =
      t j • C := fun j => by
    rw [transpose_smul, Matrix.smul_mul, Matrix.mul_smul, smul_smul, Real.mul_self_sqrt (ht j),
      ← conjTranspose_eq_transpose_of_trivial, hs.isHermitian.eq,
      C08_sqrtm_mul_self (eigh p) (heigh p) C hC]
  have key := cols_law (d := p) (N := N) (K := Fin p) (fun j k => pos + (k * N + j))
    (fun ⟨j, k⟩ ⟨j', k'⟩ h => by
      simp only [add_right_inj] at h
      obtain ⟨h1, h2⟩ := idx_inj j.2 j'.2 h
      exact Prod.ext (Fin.ext h2) (Fin.ext h1))
    (fun j => Real.sqrt (t j) • sqrtm (eigh p) C) (fun w => Matrix.of fun a j =>
      Real.sqrt (t j) • (sqrtm (eigh p) C * (randn w pos p N).1) a j)
    (fun w j => by
      funext a
      simp [sampleOf, Matrix.mul_apply, randn, mulVec, dotProduct, Finset.mul_sum, mul_assoc])
  simp only [hA] at key
  exact ⟨_, fun w => ⟨_, sampleCompound_eq eigh w pos N p C h⟩, key⟩

theorem C76_ccompound_law (eigh : (n : ℕ) → Eigh (Fin n) ℂ) (heigh : ∀ n, (eigh n).Ok)
    (pos N p : ℕ) (C : Matrix (Fin p) (Fin p) ℂ) (hC : C.PosSemidef) {tau : Arr ℝ} {t : Fin N → ℝ}
    (h : TexturesAre tau N t) (ht : ∀ i, 0 ≤ t i) :
    ∃ X : (ℕ → ℝ) → Matrix (Fin p) (Fin N) ℂ,
      (∀ w, ∃ pos', sampleCCompound eigh w pos tau (.cplx (.d2 p p C)) =
        .ok (.cplx (.d2 p N (X w)), pos')) ∧
      (∀ j, CNormalRow gaussSeq (fun w => sampleOf (X w) j) 0 (t j • C)) ∧
      iIndepFun (fun j w => sampleOf (X w) j) gaussSeq := by
  have hs := C08_sqrtm_posSemidef (eigh p) (heigh p) C hC
  have hA : ∀ j, (Real.sqrt (t j) • sqrtm (eigh p) C) * (Real.sqrt (t j) • sqrtm (eigh p) C)ᴴ =
      t j • C := fun j => by
    rw [conjTranspose_smul, Matrix.smul_mul, Matrix.mul_smul, smul_smul, star_trivial,
      Real.mul_self_sqrt (ht j), hs.isHermitian.eq, C08_sqrtm_mul_self (eigh p) (heigh p) C hC]
  have key := ccols_law (d := p) (N := N) (K := Fin p)
    (fun j => Sum.elim (fun k => pos + (k * N + j)) fun k => pos + p * N + (k * N + j))
    (fun ⟨j, k⟩ ⟨j', k'⟩ h => by
      rcases k with k | k <;> rcases k' with k' | k' <;>
        simp only [Sum.elim_inl, Sum.elim_inr, add_assoc, add_right_inj] at h
      · obtain ⟨h1, h2⟩ := idx_inj j.2 j'.2 h
        rw [Fin.ext h2, Fin.ext h1]
      · have := idx_lt k.2 j.2
        omega
      · have := idx_lt k'.2 j'.2
        omega
      · obtain ⟨h1, h2⟩ := idx_inj j.2 j'.2 h
        rw [Fin.ext h2, Fin.ext h1])
    (fun j => Real.sqrt (t j) • sqrtm (eigh p) C) (fun w => Matrix.of fun a j =>
      Real.sqrt (t j) • (sqrtm (eigh p) C * (crandn w pos p N).1) a j)
    (fun w j => by
      funext a
      simp [sampleOf, Matrix.mul_apply, randn, crandn, mulVec, dotProduct, Finset.mul_sum,
        mul_assoc])
  simp only [hA] at key
  exact ⟨_, fun w => ⟨_, sampleCCompound_eq eigh w pos N p C h⟩, key⟩

/-- Textures given as a row, of shape `(1, L)`: one sample is drawn and returned `L` times, scaled by
each of the textures. -/
theorem C76_row_textures (eigh : (n : ℕ) → Eigh (Fin n) ℝ) (w : ℕ → ℝ) (pos L p : ℕ) (hL : L ≠ 1)
    (C : Matrix (Fin p) (Fin p) ℝ) (t : Fin L → ℝ) :
    ∃ (x : Fin p → ℝ) (Y : Matrix (Fin p) (Fin L) ℝ) (pos' : ℕ),
      sampleCompound eigh w pos (.d2 1 L (Matrix.of fun _ j => t j)) (.real (.d2 p p C)) =
        .ok (.real (.d2 p L Y), pos') ∧ ∀ a j, Y a j = Real.sqrt (t j) * x a := by
  have h1 : textureRow (.d2 1 L (Matrix.of fun _ j => t j)) =
      .ok (1, ⟨1 * L, fun i => Real.sqrt (t (i.cast (one_mul L)))⟩) := by
    simp only [textureRow, Matrix.of_apply]
    congr 3
    funext i
    congr 2
    apply Fin.ext
    have hi : (i : ℕ) < L := by have := i.2; omega
    simp [finProdFinEquiv, Fin.modNat, Nat.mod_eq_of_lt hi]
  have h2 : ∀ X : Matrix (Fin p) (Fin 1) ℝ,
      rowTimes (fun i : Fin (1 * L) => Real.sqrt (t (i.cast (one_mul L)))) X =
        .ok (.d2 (1 * 0 + p) (1 * L) (Matrix.of fun a j =>
          Real.sqrt (t (j.cast (one_mul L))) * X (a.cast (by omega)) 0)) := fun X => by
    unfold rowTimes bcast2
    rw [dif_neg (by omega), dif_neg (by omega), dif_pos rfl]
    have : ∀ (q : ℕ) (hq : q = p), (Except.ok (Arr.d2 p (1 * L) fun i j =>
        (Matrix.of fun _ j => Real.sqrt (t (j.cast (one_mul L)))) i j • X i ⟨0, by omega⟩) :
          Py (Arr ℝ)) = .ok (.d2 q (1 * L) (Matrix.of fun a j =>
          Real.sqrt (t (j.cast (one_mul L))) * X (a.cast hq) 0)) := by
      intro q hq
      subst hq
      rfl
    exact this _ (by omega)
  refine ⟨fun a => (sqrtm (eigh p) C * (randn w pos p 1).1) a 0, Matrix.of fun a j =>
    Real.sqrt (t j) * (sqrtm (eigh p) C * (randn w pos p 1).1) a 0, pos + p * 1, ?_, fun _ _ => rfl⟩
  unfold sampleCompound
  rw [h1]
  simp only [NDArr.isComplex, Bool.false_eq_true, if_false, bind, Except.bind, pure, Except.pure,
    sampleNormal_eq, h2]
  have : ∀ (q l : ℕ) (hq : q = p) (hl : l = L), (Except.ok (NDArr.real (.d2 q l (Matrix.of fun a j =>
      Real.sqrt (t (j.cast hl)) * (sqrtm (eigh p) C * (randn w pos p 1).1) (a.cast hq) 0)),
        pos + p * 1) : Py (NDArr × ℕ)) = .ok (.real (.d2 p L (Matrix.of fun a j =>
      Real.sqrt (t j) * (sqrtm (eigh p) C * (randn w pos p 1).1) a 0)), pos + p * 1) := by
    intro q l hq hl
    subst hq hl
    rfl
  exact this _ _ (by omega) (by omega)

/-- The hypotheses of this section are met by every eigen-solver, which there is, and the matrix
with ones. -/
example : (∃ eigh : (n : ℕ) → Eigh (Fin n) ℝ, ∀ n, (eigh n).Ok) ∧
    (Matrix.of fun _ _ => 1 : Matrix (Fin 2) (Fin 2) ℝ).PosSemidef ∧
    TexturesAre (.d1 3 ![0, 1, 2]) 3 ![0, 1, 2] := by
  refine ⟨⟨fun n => (eigh_exists (ι := Fin n) (𝕜 := ℝ)).choose, fun n =>
    (eigh_exists (ι := Fin n) (𝕜 := ℝ)).choose_spec⟩, ?_, .vec _ _⟩
  have h := posSemidef_self_mul_conjTranspose (Matrix.of fun _ _ => 1 : Matrix (Fin 2) (Fin 1) ℝ)
  convert h using 1
  ext i j
  simp [Matrix.mul_apply]

/-! ## C97: low-rank signal plus white noise -/

theorem sqrtm_one {𝕜 : Type*} [RCLike 𝕜] {n : ℕ} (e : Eigh (Fin n) 𝕜) (he : e.Ok) :
    sqrtm e 1 = 1 :=
  C08_sqrtm_unique e he 1 1 PosSemidef.one PosSemidef.one (Matrix.one_mul 1)

theorem arrAdd_of {𝕜 : Type} [Add 𝕜] {p N : ℕ} (A X : Matrix (Fin p) (Fin N) 𝕜) :
    arrAdd (.d2 p N A) X = .ok (.d2 p N (A + X)) := by
  simp only [arrAdd, bcast2, dite_true]
  rfl

theorem sampleTauUUH_eq (eigh : (n : ℕ) → Eigh (Fin n) ℝ) (heigh : ∀ n, (eigh n).Ok) (w : ℕ → ℝ)
    (pos N p k : ℕ) (U : Matrix (Fin p) (Fin k) ℝ) {tau : Arr ℝ} {t : Fin N → ℝ}
    (h : TexturesAre tau N t) :
    sampleTauUUH eigh w pos tau (.real (.d2 p k U)) = .ok (.real (.d2 p N ((Matrix.of fun a j =>
      Real.sqrt (t j) • (U * (randn w pos k N).1) a j) + (randn w (pos + k * N) p N).1)),
        pos + k * N + p * N) := by
  obtain ⟨L, hL, h1⟩ := textureRow_of h
  unfold sampleTauUUH
  rw [h1]
  simp only [NDArr.isComplex, Bool.false_eq_true, if_false, bind, Except.bind, pure, Except.pure,
    sampleNormal_eq, sqrtm_one _ (heigh _), Matrix.one_mul, dite_true, Fin.cast_refl, submatrix_id_id,
    rowTimes_of hL (fun j => Real.sqrt (t j)), arrAdd_of]

theorem sampleCTauUUH_eq (eigh : (n : ℕ) → Eigh (Fin n) ℂ) (heigh : ∀ n, (eigh n).Ok) (w : ℕ → ℝ)
    (pos N p k : ℕ) (U : Matrix (Fin p) (Fin k) ℂ) {tau : Arr ℝ} {t : Fin N → ℝ}
    (h : TexturesAre tau N t) :
    sampleCTauUUH eigh w pos tau (.cplx (.d2 p k U)) = .ok (.cplx (.d2 p N ((Matrix.of fun a j =>
      Real.sqrt (t j) • (U * (crandn w pos k N).1) a j) +
        (crandn w (pos + k * N + k * N) p N).1)), pos + k * N + k * N + p * N + p * N) := by
  obtain ⟨L, hL, h1⟩ := textureRow_of h
  unfold sampleCTauUUH
  rw [h1]
  simp only [NDArr.isComplex, Bool.true_eq_false, if_false, bind, Except.bind, pure, Except.pure,
    sampleCNormal_eq, sqrtm_one _ (heigh _), Matrix.one_mul, dite_true, Fin.cast_refl, submatrix_id_id,
    rowTimes_of hL (fun j => Real.sqrt (t j)), arrAdd_of]

theorem fromCols_mul_transpose {p k : ℕ} (s : ℝ) (hs : 0 ≤ s) (U : Matrix (Fin p) (Fin k) ℝ) :
    fromCols (Real.sqrt s • U) (1 : Matrix (Fin p) (Fin p) ℝ) *
      (fromCols (Real.sqrt s • U) (1 : Matrix (Fin p) (Fin p) ℝ))ᵀ = s • (U * Uᵀ) + 1 := by
  rw [transpose_fromCols, fromCols_mul_fromRows, transpose_smul, Matrix.smul_mul, Matrix.mul_smul,
    smul_smul, Real.mul_self_sqrt hs, transpose_one, Matrix.mul_one]

theorem fromCols_mul_conjTranspose {p k : ℕ} (s : ℝ) (hs : 0 ≤ s) (U : Matrix (Fin p) (Fin k) ℂ) :
    fromCols (Real.sqrt s • U) (1 : Matrix (Fin p) (Fin p) ℂ) *
      (fromCols (Real.sqrt s • U) (1 : Matrix (Fin p) (Fin p) ℂ))ᴴ = s • (U * Uᴴ) + 1 := by
  rw [conjTranspose_fromCols_eq_fromRows_conjTranspose, fromCols_mul_fromRows, conjTranspose_smul,
    Matrix.smul_mul, Matrix.mul_smul, smul_smul, star_trivial, Real.mul_self_sqrt hs,
    conjTranspose_one, Matrix.mul_one]

/-- `sample_tau_UUH_distribution(tau, U)`: the samples are independent and normal, the `i`-th with
covariance `tau_i * U @ U.T + I`. -/
theorem C97_real (eigh : (n : ℕ) → Eigh (Fin n) ℝ) (heigh : ∀ n, (eigh n).Ok) (pos N p k : ℕ)
    (U : Matrix (Fin p) (Fin k) ℝ) {tau : Arr ℝ} {t : Fin N → ℝ}
    (h : TexturesAre tau N t) (ht : ∀ i, 0 ≤ t i) :
    ∃ X : (ℕ → ℝ) → Matrix (Fin p) (Fin N) ℝ,
      (∀ w, ∃ pos', sampleTauUUH eigh w pos tau (.real (.d2 p k U)) =
        .ok (.real (.d2 p N (X w)), pos')) ∧
      (∀ j, NormalRow gaussSeq (fun w => sampleOf (X w) j) 0 (t j • (U * Uᵀ) + 1)) ∧
      iIndepFun (fun j w => sampleOf (X w) j) gaussSeq := by
  have key := cols_law (d := p) (N := N) (K := Fin k ⊕ Fin p)
    (fun j => Sum.elim (fun a => pos + (a * N + j)) fun a => pos + k * N + (a * N + j))
    (fun ⟨j, q⟩ ⟨j', q'⟩ h => by
      rcases q with q | q <;> rcases q' with q' | q' <;>
        simp only [Sum.elim_inl, Sum.elim_inr, add_assoc, add_right_inj] at h
      · obtain ⟨h1, h2⟩ := idx_inj j.2 j'.2 h
        rw [Fin.ext h2, Fin.ext h1]
      · have := idx_lt q.2 j.2
        omega
      · have := idx_lt q'.2 j'.2
        omega
      · obtain ⟨h1, h2⟩ := idx_inj j.2 j'.2 h
        rw [Fin.ext h2, Fin.ext h1])
    (fun j => fromCols (Real.sqrt (t j) • U) 1) (fun w => (Matrix.of fun a j =>
      Real.sqrt (t j) • (U * (randn w pos k N).1) a j) + (randn w (pos + k * N) p N).1)
    (fun w j => by
      have e : ∀ f g : ℕ → ℕ, (fun q : Fin k ⊕ Fin p => w (Sum.elim (fun a : Fin k => f a)
          (fun a : Fin p => g a) q)) =
          Sum.elim (fun a : Fin k => w (f a)) fun a : Fin p => w (g a) := fun f g => by
        funext q; rcases q with q | q <;> rfl
      rw [e (fun a => pos + (a * N + j)) (fun a => pos + k * N + (a * N + j)),
        fromCols_mulVec, Matrix.one_mulVec, smul_mulVec]
      funext a
      simp [sampleOf, Matrix.mul_apply, randn, mulVec, dotProduct])
  simp only [fromCols_mul_transpose _ (ht _)] at key
  exact ⟨_, fun w => ⟨_, sampleTauUUH_eq eigh heigh w pos N p k U h⟩, key⟩

/-- `sample_complex_tau_UUH_distribution(tau, U)`: independent circular complex normal samples, the
`i`-th with covariance `tau_i * U @ U.conj().T + I`. -/
theorem C97_complex (eigh : (n : ℕ) → Eigh (Fin n) ℂ) (heigh : ∀ n, (eigh n).Ok) (pos N p k : ℕ)
    (U : Matrix (Fin p) (Fin k) ℂ) {tau : Arr ℝ} {t : Fin N → ℝ}
    (h : TexturesAre tau N t) (ht : ∀ i, 0 ≤ t i) :
    ∃ X : (ℕ → ℝ) → Matrix (Fin p) (Fin N) ℂ,
      (∀ w, ∃ pos', sampleCTauUUH eigh w pos tau (.cplx (.d2 p k U)) =
        .ok (.cplx (.d2 p N (X w)), pos')) ∧
      (∀ j, CNormalRow gaussSeq (fun w => sampleOf (X w) j) 0 (t j • (U * Uᴴ) + 1)) ∧
      iIndepFun (fun j w => sampleOf (X w) j) gaussSeq := by
  have key := ccols_law (d := p) (N := N) (K := Fin k ⊕ Fin p)
    (fun j => Sum.elim
      (Sum.elim (fun a => pos + (a * N + j)) fun a => pos + k * N + k * N + (a * N + j))
      (Sum.elim (fun a => pos + k * N + (a * N + j))
        fun a => pos + k * N + k * N + p * N + (a * N + j)))
    (fun ⟨j, q⟩ ⟨j', q'⟩ h => by
      rcases q with (q | q) | (q | q) <;> rcases q' with (q' | q') | (q' | q') <;>
        simp only [Sum.elim_inl, Sum.elim_inr, add_assoc, add_right_inj] at h
      all_goals
        have l1 := idx_lt q.2 j.2
        have l2 := idx_lt q'.2 j'.2
        first
        | (obtain ⟨h1, h2⟩ := idx_inj j.2 j'.2 h
           rw [Fin.ext h2, Fin.ext h1])
        | omega)
    (fun j => fromCols (Real.sqrt (t j) • U) 1) (fun w => (Matrix.of fun a j =>
      Real.sqrt (t j) • (U * (crandn w pos k N).1) a j) + (crandn w (pos + k * N + k * N) p N).1)
    (fun w j => by
      have e : ∀ v : Fin k ⊕ Fin p → ℂ, fromCols (Real.sqrt (t j) • U) 1 *ᵥ v =
          Real.sqrt (t j) • (U *ᵥ fun a => v (.inl a)) + fun a => v (.inr a) := fun v => by
        have : v = Sum.elim (fun a => v (.inl a)) fun a => v (.inr a) := by
          funext q; rcases q with q | q <;> rfl
        conv_lhs => rw [this]
        rw [fromCols_mulVec, Matrix.one_mulVec, smul_mulVec]
        rfl
      rw [e]
      funext a
      simp [sampleOf, Matrix.mul_apply, randn, crandn, mulVec, dotProduct])
  simp only [fromCols_mul_conjTranspose _ (ht _)] at key
  exact ⟨_, fun w => ⟨_, sampleCTauUUH_eq eigh heigh w pos N p k U h⟩, key⟩

end RS
