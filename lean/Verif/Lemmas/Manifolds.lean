import Verif.Model.Manifolds
import Verif.Lemmas.MatFun
import Verif.Props.Linalg

/- Helper lemmas about Hermitian positive definite matrices as a manifold. -/
set_option autoImplicit false

namespace RS
open Matrix ComplexOrder

section One
variable {n : ℕ}

theorem multiherm_apply {k : ℕ} (A : Stack n k) (i : Fin k) :
    multiherm A i = (1 / 2 : ℂ) • (A i + (A i)ᴴ) := rfl

theorem herm_isHermitian (A : Matrix (Fin n) (Fin n) ℂ) :
    ((1 / 2 : ℂ) • (A + Aᴴ)).IsHermitian := by
  unfold Matrix.IsHermitian
  rw [conjTranspose_smul, conjTranspose_add, conjTranspose_conjTranspose, add_comm]
  congr 1
  simp

theorem herm_of_isHermitian {A : Matrix (Fin n) (Fin n) ℂ} (h : A.IsHermitian) :
    (1 / 2 : ℂ) • (A + Aᴴ) = A := by
  rw [h.eq, ← two_smul ℂ A, smul_smul]
  norm_num

theorem multiherm_of_isHermitian {k : ℕ} {A : Stack n k} (h : ∀ i, (A i).IsHermitian) :
    multiherm A = A := funext fun i => by rw [multiherm_apply, herm_of_isHermitian (h i)]

theorem multiherm_isHermitian {k : ℕ} (A : Stack n k) (i : Fin k) : (multiherm A i).IsHermitian := by
  rw [multiherm_apply]; exact herm_isHermitian _

theorem posDef_congr_unit {x W : Matrix (Fin n) (Fin n) ℂ} (hx : x.PosDef) (hW : IsUnit W) :
    (W * x * Wᴴ).PosDef :=
  hx.mul_mul_conjTranspose_same (Matrix.vecMul_injective_of_isUnit hW)

/-- `∑ a b, ‖A a b‖² = tr (A Aᴴ)`. -/
theorem frobSq_eq (A : Matrix (Fin n) (Fin n) ℂ) :
    ∑ a, ∑ b, ‖A a b‖ ^ 2 = (A * Aᴴ).trace.re := by
  simp only [Matrix.trace, diag_apply, Matrix.mul_apply, conjTranspose_apply, Complex.re_sum]
  refine Finset.sum_congr rfl fun a _ => Finset.sum_congr rfl fun b _ => ?_
  rw [Complex.star_def, Complex.mul_conj, Complex.ofReal_re, Complex.normSq_eq_norm_sq]

theorem frobSq_eq' (A : Matrix (Fin n) (Fin n) ℂ) :
    ∑ a, ∑ b, ‖A a b‖ ^ 2 = (Aᴴ * A).trace.re := by rw [frobSq_eq, trace_mul_comm]

theorem frobSq_nonneg (A : Matrix (Fin n) (Fin n) ℂ) : 0 ≤ ∑ a, ∑ b, ‖A a b‖ ^ 2 := by positivity

theorem frobSq_eq_zero {A : Matrix (Fin n) (Fin n) ℂ} (h : ∑ a, ∑ b, ‖A a b‖ ^ 2 = 0) : A = 0 := by
  ext a b
  rw [Finset.sum_eq_zero_iff_of_nonneg fun a _ => by positivity] at h
  have h1 := h a (Finset.mem_univ a)
  rw [Finset.sum_eq_zero_iff_of_nonneg fun b _ => by positivity] at h1
  simpa using h1 b (Finset.mem_univ b)

/-- The square root of a positive definite matrix and its inverse. -/
structure Root (x S R : Matrix (Fin n) (Fin n) ℂ) : Prop where
  sq : S * S = x
  left : R * S = 1
  right : S * R = 1
  hS : S.IsHermitian
  hR : R.IsHermitian

theorem Root.inv {x S R : Matrix (Fin n) (Fin n) ℂ} (h : Root x S R) : x⁻¹ = R * R := by
  apply inv_eq_left_inv
  calc R * R * x = R * (R * S) * S := by rw [← h.sq]; simp only [mul_assoc]
    _ = 1 := by rw [h.left, mul_one, h.left]

theorem Root.isUnit {x S R : Matrix (Fin n) (Fin n) ℂ} (h : Root x S R) : IsUnit S :=
  ⟨⟨S, R, h.right, h.left⟩, rfl⟩
theorem Root.isUnit' {x S R : Matrix (Fin n) (Fin n) ℂ} (h : Root x S R) : IsUnit R :=
  ⟨⟨R, S, h.left, h.right⟩, rfl⟩

theorem root_of_eigh {eigh : Eigh (Fin n) ℂ} (hs : eigh.Ok) {x : Matrix (Fin n) (Fin n) ℂ}
    (hx : x.PosDef) : Root x (matrixOperator eigh Real.sqrt x)
      (matrixOperator eigh (fun d => 1 / Real.sqrt d) x) where
  sq := C08_sqrtm_mul_self eigh hs x hx.posSemidef
  left := (C08_invsqrtm_mul_sqrtm eigh hs x hx).1
  right := (C08_invsqrtm_mul_sqrtm eigh hs x hx).2
  hS := (C08_sqrtm_posDef eigh hs x hx).1
  hR := (C08_invsqrtm_posDef eigh hs x hx).1

theorem exists_root {x : Matrix (Fin n) (Fin n) ℂ} (hx : x.PosDef) : ∃ S R, Root x S R := by
  obtain ⟨e, he⟩ := eigh_exists (ι := Fin n) (𝕜 := ℂ)
  exact ⟨_, _, root_of_eigh he hx⟩

/-- `R A R` for Hermitian `R`. -/
theorem isHermitian_sandwich {R A : Matrix (Fin n) (Fin n) ℂ} (hR : R.IsHermitian)
    (hA : A.IsHermitian) : (R * A * R).IsHermitian := by
  have := isHermitian_mul_mul_conjTranspose R hA
  rwa [hR.eq] at this

theorem posDef_sandwich {R A : Matrix (Fin n) (Fin n) ℂ} (hR : R.IsHermitian) (hu : IsUnit R)
    (hA : A.PosDef) : (R * A * R).PosDef := by
  have := posDef_congr_unit hA hu
  rwa [hR.eq] at this

/-- `tr(x⁻¹ u x⁻¹ v)` through the root. -/
theorem Root.trace_eq {x S R : Matrix (Fin n) (Fin n) ℂ} (h : Root x S R)
    (u v : Matrix (Fin n) (Fin n) ℂ) :
    (x⁻¹ * u * (x⁻¹ * v)).trace = (R * u * R * (R * v * R)).trace := by
  rw [h.inv]
  calc (R * R * u * (R * R * v)).trace = (R * (R * u * R * (R * v))).trace := by
        simp only [mul_assoc]
    _ = (R * u * R * (R * v) * R).trace := trace_mul_comm _ _
    _ = _ := by simp only [mul_assoc]

end One

variable {n k : ℕ}

theorem hpd_inner_eq (x u v : Stack n k) :
    HPD.inner x u v = ∑ i, ((x i)⁻¹ * u i * ((x i)⁻¹ * v i)).trace.re := by
  simp only [HPD.inner, Complex.re_sum]
  refine Finset.sum_congr rfl fun i _ => ?_
  rw [Matrix.trace, Complex.re_sum]
  refine Finset.sum_congr rfl fun a _ => ?_
  rw [diag_apply, Matrix.mul_apply, Complex.re_sum]
  exact Finset.sum_congr rfl fun b _ => by rw [transpose_apply]

theorem hpd_exp_eq {eigh : Eigh (Fin n) ℂ} (hs : eigh.Ok) {x u : Stack n k}
    (hx : ∀ i, (x i).PosDef) (hu : ∀ i, (u i).IsHermitian) (i : Fin k) :
    HPD.exp eigh x u i = matrixOperator eigh Real.sqrt (x i) *
      expm eigh (matrixOperator eigh (fun d => 1 / Real.sqrt d) (x i) * u i *
        matrixOperator eigh (fun d => 1 / Real.sqrt d) (x i)) * matrixOperator eigh Real.sqrt (x i) := by
  have h := root_of_eigh hs (hx i)
  simp only [HPD.exp]
  rw [multiherm_apply]
  exact herm_of_isHermitian (isHermitian_sandwich h.hS
    (C08_expm_posDef eigh hs _ (isHermitian_sandwich h.hR (hu i))).1)

theorem hpd_log_eq {eigh : Eigh (Fin n) ℂ} (hs : eigh.Ok) {x y : Stack n k}
    (hx : ∀ i, (x i).PosDef) (hy : ∀ i, (y i).IsHermitian) (i : Fin k) :
    HPD.log eigh x y i = matrixOperator eigh Real.sqrt (x i) *
      logm eigh (matrixOperator eigh (fun d => 1 / Real.sqrt d) (x i) * y i *
        matrixOperator eigh (fun d => 1 / Real.sqrt d) (x i)) * matrixOperator eigh Real.sqrt (x i) := by
  have h := root_of_eigh hs (hx i)
  simp only [HPD.log]
  rw [multiherm_apply]
  exact herm_of_isHermitian (isHermitian_sandwich h.hS
    (C08_logm_isHermitian eigh hs _ (isHermitian_sandwich h.hR (hy i))))

/-- Two principal square roots of the same matrix agree when one of them is diagonalisable with
positive eigenvalues. -/
theorem IsPrincipalSqrt.unique {M E F P Q : Matrix (Fin n) (Fin n) ℂ} (hE : IsPrincipalSqrt M E)
    (hF : F * F = M) (d : Fin n → ℝ) (hd : ∀ i, 0 < d i) (hPQ : P * Q = 1)
    (hFd : F = P * diagonal (fun i => (d i : ℂ)) * Q) : E = F := by
  have hQP : Q * P = 1 := mul_eq_one_comm.1 hPQ
  set X := E - F with hX
  have h1 : E * X = -(X * F) := by
    have : E * E = F * F := hE.sq.trans hF.symm
    rw [hX, mul_sub, sub_mul, this]
    abel
  have h2 : F * P = P * diagonal (fun i => (d i : ℂ)) := by
    rw [hFd, mul_assoc, hQP, mul_one]
  have h3 : X * P = 0 := by
    ext a b
    by_contra hne
    have hv : (X * P).col b ≠ 0 := fun h => hne (by simpa using congrFun h a)
    have hev : E *ᵥ (X * P).col b = (-(d b : ℂ)) • (X * P).col b := by
      have : E * (X * P) = -(X * P * diagonal (fun i => (d i : ℂ))) := by
        rw [← mul_assoc, h1, neg_mul, mul_assoc X F P, h2, mul_assoc]
      ext c
      have h4 := congrFun (congrFun this c) b
      rw [Matrix.neg_apply, mul_diagonal] at h4
      simp only [Pi.smul_apply, smul_eq_mul, col_apply]
      rw [show (E *ᵥ (X * P).col b) c = (E * (X * P)) c b from rfl, h4]
      ring
    have := hE.right _ _ hv hev
    simp at this
    linarith [hd b]
  have h5 : X = 0 := by
    calc X = X * (P * Q) := by rw [hPQ, mul_one]
      _ = 0 := by rw [← mul_assoc, h3, zero_mul]
  exact sub_eq_zero.1 h5

/-- The square root taken by `transp`: `E = S P S⁻¹` with `P` positive definite and
`P P = S⁻¹ x2 S⁻¹`. -/
theorem transp_root {sq : Matrix (Fin n) (Fin n) ℂ → Matrix (Fin n) (Fin n) ℂ} (hsq : SqrtmOk sq)
    {x1 x2 : Matrix (Fin n) (Fin n) ℂ} (h1 : x1.PosDef) (h2 : x2.PosDef) :
    ∃ S R P, Root x1 S R ∧ P.PosDef ∧ P * P = R * x2 * R ∧
      sq (((x1ᴴ)⁻¹ * x2ᴴ)ᴴ) = S * P * R := by
  obtain ⟨S, R, hr⟩ := exists_root h1
  have hY : (R * x2 * R).PosDef := posDef_sandwich hr.hR hr.isUnit' h2
  obtain ⟨e, he⟩ := eigh_exists (ι := Fin n) (𝕜 := ℂ)
  set P := sqrtm e (R * x2 * R) with hP
  have hPP : P * P = R * x2 * R := C08_sqrtm_mul_self e he _ hY.posSemidef
  have hPd : P.PosDef := C08_sqrtm_posDef e he _ hY
  have hM : ((x1ᴴ)⁻¹ * x2ᴴ)ᴴ = x2 * x1⁻¹ := by
    rw [conjTranspose_mul, conjTranspose_nonsing_inv, conjTranspose_conjTranspose,
      conjTranspose_conjTranspose]
  have hsqF : S * P * R * (S * P * R) = x2 * x1⁻¹ := by
    calc S * P * R * (S * P * R) = S * P * (R * S) * P * R := by simp only [mul_assoc]
      _ = S * (P * P) * R := by rw [hr.left]; simp only [mul_assoc, mul_one]
      _ = (S * R) * x2 * (R * R) := by rw [hPP]; simp only [mul_assoc]
      _ = x2 * x1⁻¹ := by rw [hr.right, Matrix.one_mul, hr.inv]
  have hv := he P hPd.1
  have hdec : S * P * R = (S * (e P).vecs) * diagonal (fun i => ((e P).vals i : ℂ)) *
      ((e P).vecsᴴ * R) := by
    conv_lhs => rw [hv.decomp]
    simp only [mul_assoc]
    rfl
  have hPQ : (S * (e P).vecs) * ((e P).vecsᴴ * R) = 1 := by
    calc (S * (e P).vecs) * ((e P).vecsᴴ * R) = S * ((e P).vecs * (e P).vecsᴴ) * R := by
          simp only [mul_assoc]
      _ = 1 := by rw [hv.unitary', mul_one, hr.right]
  have hQP := mul_eq_one_comm.1 hPQ
  have hprin : IsPrincipalSqrt (x2 * x1⁻¹) (S * P * R) := by
    refine ⟨hsqF, fun c v hv0 hcv => ?_⟩
    set Q := (e P).vecsᴴ * R
    have hq : Q *ᵥ v ≠ 0 := by
      intro h0
      apply hv0
      have := congrArg (fun z => (S * (e P).vecs) *ᵥ z) h0
      simp only [mulVec_mulVec, hPQ, one_mulVec, mulVec_zero] at this
      exact this
    have h3 : diagonal (fun i => ((e P).vals i : ℂ)) *ᵥ (Q *ᵥ v) = c • (Q *ᵥ v) := by
      rw [← mulVec_smul, ← hcv, hdec, mulVec_mulVec, mulVec_mulVec]
      congr 1
      rw [← mul_assoc Q, ← mul_assoc Q, hQP, Matrix.one_mul]
    obtain ⟨i, hi⟩ := Function.ne_iff.1 hq
    have h4 := congrFun h3 i
    rw [mulVec_diagonal, Pi.smul_apply, smul_eq_mul] at h4
    have h5 : ((e P).vals i : ℂ) = c := mul_right_cancel₀ hi h4
    rw [← h5, Complex.ofReal_re]
    exact hv.vals_pos hPd i
  refine ⟨S, R, P, hr, hPd, hPP, ?_⟩
  rw [hM]
  exact (hsq _ ⟨_, hprin⟩).unique hsqF _ (fun i => hv.vals_pos hPd i) hPQ hdec

end RS
