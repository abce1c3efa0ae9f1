import Verif.Lemmas.Manifolds
import Verif.Spec.Manifolds

/-
The manifolds of Hermitian positive definite matrices, C52 to C56.
-/
set_option autoImplicit false

namespace RS
open Matrix ComplexOrder
variable {n k : ℕ}

/-! ## C52 -/

theorem C52_retr_posDef (x u : Stack n k) (hx : ∀ i, (x i).PosDef) (hu : ∀ i, (u i).IsHermitian)
    (i : Fin k) : (HPD.retr x u i).PosDef := by
  have hxi := hx i
  have h1 : (x i)⁻¹ * x i = 1 := nonsing_inv_mul _ ((isUnit_iff_isUnit_det _).1 hxi.isUnit)
  have h2 : x i * (x i)⁻¹ = 1 := mul_nonsing_inv _ ((isUnit_iff_isUnit_det _).1 hxi.isUnit)
  have e : HPD.retr x u i = (1 / 2 : ℂ) • x i +
      (1 / 2 : ℂ) • ((x i + u i)ᴴ * (x i)⁻¹ * (x i + u i)) := by
    rw [conjTranspose_add, hxi.1.eq, (hu i).eq, add_mul, h2, add_mul, mul_add, mul_add,
      Matrix.one_mul, Matrix.one_mul, mul_assoc (u i), mul_assoc (u i), h1, mul_one]
    simp only [HPD.retr, smul_mul_assoc, smul_add]
    have : (1 / 2 : ℂ) + 1 / 2 = 1 := by norm_num
    calc _ = ((1 / 2 : ℂ) + 1 / 2) • x i + ((1 / 2 : ℂ) + 1 / 2) • u i +
          (1 / 2 : ℂ) • (u i * ((x i)⁻¹ * u i)) := by rw [this, one_smul, one_smul]
      _ = _ := by rw [add_smul, add_smul]; abel
  rw [e]
  have hc : (0 : ℂ) < 1 / 2 := by
    rw [Complex.lt_def]; norm_num
  exact (hxi.smul hc).add_posSemidef
    ((hxi.inv.posSemidef.conjTranspose_mul_mul_same _).smul hc.le)

/-- A concrete point and tangent vector; `u` is indefinite and large. -/
example : (1 : Matrix (Fin 2) (Fin 2) ℂ).PosDef ∧
    (!![-5, Complex.I; -Complex.I, 7] : Matrix (Fin 2) (Fin 2) ℂ).IsHermitian := by
  refine ⟨PosDef.one, ?_⟩
  ext i j; fin_cases i <;> fin_cases j <;> simp

/-! ## C53 -/

theorem C53_exp_posDef (eigh : Eigh (Fin n) ℂ) (hs : eigh.Ok) (x u : Stack n k)
    (hx : ∀ i, (x i).PosDef) (hu : ∀ i, (u i).IsHermitian) (i : Fin k) :
    (HPD.exp eigh x u i).PosDef := by
  have h := root_of_eigh hs (hx i)
  rw [hpd_exp_eq hs hx hu]
  exact posDef_sandwich h.hS h.isUnit
    (C08_expm_posDef eigh hs _ (isHermitian_sandwich h.hR (hu i)))

/-- Whatever `y` is, `log` returns Hermitian matrices. -/
theorem C53_log_isHermitian (eigh : Eigh (Fin n) ℂ) (x y : Stack n k) (i : Fin k) :
    (HPD.log eigh x y i).IsHermitian := multiherm_isHermitian _ i

theorem C53_exp_log (eigh : Eigh (Fin n) ℂ) (hs : eigh.Ok) (x y : Stack n k)
    (hx : ∀ i, (x i).PosDef) (hy : ∀ i, (y i).PosDef) :
    HPD.exp eigh x (HPD.log eigh x y) = y := by
  funext i
  have h := root_of_eigh hs (hx i)
  rw [hpd_exp_eq hs hx (C53_log_isHermitian eigh x y), hpd_log_eq hs hx fun i => (hy i).1]
  set S := matrixOperator eigh Real.sqrt (x i)
  set R := matrixOperator eigh (fun d => 1 / Real.sqrt d) (x i)
  have e : ∀ L, R * (S * L * S) * R = L := fun L => by
    calc R * (S * L * S) * R = (R * S) * L * (S * R) := by simp only [mul_assoc]
      _ = L := by rw [h.left, h.right, mul_one, Matrix.one_mul]
  rw [e, C08_expm_logm eigh hs _ (posDef_sandwich h.hR h.isUnit' (hy i))]
  calc S * (R * y i * R) * S = (S * R) * y i * (R * S) := by simp only [mul_assoc]
    _ = y i := by rw [h.left, h.right, mul_one, Matrix.one_mul]

theorem C53_log_exp (eigh : Eigh (Fin n) ℂ) (hs : eigh.Ok) (x u : Stack n k)
    (hx : ∀ i, (x i).PosDef) (hu : ∀ i, (u i).IsHermitian) :
    HPD.log eigh x (HPD.exp eigh x u) = u := by
  funext i
  have h := root_of_eigh hs (hx i)
  rw [hpd_log_eq hs hx fun i => (C53_exp_posDef eigh hs x u hx hu i).1, hpd_exp_eq hs hx hu]
  set S := matrixOperator eigh Real.sqrt (x i)
  set R := matrixOperator eigh (fun d => 1 / Real.sqrt d) (x i)
  have e : ∀ L, R * (S * L * S) * R = L := fun L => by
    calc R * (S * L * S) * R = (R * S) * L * (S * R) := by simp only [mul_assoc]
      _ = L := by rw [h.left, h.right, mul_one, Matrix.one_mul]
  rw [e, C08_logm_expm eigh hs _ (isHermitian_sandwich h.hR (hu i))]
  calc S * (R * u i * R) * S = (S * R) * u i * (R * S) := by simp only [mul_assoc]
    _ = u i := by rw [h.left, h.right, mul_one, Matrix.one_mul]

/-- The results do not depend on which eigendecompositions are returned. -/
theorem C53_solver_independent (e₁ e₂ : Eigh (Fin n) ℂ) (h₁ : e₁.Ok) (h₂ : e₂.Ok) (x u y : Stack n k)
    (hx : ∀ i, (x i).PosDef) (hu : ∀ i, (u i).IsHermitian) (hy : ∀ i, (y i).PosDef) :
    HPD.exp e₁ x u = HPD.exp e₂ x u ∧ HPD.log e₁ x y = HPD.log e₂ x y := by
  have hop : ∀ (A : Matrix (Fin n) (Fin n) ℂ), A.IsHermitian → ∀ f,
      matrixOperator e₁ f A = matrixOperator e₂ f A := fun A hA f =>
    C07_operator_independent_of_solver e₁ e₂ A (h₁ A hA) (h₂ A hA) f
  constructor
  · funext i
    have h := root_of_eigh h₂ (hx i)
    rw [hpd_exp_eq h₁ hx hu, hpd_exp_eq h₂ hx hu]
    simp only [hop _ (hx i).1, expm]
    rw [hop _ (isHermitian_sandwich h.hR (hu i))]
  · funext i
    have h := root_of_eigh h₂ (hx i)
    rw [hpd_log_eq h₁ hx fun i => (hy i).1, hpd_log_eq h₂ hx fun i => (hy i).1]
    simp only [hop _ (hx i).1, logm]
    rw [hop _ (isHermitian_sandwich h.hR (hy i).1)]

/-! ## C54 -/

theorem C54_symm (x u v : Stack n k) : HPD.inner x u v = HPD.inner x v u := by
  rw [hpd_inner_eq, hpd_inner_eq]
  exact Finset.sum_congr rfl fun i _ => by rw [trace_mul_comm]

theorem C54_bilinear (x u u' v : Stack n k) (c : ℝ) :
    HPD.inner x ((c : ℂ) • u + u') v = c * HPD.inner x u v + HPD.inner x u' v := by
  rw [hpd_inner_eq, hpd_inner_eq, hpd_inner_eq, Finset.mul_sum, ← Finset.sum_add_distrib]
  refine Finset.sum_congr rfl fun i _ => ?_
  simp only [Pi.add_apply, Pi.smul_apply, mul_add, add_mul, trace_add, Complex.add_re,
    mul_smul_comm, smul_mul_assoc, trace_smul, smul_eq_mul, Complex.re_ofReal_mul]

theorem inner_self_eq {x u : Matrix (Fin n) (Fin n) ℂ} {S R : Matrix (Fin n) (Fin n) ℂ}
    (h : Root x S R) (hu : u.IsHermitian) :
    (x⁻¹ * u * (x⁻¹ * u)).trace.re = ∑ a, ∑ b, ‖(R * u * R) a b‖ ^ 2 := by
  rw [h.trace_eq, frobSq_eq, (isHermitian_sandwich h.hR hu).eq]

theorem C54_posDef (x u : Stack n k) (hx : ∀ i, (x i).PosDef) (hu : ∀ i, (u i).IsHermitian) :
    0 ≤ HPD.inner x u u ∧ (HPD.inner x u u = 0 ↔ u = 0) := by
  rw [hpd_inner_eq]
  have hnn : ∀ i, 0 ≤ ((x i)⁻¹ * u i * ((x i)⁻¹ * u i)).trace.re := fun i => by
    obtain ⟨S, R, h⟩ := exists_root (hx i)
    rw [inner_self_eq h (hu i)]
    exact frobSq_nonneg _
  refine ⟨Finset.sum_nonneg fun i _ => hnn i, fun h0 => ?_, fun h0 => ?_⟩
  · funext i
    have h1 := (Finset.sum_eq_zero_iff_of_nonneg fun i _ => hnn i).1 h0 i (Finset.mem_univ i)
    obtain ⟨S, R, h⟩ := exists_root (hx i)
    rw [inner_self_eq h (hu i)] at h1
    have h2 := frobSq_eq_zero h1
    calc u i = (S * R) * u i * (R * S) := by rw [h.right, h.left, Matrix.one_mul, mul_one]
      _ = S * (R * u i * R) * S := by simp only [mul_assoc]
      _ = 0 := by rw [h2]; simp
  · subst h0
    simp

/-- Invariance under congruence. -/
theorem C54_congruence (x u v W : Stack n k) (hW : ∀ i, IsUnit (W i)) :
    HPD.inner (fun i => W i * x i * (W i)ᴴ) (fun i => W i * u i * (W i)ᴴ)
      (fun i => W i * v i * (W i)ᴴ) = HPD.inner x u v := by
  rw [hpd_inner_eq, hpd_inner_eq]
  refine Finset.sum_congr rfl fun i _ => ?_
  congr 1
  have hd : IsUnit (W i).det := (isUnit_iff_isUnit_det _).1 (hW i)
  have hWi : (W i)⁻¹ * W i = 1 := nonsing_inv_mul _ hd
  have hWh : (W i)ᴴ * ((W i)ᴴ)⁻¹ = 1 := mul_nonsing_inv _ (by rw [det_conjTranspose]; exact hd.star)
  have hWh' : ((W i)ᴴ)⁻¹ * (W i)ᴴ = 1 := mul_eq_one_comm.1 hWh
  have e : (W i * x i * (W i)ᴴ)⁻¹ = ((W i)ᴴ)⁻¹ * (x i)⁻¹ * (W i)⁻¹ := by
    rw [Matrix.mul_inv_rev, Matrix.mul_inv_rev, mul_assoc]
  have key : ∀ w : Matrix (Fin n) (Fin n) ℂ, ((W i)ᴴ)⁻¹ * (x i)⁻¹ * (W i)⁻¹ * (W i * w * (W i)ᴴ) =
      ((W i)ᴴ)⁻¹ * ((x i)⁻¹ * w) * (W i)ᴴ := fun w => by
    calc _ = ((W i)ᴴ)⁻¹ * (x i)⁻¹ * ((W i)⁻¹ * W i) * w * (W i)ᴴ := by simp only [mul_assoc]
      _ = _ := by rw [hWi]; simp only [mul_assoc, mul_one]
  rw [e, key, key]
  calc (((W i)ᴴ)⁻¹ * ((x i)⁻¹ * u i) * (W i)ᴴ * (((W i)ᴴ)⁻¹ * ((x i)⁻¹ * v i) * (W i)ᴴ)).trace
      = (((W i)ᴴ)⁻¹ * ((x i)⁻¹ * u i * ((W i)ᴴ * ((W i)ᴴ)⁻¹) * ((x i)⁻¹ * v i) * (W i)ᴴ)).trace := by
        simp only [mul_assoc]
    _ = (((x i)⁻¹ * u i * ((x i)⁻¹ * v i)) * ((W i)ᴴ * ((W i)ᴴ)⁻¹)).trace := by
        rw [trace_mul_comm, hWh]; simp only [mul_assoc, mul_one, hWh]
    _ = _ := by rw [hWh, mul_one]

/-- `norm` is the norm of `inner`, for every valid Cholesky factor. -/
theorem C54_norm (chol : Matrix (Fin n) (Fin n) ℂ → Matrix (Fin n) (Fin n) ℂ) (hc : CholOk chol)
    (x u : Stack n k) (hx : ∀ i, (x i).PosDef) (hu : ∀ i, (u i).IsHermitian) :
    0 ≤ HPD.norm chol x u ∧ HPD.norm chol x u ^ 2 = HPD.inner x u u := by
  refine ⟨Real.sqrt_nonneg _, ?_⟩
  rw [HPD.norm, Real.sq_sqrt (Finset.sum_nonneg fun i _ => frobSq_nonneg _), hpd_inner_eq]
  refine Finset.sum_congr rfl fun i _ => ?_
  rw [frobSq_eq]
  congr 1
  set c := chol (x i)
  have hx' : c * cᴴ = x i := hc _ (hx i)
  have e : (x i)⁻¹ = (c⁻¹)ᴴ * c⁻¹ := by
    rw [← hx', Matrix.mul_inv_rev, conjTranspose_nonsing_inv]
  rw [e]
  simp only [conjTranspose_mul, conjTranspose_conjTranspose, (hu i).eq]
  calc (c⁻¹ * u i * (c⁻¹)ᴴ * (c⁻¹ * (u i * (c⁻¹)ᴴ))).trace
      = (c⁻¹ * u i * (c⁻¹)ᴴ * c⁻¹ * u i * (c⁻¹)ᴴ).trace := by simp only [mul_assoc]
    _ = ((c⁻¹)ᴴ * (c⁻¹ * u i * (c⁻¹)ᴴ * c⁻¹ * u i)).trace := by rw [trace_mul_comm]
    _ = _ := by simp only [mul_assoc]

/-- `egrad2rgrad` is the Riemannian gradient: its inner product with a tangent vector `v` is the
real Euclidean inner product of the Euclidean gradient `g` with `v`. -/
theorem C54_gradient (x g v : Stack n k) (hx : ∀ i, (x i).PosDef) (hv : ∀ i, (v i).IsHermitian) :
    (∀ i, (HPD.egrad2rgrad x g i).IsHermitian) ∧
    HPD.inner x (HPD.egrad2rgrad x g) v =
      euclid g v := by
  unfold euclid
  constructor
  · intro i
    exact isHermitian_sandwich (hx i).1 (multiherm_isHermitian g i)
  · rw [hpd_inner_eq]
    refine Finset.sum_congr rfl fun i _ => ?_
    have hd := (isUnit_iff_isUnit_det _).1 (hx i).isUnit
    have e : (x i)⁻¹ * HPD.egrad2rgrad x g i * ((x i)⁻¹ * v i) = multiherm g i * v i := by
      calc _ = ((x i)⁻¹ * x i) * multiherm g i * (x i * (x i)⁻¹) * v i := by
            simp only [HPD.egrad2rgrad, mul_assoc]
        _ = _ := by rw [nonsing_inv_mul _ hd, mul_nonsing_inv _ hd, mul_one, Matrix.one_mul]
    rw [e, multiherm_apply, smul_mul_assoc, trace_smul, add_mul, trace_add]
    have e2 : (g i * v i).trace = star ((g i)ᴴ * v i).trace := by
      rw [← trace_conjTranspose, conjTranspose_mul, conjTranspose_conjTranspose, (hv i).eq,
        trace_mul_comm]
    have e3 : ((g i)ᴴ * v i).trace.re =
        ∑ a, ∑ b, ((g i a b).re * (v i a b).re + (g i a b).im * (v i a b).im) := by
      rw [Matrix.trace, Complex.re_sum, Finset.sum_comm]
      refine Finset.sum_congr rfl fun a _ => ?_
      rw [diag_apply, Matrix.mul_apply, Complex.re_sum]
      refine Finset.sum_congr rfl fun b _ => ?_
      simp [conjTranspose_apply, Complex.mul_re]
    rw [e2, ← e3]
    simp [Complex.add_re]
    ring

/-- `randvec` has unit norm, unless the draw is anti-Hermitian. -/
theorem C54_randvec_unit (chol : Matrix (Fin n) (Fin n) ℂ → Matrix (Fin n) (Fin n) ℂ)
    (hc : CholOk chol) (x draw : Stack n k) (hx : ∀ i, (x i).PosDef) (hd : multiherm draw ≠ 0) :
    (∀ i, (HPD.randvec chol x draw i).IsHermitian) ∧ HPD.norm chol x (HPD.randvec chol x draw) = 1 := by
  have hh : ∀ i, (multiherm draw i).IsHermitian := multiherm_isHermitian draw
  obtain ⟨h0, h1⟩ := C54_norm chol hc x _ hx hh
  have hpos : 0 < HPD.inner x (multiherm draw) (multiherm draw) :=
    lt_of_le_of_ne (C54_posDef x _ hx hh).1 fun h => hd ((C54_posDef x _ hx hh).2.1 h.symm)
  have hn : HPD.norm chol x (multiherm draw) ≠ 0 := fun h => by
    rw [h] at h1; norm_num at h1; exact hpos.ne h1
  have hrv : HPD.randvec chol x draw =
      (((HPD.norm chol x (multiherm draw))⁻¹ : ℝ) : ℂ) • multiherm draw := by
    funext i
    simp [HPD.randvec]
  have hherm : ∀ i, (HPD.randvec chol x draw i).IsHermitian := fun i => by
    rw [hrv, Pi.smul_apply, IsHermitian, conjTranspose_smul, (hh i).eq]
    simp
  refine ⟨hherm, ?_⟩
  obtain ⟨h0', h1'⟩ := C54_norm chol hc x _ hx hherm
  have h2 : HPD.inner x (HPD.randvec chol x draw) (HPD.randvec chol x draw) = 1 := by
    have hb := fun v => C54_bilinear x (multiherm draw) 0 v (HPD.norm chol x (multiherm draw))⁻¹
    have hz : ∀ v, HPD.inner x 0 v = 0 := fun v => by rw [hpd_inner_eq]; simp
    simp only [add_zero, hz] at hb
    rw [hrv, hb, C54_symm, hb, ← h1]
    field_simp
  rw [h2] at h1'
  nlinarith

/-- The contract on `cholesky` can be met. -/
example : ∃ chol : Matrix (Fin n) (Fin n) ℂ → Matrix (Fin n) (Fin n) ℂ, CholOk chol := by
  obtain ⟨e, he⟩ := eigh_exists (ι := Fin n) (𝕜 := ℂ)
  refine ⟨fun x => sqrtm e x, fun x hx => ?_⟩
  rw [(C08_sqrtm_posDef e he x hx).1.eq]
  exact C08_sqrtm_mul_self e he x hx.posSemidef

/-! ## C55 -/

theorem C55_isHermitian (sq : Matrix (Fin n) (Fin n) ℂ → Matrix (Fin n) (Fin n) ℂ)
    (x1 x2 d : Stack n k) (hd : ∀ i, (d i).IsHermitian) (i : Fin k) :
    (HPD.transp sq x1 x2 d i).IsHermitian := isHermitian_mul_mul_conjTranspose _ (hd i)

/-- The transport from `x1` to `x2` is a congruence that maps `x1` to `x2`. -/
theorem transp_congr (sq : Matrix (Fin n) (Fin n) ℂ → Matrix (Fin n) (Fin n) ℂ) (hsq : SqrtmOk sq)
    (x1 x2 : Stack n k) (h1 : ∀ i, (x1 i).PosDef) (h2 : ∀ i, (x2 i).PosDef) :
    ∃ E : Stack n k, (∀ i, IsUnit (E i)) ∧ (x2 = fun i => E i * x1 i * (E i)ᴴ) ∧
      ∀ d, HPD.transp sq x1 x2 d = fun i => E i * d i * (E i)ᴴ := by
  have key : ∀ i, ∃ E, IsUnit E ∧ E * x1 i * Eᴴ = x2 i ∧
      sq ((((x1 i)ᴴ)⁻¹ * (x2 i)ᴴ)ᴴ) = E := by
    intro i
    obtain ⟨S, R, P, hr, hP, hPP, hE⟩ := transp_root hsq (h1 i) (h2 i)
    refine ⟨_, (hr.isUnit.mul hP.isUnit).mul hr.isUnit', ?_, hE⟩
    rw [← hr.sq, conjTranspose_mul, conjTranspose_mul, hr.hR.eq, hP.1.eq, hr.hS.eq]
    calc S * P * R * (S * S) * (R * (P * S)) = S * P * (R * S) * (S * R) * P * S := by
          simp only [mul_assoc]
      _ = S * (P * P) * S := by rw [hr.left, hr.right]; simp only [mul_assoc, mul_one]
      _ = (S * R) * x2 i * (R * S) := by rw [hPP]; simp only [mul_assoc]
      _ = x2 i := by rw [hr.left, hr.right, mul_one, Matrix.one_mul]
  choose E hE1 hE2 hE3 using key
  refine ⟨E, hE1, funext fun i => (hE2 i).symm, fun d => ?_⟩
  funext i
  simp only [HPD.transp, hE3]

/-- Transport carries the metric at `x1` to the metric at `x2`. -/
theorem C55_isometry (sq : Matrix (Fin n) (Fin n) ℂ → Matrix (Fin n) (Fin n) ℂ) (hsq : SqrtmOk sq)
    (x1 x2 u v : Stack n k) (h1 : ∀ i, (x1 i).PosDef) (h2 : ∀ i, (x2 i).PosDef) :
    HPD.inner x2 (HPD.transp sq x1 x2 u) (HPD.transp sq x1 x2 v) = HPD.inner x1 u v := by
  obtain ⟨E, hE1, e2, ev⟩ := transp_congr sq hsq x1 x2 h1 h2
  rw [ev, ev]
  conv_lhs => rw [e2]
  exact C54_congruence x1 u v E hE1

theorem C55_linear (sq : Matrix (Fin n) (Fin n) ℂ → Matrix (Fin n) (Fin n) ℂ)
    (x1 x2 u v : Stack n k) (c : ℝ) :
    HPD.transp sq x1 x2 ((c : ℂ) • u + v) =
      (c : ℂ) • HPD.transp sq x1 x2 u + HPD.transp sq x1 x2 v := by
  funext i
  simp only [HPD.transp, Pi.add_apply, Pi.smul_apply, mul_add, add_mul, mul_smul_comm,
    smul_mul_assoc]

/-- The contract on scipy's `sqrtm` can be met. -/
example : ∃ sq : Matrix (Fin n) (Fin n) ℂ → Matrix (Fin n) (Fin n) ℂ, SqrtmOk sq := by
  classical
  exact ⟨fun M => if h : ∃ R, IsPrincipalSqrt M R then h.choose else 0, fun M h => by
    simp only [dif_pos h]; exact h.choose_spec⟩

/-! ## C56 -/

theorem shpd_normalise_posDef (y : Stack n k) (hy : ∀ i, (y i).PosDef) (i : Fin k) :
    (SHPD.normalise y i).PosDef ∧ (SHPD.normalise y i).det = 1 := by
  have hdet := RCLike.pos_iff.1 (hy i).det_pos
  have hre : 0 < (y i).det.re := hdet.1
  have him : (y i).det = (((y i).det.re : ℝ) : ℂ) := Complex.ext rfl (by simpa using hdet.2)
  set c : ℝ := (y i).det.re ^ (1 / (n : ℝ)) with hcdef
  have hc : 0 < c := Real.rpow_pos_of_pos hre _
  have hcn : c ^ n = (y i).det.re := by
    rcases Nat.eq_zero_or_pos n with h0 | h0
    · subst h0
      have : (y i).det = 1 := det_fin_zero
      simp [this]
    · rw [hcdef, ← Real.rpow_natCast, ← Real.rpow_mul hre.le]
      rw [one_div_mul_cancel (by positivity), Real.rpow_one]
  constructor
  · refine (hy i).smul ?_
    rw [← Complex.ofReal_inv]
    exact_mod_cast inv_pos.2 hc
  · simp only [SHPD.normalise]
    rw [det_smul, Fintype.card_fin, him, Complex.ofReal_re, ← hcdef, ← hcn]
    push_cast
    rw [← mul_pow, inv_mul_cancel₀ (by exact_mod_cast hc.ne'), one_pow]

theorem C56_retr (x u : Stack n k) (hx : ∀ i, (x i).PosDef) (hu : ∀ i, (u i).IsHermitian)
    (i : Fin k) : (SHPD.retr x u i).PosDef ∧ (SHPD.retr x u i).det = 1 :=
  shpd_normalise_posDef _ (C52_retr_posDef x u hx hu) i

theorem C56_exp (eigh : Eigh (Fin n) ℂ) (hs : eigh.Ok) (x u : Stack n k) (hx : ∀ i, (x i).PosDef)
    (hu : ∀ i, (u i).IsHermitian) (i : Fin k) :
    (SHPD.exp eigh x u i).PosDef ∧ (SHPD.exp eigh x u i).det = 1 :=
  shpd_normalise_posDef _ (C53_exp_posDef eigh hs x u hx hu) i

/-- `rand` of the positive definite matrices, for draws in `[0, 1)` and unitary factors. -/
theorem C56_hpd_rand (r : Fin k → Fin n → ℝ) (hr : ∀ i a, 0 ≤ r i a) (u : Stack n k)
    (hu : ∀ i, (u i)ᴴ * u i = 1) (i : Fin k) : (HPD.rand r u i).PosDef := by
  have e : HPD.rand r u i = u i * diagonal (fun a => ((1 + r i a : ℝ) : ℂ)) * (u i)ᴴ := by
    rw [mul_assoc]
    simp only [HPD.rand]
    congr 1
    ext a b
    rw [diagonal_mul, of_apply]
  rw [e]
  refine posDef_congr_unit (posDef_diagonal_iff.2 fun a => ?_) ⟨⟨u i, (u i)ᴴ,
    mul_eq_one_comm.1 (hu i), hu i⟩, rfl⟩
  have : 0 < 1 + r i a := by linarith [hr i a]
  exact_mod_cast this

theorem C56_rand (r : Fin k → Fin n → ℝ) (hr : ∀ i a, 0 ≤ r i a) (u : Stack n k)
    (hu : ∀ i, (u i)ᴴ * u i = 1) (i : Fin k) :
    (SHPD.rand r u i).PosDef ∧ (SHPD.rand r u i).det = 1 :=
  shpd_normalise_posDef _ (C56_hpd_rand r hr u hu) i

theorem trace_inv_mul_real {x u : Matrix (Fin n) (Fin n) ℂ} (hx : x.PosDef) (hu : u.IsHermitian) :
    (((x⁻¹ * u).trace.re : ℝ) : ℂ) = (x⁻¹ * u).trace := by
  have : star (x⁻¹ * u).trace = (x⁻¹ * u).trace := by
    rw [← trace_conjTranspose, conjTranspose_mul, hu.eq, hx.inv.1.eq, trace_mul_comm]
  exact Complex.conj_eq_iff_re.1 this

theorem C56_proj_tangent (hn : 0 < n) (x u : Stack n k) (hx : ∀ i, (x i).PosDef) :
    ShpdTangent x (SHPD.proj x u) := by
  intro i
  have hh := multiherm_isHermitian u i
  have hd := (isUnit_iff_isUnit_det _).1 (hx i).isUnit
  simp only [SHPD.proj]
  constructor
  · refine hh.sub ?_
    rw [IsHermitian, conjTranspose_smul, (hx i).1.eq]
    congr 1
    simp
  · rw [mul_sub, trace_sub, mul_smul_comm, nonsing_inv_mul _ hd, trace_smul, trace_one,
      trace_inv_mul_real (hx i) hh, Fintype.card_fin, smul_eq_mul]
    have : (n : ℂ) ≠ 0 := by exact_mod_cast hn.ne'
    field_simp
    ring

theorem C56_proj_fixes (x u : Stack n k) (hu : ShpdTangent x u) : SHPD.proj x u = u := by
  have hm : multiherm u = u := multiherm_of_isHermitian fun i => (hu i).1
  funext i
  simp only [SHPD.proj, hm]
  rw [(hu i).2]
  simp

theorem C56_proj_idempotent (hn : 0 < n) (x u : Stack n k) (hx : ∀ i, (x i).PosDef) :
    SHPD.proj x (SHPD.proj x u) = SHPD.proj x u :=
  C56_proj_fixes x _ (C56_proj_tangent hn x u hx)

/-- `proj` is the orthogonal projection for the metric: what it removes from a Hermitian `u` is
orthogonal to all tangent vectors. -/
theorem C56_proj_orthogonal (x u v : Stack n k) (hx : ∀ i, (x i).PosDef)
    (hu : ∀ i, (u i).IsHermitian) (hv : ShpdTangent x v) :
    HPD.inner x (SHPD.proj x u) v = HPD.inner x u v := by
  have hm : multiherm u = u := multiherm_of_isHermitian hu
  rw [hpd_inner_eq, hpd_inner_eq]
  refine Finset.sum_congr rfl fun i _ => ?_
  have hd := (isUnit_iff_isUnit_det _).1 (hx i).isUnit
  simp only [SHPD.proj, hm]
  rw [mul_sub, sub_mul, trace_sub, mul_smul_comm, nonsing_inv_mul _ hd, smul_mul_assoc,
    Matrix.one_mul, trace_smul, (hv i).2, smul_zero, sub_zero]

/-- `egrad2rgrad` is the Riemannian gradient on the unit-determinant matrices. -/
theorem C56_gradient (hn : 0 < n) (x g v : Stack n k) (hx : ∀ i, (x i).PosDef)
    (hv : ShpdTangent x v) :
    ShpdTangent x (SHPD.egrad2rgrad x g) ∧
    HPD.inner x (SHPD.egrad2rgrad x g) v =
      euclid g v := by
  refine ⟨C56_proj_tangent hn x _ hx, ?_⟩
  have e : multiherm (fun i => x i * g i * x i) = HPD.egrad2rgrad x g := by
    funext i
    rw [multiherm_apply, HPD.egrad2rgrad, multiherm_apply, conjTranspose_mul, conjTranspose_mul,
      (hx i).1.eq]
    simp only [mul_add, add_mul, smul_add, mul_smul_comm, smul_mul_assoc, mul_assoc]
  have hp : SHPD.egrad2rgrad x g = SHPD.proj x (HPD.egrad2rgrad x g) := by
    unfold SHPD.egrad2rgrad SHPD.proj
    simp only [e]
    rw [multiherm_of_isHermitian (A := HPD.egrad2rgrad x g) (C54_gradient x g v hx fun i => (hv i).1).1]
  rw [hp, C56_proj_orthogonal x _ v hx (C54_gradient x g v hx fun i => (hv i).1).1 hv]
  exact (C54_gradient x g v hx fun i => (hv i).1).2

end RS
