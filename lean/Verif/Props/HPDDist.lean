import Verif.Props.HPDGeom

/-
The distance of the Hermitian positive definite matrices, C88.
-/
set_option autoImplicit false

namespace RS
open Matrix ComplexOrder
variable {n k : ℕ}

/-- Two diagonalisations of one matrix: sums of functions of the entries agree. -/
theorem sim_sum {M P Q P' Q' : Matrix (Fin n) (Fin n) ℂ} {d d' : Fin n → ℝ} (h1 : Q * P = 1)
    (h2 : Q' * P' = 1) (hM : M = P * diagonal (fun i => (d i : ℂ)) * Q)
    (hM' : M = P' * diagonal (fun i => (d' i : ℂ)) * Q') (f : ℝ → ℝ) :
    ∑ i, f (d i) = ∑ i, f (d' i) := by
  set T := Q' * P with hT
  have h1' : P * Q = 1 := mul_eq_one_comm.1 h1
  have h2' : P' * Q' = 1 := mul_eq_one_comm.1 h2
  have e1 : T * diagonal (fun i => (d i : ℂ)) = diagonal (fun i => (d' i : ℂ)) * T := by
    calc T * diagonal (fun i => (d i : ℂ))
        = Q' * (P * diagonal (fun i => (d i : ℂ)) * Q) * P := by
          simp only [hT, mul_assoc, h1, mul_one]
      _ = Q' * (P' * diagonal (fun i => (d' i : ℂ)) * Q') * P := by rw [← hM, hM']
      _ = (Q' * P') * diagonal (fun i => (d' i : ℂ)) * T := by simp only [hT, mul_assoc]
      _ = _ := by rw [h2, Matrix.one_mul]
  have e2 : T * diagonal (fun i => (f (d i) : ℂ)) = diagonal (fun i => (f (d' i) : ℂ)) * T := by
    ext i j
    have h := congrFun (congrFun e1 i) j
    rw [mul_diagonal, diagonal_mul] at h ⊢
    by_cases hz : T i j = 0
    · simp [hz]
    · have h3 : d j = d' i := by
        rw [mul_comm] at h
        exact_mod_cast mul_right_cancel₀ hz h
      rw [h3, mul_comm]
  have hTT : T * (Q * P') = 1 := by
    calc T * (Q * P') = Q' * (P * Q) * P' := by simp only [hT, mul_assoc]
      _ = 1 := by rw [h1', mul_one, h2]
  have hTT' : (Q * P') * T = 1 := mul_eq_one_comm.1 hTT
  have e3 : (diagonal (fun i => (f (d i) : ℂ))).trace = (diagonal (fun i => (f (d' i) : ℂ))).trace := by
    calc _ = ((Q * P') * T * diagonal (fun i => (f (d i) : ℂ))).trace := by
          rw [hTT', Matrix.one_mul]
      _ = ((Q * P') * (diagonal (fun i => (f (d' i) : ℂ)) * T)).trace := by rw [← e2, mul_assoc]
      _ = (diagonal (fun i => (f (d' i) : ℂ)) * (T * (Q * P'))).trace := by
          rw [trace_mul_comm, mul_assoc]
      _ = _ := by rw [hTT, mul_one]
  rw [trace_diagonal, trace_diagonal] at e3
  exact_mod_cast e3

/-- `d` are the eigenvalues of `x⁻¹ y`. -/
def GenEig (x y : Matrix (Fin n) (Fin n) ℂ) (d : Fin n → ℝ) : Prop :=
  ∃ P Q : Matrix (Fin n) (Fin n) ℂ, Q * P = 1 ∧ x⁻¹ * y = P * diagonal (fun i => (d i : ℂ)) * Q

example : BackOk (n := n) (fun V => Vᴴ) ∧ BackOk (n := n) (fun V => Vᵀ) := by
  constructor
  · intro V h; simpa using h
  · intro V h
    have := congrArg transpose h
    rw [transpose_mul, transpose_one] at this
    exact this

theorem genEig_of_chol {c x y : Matrix (Fin n) (Fin n) ℂ} (hx : x.PosDef) (hc : c * cᴴ = x)
    {e : EigRes (Fin n) ℂ} (he : e.Valid (c⁻¹ * y * (c⁻¹)ᴴ)) : GenEig x y e.vals := by
  have hd : IsUnit (c * cᴴ).det := by rw [hc]; exact (isUnit_iff_isUnit_det _).1 hx.isUnit
  have hdc : IsUnit c.det := by rw [det_mul] at hd; exact (IsUnit.mul_iff.1 hd).1
  have hdc' : IsUnit cᴴ.det := by rw [det_conjTranspose]; exact hdc.star
  have hi : (c⁻¹)ᴴ = (cᴴ)⁻¹ := conjTranspose_nonsing_inv c
  refine ⟨(cᴴ)⁻¹ * e.vecs, e.vecsᴴ * cᴴ, ?_, ?_⟩
  · calc e.vecsᴴ * cᴴ * ((cᴴ)⁻¹ * e.vecs) = e.vecsᴴ * (cᴴ * (cᴴ)⁻¹) * e.vecs := by
          simp only [mul_assoc]
      _ = 1 := by rw [mul_nonsing_inv _ hdc', mul_one, he.unitary]
  · have hdec : c⁻¹ * y * (c⁻¹)ᴴ = e.vecs * diagonal (fun i => (e.vals i : ℂ)) * e.vecsᴴ := he.decomp
    calc x⁻¹ * y = (cᴴ)⁻¹ * (c⁻¹ * y * ((cᴴ)⁻¹ * cᴴ)) := by
          rw [← hc, Matrix.mul_inv_rev, nonsing_inv_mul _ hdc', mul_one, mul_assoc]
      _ = (cᴴ)⁻¹ * (c⁻¹ * y * (c⁻¹)ᴴ) * cᴴ := by rw [hi]; simp only [mul_assoc]
      _ = _ := by rw [hdec]; simp only [mul_assoc]

theorem frobSq_unitary {V D B : Matrix (Fin n) (Fin n) ℂ} (hV : Vᴴ * V = 1) (hB : B * Bᴴ = 1) :
    ∑ a, ∑ b, ‖(V * D * B) a b‖ ^ 2 = ∑ a, ∑ b, ‖D a b‖ ^ 2 := by
  rw [frobSq_eq, frobSq_eq, conjTranspose_mul, conjTranspose_mul]
  congr 1
  calc (V * D * B * (Bᴴ * (Dᴴ * Vᴴ))).trace = (V * (D * (B * Bᴴ) * Dᴴ * Vᴴ)).trace := by
        simp only [mul_assoc]
    _ = (D * Dᴴ * (Vᴴ * V)).trace := by rw [hB, mul_one, trace_mul_comm]; simp only [mul_assoc]
    _ = _ := by rw [hV, mul_one]

theorem frobSq_diagonal (d : Fin n → ℝ) :
    ∑ a, ∑ b, ‖(diagonal (fun i => (d i : ℂ)) : Matrix (Fin n) (Fin n) ℂ) a b‖ ^ 2 = ∑ i, d i ^ 2 := by
  refine Finset.sum_congr rfl fun a _ => ?_
  rw [Finset.sum_eq_single a]
  · simp
  · intro b _ hb; simp [diagonal_apply_ne' _ hb]
  · simp

section
variable {eigh : Eigh (Fin n) ℂ} {chol back : Matrix (Fin n) (Fin n) ℂ → Matrix (Fin n) (Fin n) ℂ}

/-- The distance depends only on the eigenvalues of `x⁻¹ y`. -/
theorem dist_of_genEig (hs : eigh.Ok) (hc : CholOk chol) (hb : BackOk back) {x y : Stack n k}
    (hx : ∀ i, (x i).PosDef) (hy : ∀ i, (y i).IsHermitian) {d : Fin k → Fin n → ℝ}
    (hd : ∀ i, GenEig (x i) (y i) (d i)) :
    HPD.dist eigh chol back x y = Real.sqrt (∑ i, ∑ j, Real.log (d i j) ^ 2) := by
  unfold HPD.dist
  simp only
  congr 1
  refine Finset.sum_congr rfl fun i _ => ?_
  have hv := hs _ (isHermitian_mul_mul_conjTranspose (chol (x i))⁻¹ (hy i))
  rw [frobSq_unitary hv.unitary (hb _ hv.unitary), frobSq_diagonal]
  obtain ⟨P, Q, h1, h2⟩ := genEig_of_chol (hx i) (hc _ (hx i)) hv
  obtain ⟨P', Q', h1', h2'⟩ := hd i
  exact sim_sum h1 h1' h2 h2' fun t => Real.log t ^ 2

theorem exists_genEig {x y : Matrix (Fin n) (Fin n) ℂ} (hx : x.PosDef) (hy : y.PosDef) :
    ∃ d, GenEig x y d ∧ ∀ i, 0 < d i := by
  obtain ⟨e, he⟩ := eigh_exists (ι := Fin n) (𝕜 := ℂ)
  have hr := root_of_eigh he hx
  set S := matrixOperator e Real.sqrt x
  set R := matrixOperator e (fun d => 1 / Real.sqrt d) x
  have hpd : (R * y * R).PosDef := posDef_sandwich hr.hR hr.isUnit' hy
  have hv := he _ hpd.1
  refine ⟨(e (R * y * R)).vals, ?_, hv.vals_pos hpd⟩
  have hi : S⁻¹ = R := inv_eq_right_inv hr.right
  refine genEig_of_chol (c := S) hx (by rw [hr.hS.eq, hr.sq]) ?_
  rw [hi, hr.hR.eq]
  exact hv

theorem C88_symm (hs : eigh.Ok) (hc : CholOk chol) (hb : BackOk back) (x y : Stack n k)
    (hx : ∀ i, (x i).PosDef) (hy : ∀ i, (y i).PosDef) :
    HPD.dist eigh chol back x y = HPD.dist eigh chol back y x := by
  choose d hd hp using fun i => exists_genEig (hx i) (hy i)
  have hd' : ∀ i, GenEig (y i) (x i) (fun j => (d i j)⁻¹) := fun i => by
    obtain ⟨P, Q, h1, h2⟩ := hd i
    refine ⟨P, Q, h1, ?_⟩
    have hdx := (isUnit_iff_isUnit_det _).1 (hx i).isUnit
    have e : (y i)⁻¹ * x i = ((x i)⁻¹ * y i)⁻¹ := by
      rw [Matrix.mul_inv_rev, nonsing_inv_nonsing_inv _ hdx]
    rw [e, h2]
    apply inv_eq_right_inv
    calc P * diagonal (fun j => (d i j : ℂ)) * Q * (P * diagonal (fun j => (((d i j)⁻¹ : ℝ) : ℂ)) * Q)
        = P * diagonal (fun j => (d i j : ℂ)) * (Q * P) *
            diagonal (fun j => (((d i j)⁻¹ : ℝ) : ℂ)) * Q := by simp only [mul_assoc]
      _ = P * (diagonal (fun j => (d i j : ℂ)) * diagonal (fun j => (((d i j)⁻¹ : ℝ) : ℂ))) * Q := by
          rw [h1, mul_one]; simp only [mul_assoc]
      _ = 1 := by
          rw [diagonal_mul_diagonal]
          have : (fun j => (d i j : ℂ) * (((d i j)⁻¹ : ℝ) : ℂ)) = fun _ => 1 := by
            funext j
            push_cast
            exact mul_inv_cancel₀ (by exact_mod_cast (hp i j).ne')
          rw [this, diagonal_one, mul_one]
          exact mul_eq_one_comm.1 h1
  rw [dist_of_genEig hs hc hb hx (fun i => (hy i).1) hd, dist_of_genEig hs hc hb hy (fun i => (hx i).1) hd']
  simp only [Real.log_inv, neg_sq]

/-- The distance is the norm of `log`. -/
theorem C88_dist_log (hs : eigh.Ok) (hc : CholOk chol) (hb : BackOk back) (x y : Stack n k)
    (hx : ∀ i, (x i).PosDef) (hy : ∀ i, (y i).PosDef) :
    HPD.dist eigh chol back x y = HPD.norm chol x (HPD.log eigh x y) := by
  have hpd : ∀ i, (matrixOperator eigh (fun d => 1 / Real.sqrt d) (x i) * y i *
      matrixOperator eigh (fun d => 1 / Real.sqrt d) (x i)).PosDef := fun i => by
    have h := root_of_eigh hs (hx i)
    exact posDef_sandwich h.hR h.isUnit' (hy i)
  have hd : ∀ i, GenEig (x i) (y i) (eigh (matrixOperator eigh (fun d => 1 / Real.sqrt d) (x i) *
      y i * matrixOperator eigh (fun d => 1 / Real.sqrt d) (x i))).vals := fun i => by
    have hr := root_of_eigh hs (hx i)
    have hi := inv_eq_right_inv hr.right
    refine genEig_of_chol (c := matrixOperator eigh Real.sqrt (x i)) (hx i)
      (by rw [hr.hS.eq, hr.sq]) ?_
    rw [hi, hr.hR.eq]
    exact hs _ (hpd i).1
  obtain ⟨h0, h1⟩ := C54_norm chol hc x _ hx (C53_log_isHermitian eigh x y)
  rw [dist_of_genEig hs hc hb hx (fun i => (hy i).1) hd, ← Real.sqrt_sq h0, h1, hpd_inner_eq]
  congr 1
  refine Finset.sum_congr rfl fun i _ => ?_
  have hr := root_of_eigh hs (hx i)
  rw [inner_self_eq hr (C53_log_isHermitian eigh x y i), hpd_log_eq hs hx fun i => (hy i).1]
  have hv := hs _ (hpd i).1
  set S := matrixOperator eigh Real.sqrt (x i)
  set R := matrixOperator eigh (fun d => 1 / Real.sqrt d) (x i)
  have e : R * (S * logm eigh (R * y i * R) * S) * R = logm eigh (R * y i * R) := by
    calc _ = (R * S) * logm eigh (R * y i * R) * (S * R) := by simp only [mul_assoc]
      _ = _ := by rw [hr.left, hr.right, mul_one, Matrix.one_mul]
  rw [e, logm_fn, EigRes.fn]
  have := frobSq_unitary (D := diagonal fun j => ((Real.log ((eigh (R * y i * R)).vals j) : ℝ) : ℂ))
    (B := (eigh (R * y i * R)).vecsᴴ) hv.unitary (by
      rw [conjTranspose_conjTranspose]; exact hv.unitary)
  rw [frobSq_diagonal] at this
  exact this.symm

theorem C88_dist_exp (hs : eigh.Ok) (hc : CholOk chol) (hb : BackOk back) (x u : Stack n k)
    (hx : ∀ i, (x i).PosDef) (hu : ∀ i, (u i).IsHermitian) :
    HPD.dist eigh chol back x (HPD.exp eigh x u) = HPD.norm chol x u := by
  rw [C88_dist_log hs hc hb x _ hx (C53_exp_posDef eigh hs x u hx hu), C53_log_exp eigh hs x u hx hu]

theorem C88_zero_iff (hs : eigh.Ok) (hc : CholOk chol) (hb : BackOk back) (x y : Stack n k)
    (hx : ∀ i, (x i).PosDef) (hy : ∀ i, (y i).PosDef) :
    0 ≤ HPD.dist eigh chol back x y ∧ (HPD.dist eigh chol back x y = 0 ↔ x = y) := by
  have hl := C53_log_isHermitian eigh x y
  obtain ⟨h0, h1⟩ := C54_norm chol hc x _ hx hl
  rw [C88_dist_log hs hc hb x y hx hy]
  refine ⟨h0, fun h => ?_, fun h => ?_⟩
  · rw [h] at h1
    have h2 : HPD.log eigh x y = 0 := ((C54_posDef x _ hx hl).2).1 (by rw [← h1]; norm_num)
    rw [← C53_exp_log eigh hs x y hx hy, h2, hpd_exp_zero eigh hs x hx]
  · subst h
    have h2 : HPD.log eigh x x = 0 := by
      have := C53_log_exp eigh hs x 0 hx fun _ => isHermitian_zero
      rwa [hpd_exp_zero eigh hs x hx] at this
    have h3 := ((C54_posDef x _ hx hl).2).2 h2
    rw [h3] at h1
    exact pow_eq_zero_iff (by norm_num) |>.1 h1

/-- Invariance under congruence by invertible matrices. -/
theorem C88_congruence (hs : eigh.Ok) (hc : CholOk chol) (hb : BackOk back) (x y W : Stack n k)
    (hx : ∀ i, (x i).PosDef) (hy : ∀ i, (y i).PosDef) (hW : ∀ i, IsUnit (W i)) :
    HPD.dist eigh chol back (fun i => W i * x i * (W i)ᴴ) (fun i => W i * y i * (W i)ᴴ) =
      HPD.dist eigh chol back x y := by
  choose d hd hp using fun i => exists_genEig (hx i) (hy i)
  have hd' : ∀ i, GenEig (W i * x i * (W i)ᴴ) (W i * y i * (W i)ᴴ) (d i) := fun i => by
    obtain ⟨P, Q, h1, h2⟩ := hd i
    have hdW : IsUnit (W i).det := (isUnit_iff_isUnit_det _).1 (hW i)
    have hdh : IsUnit ((W i)ᴴ).det := by rw [det_conjTranspose]; exact hdW.star
    refine ⟨((W i)ᴴ)⁻¹ * P, Q * (W i)ᴴ, ?_, ?_⟩
    · calc Q * (W i)ᴴ * (((W i)ᴴ)⁻¹ * P) = Q * ((W i)ᴴ * ((W i)ᴴ)⁻¹) * P := by
            simp only [mul_assoc]
        _ = 1 := by rw [mul_nonsing_inv _ hdh, mul_one, h1]
    · rw [Matrix.mul_inv_rev, Matrix.mul_inv_rev]
      calc ((W i)ᴴ)⁻¹ * ((x i)⁻¹ * (W i)⁻¹) * (W i * y i * (W i)ᴴ)
          = ((W i)ᴴ)⁻¹ * ((x i)⁻¹ * ((W i)⁻¹ * W i) * y i) * (W i)ᴴ := by simp only [mul_assoc]
        _ = ((W i)ᴴ)⁻¹ * ((x i)⁻¹ * y i) * (W i)ᴴ := by rw [nonsing_inv_mul _ hdW, mul_one]
        _ = _ := by rw [h2]; simp only [mul_assoc]
  rw [dist_of_genEig hs hc hb hx (fun i => (hy i).1) hd,
    dist_of_genEig hs hc hb (fun i => posDef_congr_unit (hx i) (hW i))
      (fun i => (posDef_congr_unit (hy i) (hW i)).1) hd']

/-- Inversion is an isometry. -/
theorem C88_inverse (hs : eigh.Ok) (hc : CholOk chol) (hb : BackOk back) (x y : Stack n k)
    (hx : ∀ i, (x i).PosDef) (hy : ∀ i, (y i).PosDef) :
    HPD.dist eigh chol back (fun i => (x i)⁻¹) (fun i => (y i)⁻¹) = HPD.dist eigh chol back x y := by
  rw [C88_symm hs hc hb x y hx hy]
  choose d hd hp using fun i => exists_genEig (hy i) (hx i)
  have hd' : ∀ i, GenEig ((x i)⁻¹) ((y i)⁻¹) (d i) := fun i => by
    obtain ⟨P, Q, h1, h2⟩ := hd i
    have hdx := (isUnit_iff_isUnit_det _).1 (hx i).isUnit
    refine ⟨Qᴴ, Pᴴ, ?_, ?_⟩
    · rw [← conjTranspose_mul, h1, conjTranspose_one]
    · have e : ((y i)⁻¹ * x i)ᴴ = x i * (y i)⁻¹ := by
        rw [conjTranspose_mul, (hx i).1.eq, (hy i).inv.1.eq]
      rw [nonsing_inv_nonsing_inv _ hdx, ← e, h2, conjTranspose_mul, conjTranspose_mul,
        diagonal_conjTranspose, mul_assoc]
      congr 3
      ext i
      simp
  rw [dist_of_genEig hs hc hb hy (fun i => (hx i).1) hd,
    dist_of_genEig hs hc hb (fun i => (hx i).inv) (fun i => (hy i).inv.1) hd']

end
end RS
