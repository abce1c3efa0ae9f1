import Mathlib.Analysis.Calculus.Deriv.Mul
import Mathlib.Analysis.Calculus.Deriv.Add
import Mathlib.Analysis.Calculus.Deriv.Inv
import Mathlib.Analysis.Calculus.Deriv.Star
import Mathlib.LinearAlgebra.Matrix.NonsingularInverse
import Verif.Spec.Manifolds

/-
Derivatives of products, determinants and inverses along curves of matrices.
-/
set_option autoImplicit false

namespace RS
open Matrix
variable {l m n : ℕ} {𝕜 : Type} [NormedField 𝕜] [NormedAlgebra ℝ 𝕜]

theorem CurveDeriv.add {c d : ℝ → Matrix (Fin m) (Fin n) 𝕜} {c' d' : Matrix (Fin m) (Fin n) 𝕜}
    {t : ℝ} (hc : CurveDeriv c c' t) (hd : CurveDeriv d d' t) :
    CurveDeriv (fun s => c s + d s) (c' + d') t := fun i j => (hc i j).fun_add (hd i j)

theorem CurveDeriv.const (C : Matrix (Fin m) (Fin n) 𝕜) (t : ℝ) :
    CurveDeriv (fun _ => C) 0 t := fun i j => hasDerivAt_const t (C i j)

theorem CurveDeriv.smul_const (C : Matrix (Fin m) (Fin n) 𝕜) (t : ℝ) :
    CurveDeriv (fun s : ℝ => s • C) C t := fun i j => by
  have := (hasDerivAt_id t).smul_const (C i j)
  simpa using this

theorem CurveDeriv.smul_sq (C : Matrix (Fin m) (Fin n) 𝕜) (t : ℝ) :
    CurveDeriv (fun s : ℝ => (s * s) • C) ((2 * t) • C) t := fun i j => by
  have := ((hasDerivAt_id t).fun_mul (hasDerivAt_id t)).smul_const (C i j)
  simp only [id_eq, one_mul, mul_one] at this
  rwa [← two_mul] at this

theorem CurveDeriv.mul {c : ℝ → Matrix (Fin l) (Fin m) 𝕜} {d : ℝ → Matrix (Fin m) (Fin n) 𝕜}
    {c' : Matrix (Fin l) (Fin m) 𝕜} {d' : Matrix (Fin m) (Fin n) 𝕜} {t : ℝ}
    (hc : CurveDeriv c c' t) (hd : CurveDeriv d d' t) :
    CurveDeriv (fun s => c s * d s) (c' * d t + c t * d') t := by
  intro i j
  have := HasDerivAt.fun_sum (u := Finset.univ) fun k _ => (hc i k).fun_mul (hd k j)
  simp only [Matrix.mul_apply, Matrix.add_apply, ← Finset.sum_add_distrib]
  exact this

theorem CurveDeriv.const_mul (A : Matrix (Fin l) (Fin m) 𝕜) {d : ℝ → Matrix (Fin m) (Fin n) 𝕜}
    {d' : Matrix (Fin m) (Fin n) 𝕜} {t : ℝ} (hd : CurveDeriv d d' t) :
    CurveDeriv (fun s => A * d s) (A * d') t := by
  simpa using (CurveDeriv.const A t).mul hd

theorem CurveDeriv.mul_const {c : ℝ → Matrix (Fin l) (Fin m) 𝕜} {c' : Matrix (Fin l) (Fin m) 𝕜}
    {t : ℝ} (hc : CurveDeriv c c' t) (A : Matrix (Fin m) (Fin n) 𝕜) :
    CurveDeriv (fun s => c s * A) (c' * A) t := by
  simpa using hc.mul (CurveDeriv.const A t)

theorem CurveDeriv.trace {c : ℝ → Matrix (Fin n) (Fin n) 𝕜} {c' : Matrix (Fin n) (Fin n) 𝕜}
    {t : ℝ} (hc : CurveDeriv c c' t) : HasDerivAt (fun s => (c s).trace) c'.trace t :=
  HasDerivAt.fun_sum (u := Finset.univ) fun i _ => hc i i

/-- Jacobi's formula. -/
theorem CurveDeriv.det {c : ℝ → Matrix (Fin n) (Fin n) 𝕜} {c' : Matrix (Fin n) (Fin n) 𝕜}
    {t : ℝ} (hc : CurveDeriv c c' t) :
    HasDerivAt (fun s => (c s).det) ((c t).adjugate * c').trace t := by
  have h1 : HasDerivAt (fun s => (c s).det)
      (∑ σ : Equiv.Perm (Fin n), Equiv.Perm.sign σ •
        ∑ i, (∏ j ∈ Finset.univ.erase i, c t (σ j) j) • c' (σ i) i) t := by
    have hs := HasDerivAt.fun_sum (u := (Finset.univ : Finset (Equiv.Perm (Fin n)))) fun σ _ =>
      (HasDerivAt.fun_finsetProd (u := Finset.univ) (f := fun j s => c s (σ j) j)
        fun j _ => hc (σ j) j).const_mul (((Equiv.Perm.sign σ : ℤ) : 𝕜))
    simp only [det_apply']
    refine hs.congr_deriv (Finset.sum_congr rfl fun σ _ => ?_)
    rw [Units.smul_def, zsmul_eq_mul]
  refine h1.congr_deriv ?_
  have h2 : ∀ i, ((c t).updateCol i fun j => c' j i).det =
      ∑ σ : Equiv.Perm (Fin n), Equiv.Perm.sign σ •
        ((∏ j ∈ Finset.univ.erase i, c t (σ j) j) • c' (σ i) i) := fun i => by
    rw [det_apply]
    refine Finset.sum_congr rfl fun σ _ => ?_
    congr 1
    rw [← Finset.prod_erase_mul _ _ (Finset.mem_univ i), updateCol_self, smul_eq_mul]
    congr 1
    exact Finset.prod_congr rfl fun j hj => by rw [updateCol_ne (Finset.ne_of_mem_erase hj)]
  have h3 : ((c t).adjugate * c').trace = ∑ i, ((c t).updateCol i fun j => c' j i).det := by
    rw [Matrix.trace]
    refine Finset.sum_congr rfl fun i _ => ?_
    rw [← cramer_apply, cramer_eq_adjugate_mulVec, diag_apply, Matrix.mul_apply]
    rfl
  rw [h3]
  simp only [h2, Finset.smul_sum]
  rw [Finset.sum_comm]

theorem CurveDeriv.det_of_isUnit {c : ℝ → Matrix (Fin n) (Fin n) 𝕜}
    {c' : Matrix (Fin n) (Fin n) 𝕜} {t : ℝ} (hc : CurveDeriv c c' t) (hu : IsUnit (c t).det) :
    HasDerivAt (fun s => (c s).det) ((c t).det * ((c t)⁻¹ * c').trace) t := by
  refine hc.det.congr_deriv ?_
  rw [Matrix.inv_def, smul_mul_assoc, trace_smul, smul_eq_mul, ← mul_assoc,
    Ring.mul_inverse_cancel _ hu, one_mul]

theorem CurveDeriv.updateRow {c : ℝ → Matrix (Fin n) (Fin n) 𝕜} {c' : Matrix (Fin n) (Fin n) 𝕜}
    {t : ℝ} (hc : CurveDeriv c c' t) (j : Fin n) (b : Fin n → 𝕜) :
    CurveDeriv (fun s => (c s).updateRow j b) (c'.updateRow j 0) t := by
  intro a b'
  by_cases h : a = j
  · subst h
    simpa using hasDerivAt_const t (b b')
  · simpa [updateRow_ne h] using hc a b'

/-- Derivative of the inverse. -/
theorem CurveDeriv.inv {c : ℝ → Matrix (Fin n) (Fin n) 𝕜} {c' : Matrix (Fin n) (Fin n) 𝕜}
    {t : ℝ} (hc : CurveDeriv c c' t) (hu : ∀ s, IsUnit (c s).det) :
    CurveDeriv (fun s => (c s)⁻¹) (-((c t)⁻¹ * c' * (c t)⁻¹)) t := by
  have hdiff : ∀ i j, DifferentiableAt ℝ (fun s => (c s)⁻¹ i j) t := fun i j => by
    have e : (fun s => (c s)⁻¹ i j) = fun s => ((c s).det)⁻¹ * ((c s).updateRow j (Pi.single i 1)).det := by
      funext s
      rw [Matrix.inv_def, Matrix.smul_apply, adjugate_apply, smul_eq_mul, Ring.inverse_eq_inv']
    rw [e]
    exact (hc.det.differentiableAt.fun_inv (hu t).ne_zero).mul (hc.updateRow j _).det.differentiableAt
  set D : Matrix (Fin n) (Fin n) 𝕜 := of fun i j => deriv (fun s => (c s)⁻¹ i j) t
  have hD : CurveDeriv (fun s => (c s)⁻¹) D t := fun i j => (hdiff i j).hasDerivAt
  have h1 := hc.mul hD
  have e1 : (fun s => c s * (c s)⁻¹) = fun _ => 1 := funext fun s => mul_nonsing_inv _ (hu s)
  rw [e1] at h1
  have h0 : c' * (c t)⁻¹ + c t * D = 0 := by
    ext i j
    exact (h1 i j).unique (CurveDeriv.const (1 : Matrix (Fin n) (Fin n) 𝕜) t i j)
  have : D = -((c t)⁻¹ * c' * (c t)⁻¹) := by
    calc D = (c t)⁻¹ * (c t * D) := by rw [← mul_assoc, nonsing_inv_mul _ (hu t), Matrix.one_mul]
      _ = _ := by rw [eq_neg_of_add_eq_zero_right h0, mul_neg, mul_assoc]
  rwa [← this]

end RS
