import Verif.Lemmas.HuberHeavy
import Verif.Props.EmpClt

/-! The fourth moments of the complex t law. -/
set_option autoImplicit false

namespace RS
open Matrix ComplexOrder Filter Topology MeasureTheory ProbabilityTheory

section
variable {d : ℕ}

theorem normal_four (hd : 0 < d) :
    Integrable (fun w : Fin d → ℝ => (w ⬝ᵥ w) ^ 2 * gNormal d (w ⬝ᵥ w)) ∧
    ∫ w : Fin d → ℝ, (w ⬝ᵥ w) ^ 2 * gNormal d (w ⬝ᵥ w) = d * (d + 2) := by
  obtain ⟨h1, h2⟩ := chi_quad hd fun t => t ^ 2
  have e : ∀ t : ℝ, t ^ 2 * chiPdf d t = ((d * (d + 2) : ℝ)) * chiPdf (d + 2 + 2) t := fun t => by
    have h1 := chiPdf_step hd t
    have h2 := chiPdf_step (k := d + 2) (by omega) t
    push_cast at h1 h2
    rw [show t ^ 2 * chiPdf d t = t * (t * chiPdf d t) by ring, h1,
      show t * ((d : ℝ) * chiPdf (d + 2) t) = d * (t * chiPdf (d + 2) t) by ring, h2]
    ring
  simp only [e] at h1 h2
  refine ⟨?_, ?_⟩
  · exact h1.2 ((chiPdf_integrable (by omega)).1.const_mul _)
  · have h3 : ∫ t, ((d * (d + 2) : ℝ)) * chiPdf (d + 2 + 2) t = d * (d + 2) := by
      rw [integral_const_mul, (chiPdf_integrable (by omega)).2, mul_one]
    exact h2.trans h3

theorem kernel_four (hd : 0 < d) {b : ℝ} (hb : 0 < b) :
    Integrable (fun w : Fin d → ℝ => (w ⬝ᵥ w) ^ 2 * Real.exp (-b * (w ⬝ᵥ w))) ∧
    ∫ w : Fin d → ℝ, (w ⬝ᵥ w) ^ 2 * Real.exp (-b * (w ⬝ᵥ w)) =
      √Real.pi ^ d * (d * (d + 2)) / 4 * b ^ (-((d : ℝ) / 2 + 2)) := by
  obtain ⟨h1, h2⟩ := normal_four hd
  have h2b : 0 < 2 * b := by positivity
  set R : ℝ := √(2 * b) with hR
  have hR0 : 0 < R := Real.sqrt_pos.2 h2b
  have hR2 : R * R = 2 * b := Real.mul_self_sqrt h2b.le
  have hc : √(2 * Real.pi) ^ d ≠ 0 := by positivity
  have e : ∀ w : Fin d → ℝ, (w ⬝ᵥ w) ^ 2 * Real.exp (-b * (w ⬝ᵥ w)) = √(2 * Real.pi) ^ d / (4 * b ^ 2) *
      (((R • w) ⬝ᵥ (R • w)) ^ 2 * gNormal d ((R • w) ⬝ᵥ (R • w))) := fun w => by
    rw [smul_dotProduct, dotProduct_smul, smul_eq_mul, smul_eq_mul, show R * (R * (w ⬝ᵥ w)) = R * R * (w ⬝ᵥ w) by ring,
      hR2, gNormal, show -(1 / 2) * (2 * b * (w ⬝ᵥ w)) = -b * (w ⬝ᵥ w) by ring]
    field_simp
    ring
  simp only [e]
  refine ⟨?_, ?_⟩
  · exact ((integrable_comp_smul_iff volume (fun w : Fin d → ℝ => (w ⬝ᵥ w) ^ 2 * gNormal d (w ⬝ᵥ w))
      hR0.ne').2 h1).const_mul _
  · rw [integral_const_mul, Measure.integral_comp_smul volume
      (fun w : Fin d → ℝ => (w ⬝ᵥ w) ^ 2 * gNormal d (w ⬝ᵥ w)) R, h2, smul_eq_mul,
      Module.finrank_fin_fun, abs_of_pos (by positivity)]
    have e1 : √(2 * Real.pi) ^ d * (R ^ d)⁻¹ = √Real.pi ^ d * b ^ (-((d : ℝ) / 2)) := by
      rw [← sqrt_div_pow hb, ← div_eq_mul_inv, ← div_pow, hR, ← Real.sqrt_div' _ h2b.le,
        mul_div_mul_left _ _ two_ne_zero]
    have e2 : b ^ (-((d : ℝ) / 2 + 2)) = b ^ (-((d : ℝ) / 2)) / b ^ 2 := by
      rw [neg_add, Real.rpow_add hb, Real.rpow_neg hb.le 2, Real.rpow_two]
      rfl
    calc √(2 * Real.pi) ^ d / (4 * b ^ 2) * ((R ^ d)⁻¹ * (d * (d + 2)))
        = (√(2 * Real.pi) ^ d * (R ^ d)⁻¹) * (d * (d + 2)) / (4 * b ^ 2) := by ring
      _ = _ := by rw [e1, e2]; field_simp

theorem gT_four {ν : ℝ} (hν : 4 < ν) (hd : 0 < d) :
    ∫ w : Fin d → ℝ, (w ⬝ᵥ w) ^ 2 * gT ν d (w ⬝ᵥ w) = d * (d + 2) * (ν ^ 2 / ((ν - 2) * (ν - 4))) := by
  have hν0 : 0 < ν := by linarith
  have hα : 0 < (ν + d) / 2 := by positivity
  obtain ⟨-, hmix⟩ := mixture (d := d) (φ := fun w => (w ⬝ᵥ w) ^ 2)
    (C := √Real.pi ^ d * (d * (d + 2)) / 4) (β := (d : ℝ) / 2 + 2) (α := (ν + d) / 2)
    (fun _ => sq_nonneg _) (measurable_dot.pow_const 2) hν0 hα (by linarith) (fun b hb => kernel_four hd hb)
  have hc : ∀ w : Fin d → ℝ, (w ⬝ᵥ w) ^ 2 * gT ν d (w ⬝ᵥ w) =
      Real.Gamma ((ν + d) / 2) / (Real.Gamma (ν / 2) * √(Real.pi * ν) ^ d) *
        ((w ⬝ᵥ w) ^ 2 * (1 + (w ⬝ᵥ w) / ν) ^ (-((ν + d) / 2))) := fun w => by
    simp only [gT]; ring
  simp only [hc]
  rw [integral_const_mul, hmix, sqrt_mul_pow hν0]
  have e : (ν + d) / 2 - ((d : ℝ) / 2 + 2) = ν / 2 - 2 := by ring
  have hG : Real.Gamma (ν / 2) = (ν / 2 - 1) * ((ν / 2 - 2) * Real.Gamma (ν / 2 - 2)) := by
    have h1 := Real.Gamma_add_one (s := ν / 2 - 1) (by linarith)
    have h2 := Real.Gamma_add_one (s := ν / 2 - 2) (by linarith)
    rw [sub_add_cancel] at h1
    rw [show ν / 2 - 2 + 1 = ν / 2 - 1 by ring] at h2
    rw [h1, h2]
  rw [e, hG, Real.rpow_add hν0, Real.rpow_two]
  have := Real.Gamma_pos_of_pos hα
  have := Real.Gamma_pos_of_pos (s := ν / 2 - 2) (by linarith)
  have := Real.rpow_pos_of_pos hν0 ((d : ℝ) / 2)
  have : 0 < √Real.pi ^ d := by positivity
  have h2 : 0 < ν / 2 - 1 := by linarith
  have h3 : 0 < ν / 2 - 2 := by linarith
  rw [show ν - 2 = 2 * (ν / 2 - 1) by ring, show ν - 4 = 2 * (ν / 2 - 2) by ring]
  generalize Real.Gamma ((ν + d) / 2) = G at *
  generalize Real.Gamma (ν / 2 - 2) = G' at *
  generalize ν / 2 - 1 = A at *
  generalize ν / 2 - 2 = B at *
  generalize √Real.pi ^ d = C at *
  field_simp
  ring

variable {p : ℕ} {S : Matrix (Fin p) (Fin p) ℂ}

/-- The fourth moment of the complex t law with `ν > 4` degrees of freedom. -/
theorem cplxT_qf_sq (hp : 0 < p) (hS : S.PosDef) {ν : ℝ} (hν : 4 < ν) :
    ∫ z, qf S z ^ 2 ∂lawOf (fun z => Real.exp (ctLogDensity ν 0 S z)) =
      p * (p + 1) * (ν ^ 2 / ((ν - 2) * (ν - 4))) := by
  have hν0 : 0 < ν := by linarith
  rw [(cplx_quad_law (gT_mass hν0 (p + p)) hS
    (f := fun x => Real.exp (ctLogDensity ν 0 S x)) (by rw [exp_ct_zOf hν0 0 hS, halves_zero])
    (fun t => t ^ 2) (by fun_prop)).2]
  have e : ∀ w : Fin (p + p) → ℝ, ((w ⬝ᵥ w) / 2) ^ 2 * gT ν (p + p) (w ⬝ᵥ w) =
      (1 / 4) * ((w ⬝ᵥ w) ^ 2 * gT ν (p + p) (w ⬝ᵥ w)) := fun w => by ring
  simp only [e]
  rw [integral_const_mul, gT_four hν (by omega)]
  push_cast
  ring

theorem cplxT_meanCov (hS : S.PosDef) {ν : ℝ} (hν : 2 < ν) :
    MeanCov (lawOf fun z => Real.exp (ctLogDensity ν 0 S z)) 0 (((ν / (ν - 2) : ℝ) : ℂ) • S) :=
  (cplxMoments_of_real (f := fun z => Real.exp (ctLogDensity ν 0 S z)) (mu := 0)
    (c := ν / (ν - 2)) (S := S) (by
      rw [exp_ct_zOf (by linarith) 0 hS]
      exact ell_moments (gT_moments hν _) ((realify_posDef _).2 hS))).meanCov

end
end RS
