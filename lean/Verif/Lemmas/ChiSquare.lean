import Verif.Lemmas.Elliptical
import Mathlib.Probability.Distributions.Gamma
import Mathlib.MeasureTheory.Constructions.HaarToSphere
import Mathlib.MeasureTheory.Measure.Haar.InnerProductSpace
import Mathlib.MeasureTheory.Integral.IntegralEqImproper

/-! Radial integrals and the chi-square law of the squared distance. -/
set_option autoImplicit false

namespace RS
open Matrix Filter Topology MeasureTheory ProbabilityTheory Set

section
variable {d : ℕ}

/-- Integrals of functions of the squared norm. -/
theorem radial_integral (hd : 0 < d) : ∃ C : ℝ, ∀ F : ℝ → ℝ,
    (Integrable (fun w : Fin d → ℝ => F (w ⬝ᵥ w)) ↔
      IntegrableOn (fun t => t ^ ((d : ℝ) / 2 - 1) * F t) (Ioi 0)) ∧
    ∫ w : Fin d → ℝ, F (w ⬝ᵥ w) = C * ∫ t in Ioi (0 : ℝ), t ^ ((d : ℝ) / 2 - 1) * F t := by
  have : Nonempty (Fin d) := ⟨⟨0, hd⟩⟩
  have hdim : Module.finrank ℝ (EuclideanSpace ℝ (Fin d)) = d := by simp
  have hn : ∀ w : EuclideanSpace ℝ (Fin d), (w.ofLp ⬝ᵥ w.ofLp) = ‖w‖ ^ 2 := fun w => by
    rw [EuclideanSpace.norm_sq_eq]
    simp only [dotProduct, Real.norm_eq_abs, sq_abs]
    exact Finset.sum_congr rfl fun i _ => (sq _).symm
  have hmp := PiLp.volume_preserving_ofLp (Fin d)
  have hemb : MeasurableEmbedding (WithLp.ofLp : EuclideanSpace ℝ (Fin d) → Fin d → ℝ) :=
    (MeasurableEquiv.toLp 2 (Fin d → ℝ)).symm.measurableEmbedding
  -- the substitution `t = y ^ 2`
  have hsub : ∀ (F : ℝ → ℝ) (y : ℝ), y ∈ Ioi (0 : ℝ) → y ^ (d - 1) • F (y ^ 2) =
      2⁻¹ * ((|(2 : ℝ)| * y ^ ((2 : ℝ) - 1)) • ((fun t => t ^ ((d : ℝ) / 2 - 1) * F t) (y ^ (2 : ℝ)))) := by
    intro F y hy
    have hy0 : 0 < y := hy
    have e1 : y ^ (2 : ℝ) = y ^ 2 := by exact_mod_cast Real.rpow_natCast y 2
    have e2 : (y ^ (2 : ℝ)) ^ ((d : ℝ) / 2 - 1) = y ^ ((d : ℝ) - 2) := by
      rw [← Real.rpow_mul hy0.le]; congr 1; ring
    have e3 : y ^ (d - 1) = y ^ ((2 : ℝ) - 1) * y ^ ((d : ℝ) - 2) := by
      rw [← Real.rpow_add hy0, ← Real.rpow_natCast, Nat.cast_pred hd]
      congr 1; ring
    simp only [smul_eq_mul]
    rw [e2, e1, e3, abs_of_pos two_pos]
    ring
  refine ⟨d * (volume.real (Metric.ball (0 : EuclideanSpace ℝ (Fin d)) 1) * 2⁻¹), fun F => ⟨?_, ?_⟩⟩
  · rw [← hmp.integrable_comp_emb hemb, ← integrableOn_Ioi_comp_rpow_iff _ (two_ne_zero' ℝ)]
    simp only [Function.comp_def, hn]
    rw [integrable_fun_norm_addHaar volume (f := fun r => F (r ^ 2)), hdim,
      integrableOn_congr_fun (hsub F) measurableSet_Ioi]
    exact integrable_const_mul_iff (isUnit_iff_ne_zero.2 (by norm_num)) _
  · rw [← hmp.integral_comp hemb, ← integral_comp_rpow_Ioi _ (two_ne_zero' ℝ)]
    simp only [hn]
    rw [integral_fun_norm_addHaar volume (fun r => F (r ^ 2)), hdim,
      setIntegral_congr_fun measurableSet_Ioi (hsub F), integral_const_mul, nsmul_eq_mul, smul_eq_mul]
    ring

/-- The density of the chi-square law with `k` degrees of freedom. -/
noncomputable abbrev chiPdf (k : ℕ) : ℝ → ℝ := gammaPDFReal ((k : ℝ) / 2) (1 / 2)

theorem chiPdf_integrable {k : ℕ} (hk : 0 < k) : Integrable (chiPdf k) ∧ ∫ t, chiPdf k t = 1 := by
  have hk' : (0 : ℝ) < (k : ℝ) / 2 := by positivity
  have h1 := lintegral_gammaPDF_eq_one hk' (r := 1 / 2) (by norm_num)
  have h0 : ∀ t, 0 ≤ chiPdf k t := gammaPDFReal_nonneg hk' (by norm_num)
  have hi : Integrable (chiPdf k) := by
    refine ⟨(measurable_gammaPDFReal _ _).aestronglyMeasurable, ?_⟩
    rw [hasFiniteIntegral_iff_ofReal (Eventually.of_forall h0)]
    change ∫⁻ t, gammaPDF _ _ t < _
    rw [h1]; exact ENNReal.one_lt_top
  refine ⟨hi, ?_⟩
  rw [integral_eq_lintegral_of_nonneg_ae (Eventually.of_forall h0) hi.aestronglyMeasurable]
  change (∫⁻ t, gammaPDF _ _ t).toReal = 1
  rw [h1, ENNReal.toReal_one]

theorem chiPdf_nonneg {k : ℕ} (hk : 0 < k) (t : ℝ) : 0 ≤ chiPdf k t :=
  gammaPDFReal_nonneg (by positivity) (by norm_num) t

theorem chiPdf_neg {k : ℕ} {t : ℝ} (ht : t < 0) : chiPdf k t = 0 := by
  simp [chiPdf, gammaPDFReal, not_le.2 ht]

/-- Raising the number of degrees of freedom by two. -/
theorem chiPdf_step {k : ℕ} (hk : 0 < k) (t : ℝ) : t * chiPdf k t = k * chiPdf (k + 2) t := by
  have hk' : (0 : ℝ) < k := by exact_mod_cast hk
  rcases lt_trichotomy t 0 with h | h | h
  · rw [chiPdf_neg h, chiPdf_neg h, mul_zero, mul_zero]
  · subst h
    have : ((k : ℝ) + 2) / 2 - 1 ≠ 0 := by
      have : ((k : ℝ) + 2) / 2 - 1 = k / 2 := by ring
      rw [this]; positivity
    simp only [gammaPDFReal, le_refl, if_true, zero_mul, Nat.cast_add, Nat.cast_ofNat,
      Real.zero_rpow this, mul_zero]
  · simp only [gammaPDFReal, if_pos h.le]
    have e1 : ((k + 2 : ℕ) : ℝ) / 2 = k / 2 + 1 := by push_cast; ring
    rw [e1, Real.Gamma_add_one (by positivity), add_sub_cancel_right,
      Real.rpow_add_one (by norm_num : (1 / 2 : ℝ) ≠ 0)]
    have e2 : t * t ^ ((k : ℝ) / 2 - 1) = t ^ ((k : ℝ) / 2) := by
      rw [mul_comm, ← Real.rpow_add_one h.ne']; congr 1; ring
    have hG : Real.Gamma ((k : ℝ) / 2) ≠ 0 := (Real.Gamma_pos_of_pos (by positivity)).ne'
    rw [← e2]
    field_simp

/-- The squared distance under a radial density proportional to the normal one. -/
theorem chi_quad (hd : 0 < d) (F : ℝ → ℝ) :
    (Integrable (fun w : Fin d → ℝ => F (w ⬝ᵥ w) * gNormal d (w ⬝ᵥ w)) ↔
      Integrable (fun t => F t * chiPdf d t)) ∧
    ∫ w : Fin d → ℝ, F (w ⬝ᵥ w) * gNormal d (w ⬝ᵥ w) = ∫ t, F t * chiPdf d t := by
  obtain ⟨C, hC⟩ := radial_integral hd
  have hd' : (0 : ℝ) < (d : ℝ) / 2 := by positivity
  set K : ℝ := (√(2 * Real.pi) ^ d)⁻¹ * (((1 / 2 : ℝ) ^ ((d : ℝ) / 2) / Real.Gamma ((d : ℝ) / 2)))⁻¹
    with hK
  have hG : 0 < Real.Gamma ((d : ℝ) / 2) := Real.Gamma_pos_of_pos hd'
  have hK0 : K ≠ 0 := by positivity
  have hpt : ∀ (F : ℝ → ℝ) (t : ℝ), t ∈ Ioi (0 : ℝ) →
      t ^ ((d : ℝ) / 2 - 1) * (F t * gNormal d t) = K * (F t * chiPdf d t) := fun F t ht => by
    have h0 : (0 : ℝ) < t := ht
    simp only [gNormal, chiPdf, gammaPDFReal, if_pos h0.le, hK]
    have e : -(1 / 2) * t = -(1 / 2 * t) := by ring
    rw [e]
    field_simp
  have hind : ∀ F : ℝ → ℝ, (IntegrableOn (fun t => F t * chiPdf d t) (Ioi 0) ↔
      Integrable (fun t => F t * chiPdf d t)) ∧
      ∫ t in Ioi (0 : ℝ), F t * chiPdf d t = ∫ t, F t * chiPdf d t := fun F => by
    have hs : ∀ t, t ∉ Ici (0 : ℝ) → F t * chiPdf d t = 0 := fun t ht => by
      rw [chiPdf_neg (not_le.1 ht), mul_zero]
    rw [← integrableOn_Ici_iff_integrableOn_Ioi, ← integral_Ici_eq_integral_Ioi,
      setIntegral_eq_integral_of_forall_compl_eq_zero hs,
      integrableOn_iff_integrable_of_support_subset fun t ht => by
        by_contra h'; exact ht (hs t h')]
    exact ⟨Iff.rfl, rfl⟩
  have hmain : ∀ F : ℝ → ℝ, (Integrable (fun w : Fin d → ℝ => F (w ⬝ᵥ w) * gNormal d (w ⬝ᵥ w)) ↔
      Integrable (fun t => F t * chiPdf d t)) ∧
      ∫ w : Fin d → ℝ, F (w ⬝ᵥ w) * gNormal d (w ⬝ᵥ w) = C * K * ∫ t, F t * chiPdf d t := fun F => by
    obtain ⟨h1, h2⟩ := hC fun t => F t * gNormal d t
    refine ⟨h1.trans ?_, ?_⟩
    · rw [integrableOn_congr_fun (hpt F) measurableSet_Ioi, ← (hind F).1]
      exact integrable_const_mul_iff (isUnit_iff_ne_zero.2 hK0) _
    · rw [h2, setIntegral_congr_fun measurableSet_Ioi (hpt F), integral_const_mul, (hind F).2]
      ring
  have hone : C * K = 1 := by
    have := (hmain fun _ => 1).2
    simp only [one_mul] at this
    rw [(gNormal_moments d).mass, (chiPdf_integrable hd).2] at this
    linarith
  refine ⟨(hmain F).1, ?_⟩
  rw [(hmain F).2, hone, one_mul]

/-- The distribution function. -/
noncomputable def chiCdf (k : ℕ) (x : ℝ) : ℝ := ∫ t in Iic x, chiPdf k t

theorem chiCdf_compl {k : ℕ} (hk : 0 < k) (x : ℝ) : ∫ t in Ioi x, chiPdf k t = 1 - chiCdf k x := by
  have h := intervalIntegral.integral_Iic_add_Ioi (b := x)
    (chiPdf_integrable hk).1.integrableOn (chiPdf_integrable hk).1.integrableOn
  rw [(chiPdf_integrable hk).2] at h
  rw [chiCdf]; linarith

/-- Truncated mean. -/
theorem chi_min {k : ℕ} (hk : 0 < k) (a : ℝ) :
    Integrable (fun t => min t a * chiPdf k t) ∧
      ∫ t, min t a * chiPdf k t = k * chiCdf (k + 2) a + a * (1 - chiCdf k a) := by
  have e1 : ∀ t ∈ Iic a, min t a * chiPdf k t = k * chiPdf (k + 2) t := fun t ht => by
    rw [min_eq_left ht, chiPdf_step hk]
  have e2 : ∀ t ∈ Ioi a, min t a * chiPdf k t = a * chiPdf k t := fun t ht => by
    rw [min_eq_right (le_of_lt ht)]
  have i1 : IntegrableOn (fun t => min t a * chiPdf k t) (Iic a) := by
    rw [integrableOn_congr_fun e1 measurableSet_Iic]
    exact ((chiPdf_integrable (by omega)).1.const_mul _).integrableOn
  have i2 : IntegrableOn (fun t => min t a * chiPdf k t) (Ioi a) := by
    rw [integrableOn_congr_fun e2 measurableSet_Ioi]
    exact ((chiPdf_integrable hk).1.const_mul _).integrableOn
  constructor
  · rw [← integrableOn_univ, ← Iic_union_Ioi (a := a)]
    exact i1.union i2
  · rw [← intervalIntegral.integral_Iic_add_Ioi i1 i2, setIntegral_congr_fun measurableSet_Iic e1,
      setIntegral_congr_fun measurableSet_Ioi e2, integral_const_mul, integral_const_mul,
      chiCdf_compl hk]
    rfl

/-- More degrees of freedom, larger values. -/
theorem chiCdf_anti {k : ℕ} (hk : 0 < k) (a : ℝ) : chiCdf (k + 1) a ≤ chiCdf k a := by
  have hk' : (0 : ℝ) < (k : ℝ) / 2 := by positivity
  obtain ⟨i1, m1⟩ := chiPdf_integrable hk
  obtain ⟨i2, m2⟩ := chiPdf_integrable (k := k + 1) (by omega)
  rcases lt_or_ge a 0 with ha | ha
  · have h0 : ∀ j : ℕ, chiCdf j a = 0 := fun j => by
      rw [chiCdf, setIntegral_congr_fun (g := fun _ => 0) measurableSet_Iic fun t ht =>
        chiPdf_neg (lt_of_le_of_lt ht ha)]
      simp
    rw [h0, h0]
  -- the ratio of the densities is increasing
  set c : ℝ := (1 / 2 : ℝ) ^ (1 / 2 : ℝ) * Real.Gamma ((k : ℝ) / 2) / Real.Gamma (((k + 1 : ℕ) : ℝ) / 2)
    with hc
  have g1 : 0 < Real.Gamma ((k : ℝ) / 2) := Real.Gamma_pos_of_pos hk'
  have g2 : 0 < Real.Gamma (((k + 1 : ℕ) : ℝ) / 2) := Real.Gamma_pos_of_pos (by positivity)
  have hc0 : 0 < c := by positivity
  have hr : ∀ t, 0 < t → chiPdf (k + 1) t = c * √t * chiPdf k t := fun t ht => by
    simp only [chiPdf, gammaPDFReal, if_pos ht.le]
    have e1 : ((k + 1 : ℕ) : ℝ) / 2 = k / 2 + 1 / 2 := by push_cast; ring
    have e2 : (1 / 2 : ℝ) ^ (((k + 1 : ℕ) : ℝ) / 2) = (1 / 2) ^ ((k : ℝ) / 2) * (1 / 2) ^ (1 / 2 : ℝ) := by
      rw [e1, Real.rpow_add (by norm_num)]
    have e3 : t ^ (((k + 1 : ℕ) : ℝ) / 2 - 1) = t ^ ((k : ℝ) / 2 - 1) * √t := by
      rw [e1, Real.sqrt_eq_rpow, ← Real.rpow_add ht]; congr 1; ring
    rw [e2, e3, hc]
    field_simp
  rcases le_or_gt (c * √a) 1 with h | h
  · rw [chiCdf, chiCdf]
    have hae : ∀ᵐ t, t ≠ (0 : ℝ) := by
      rw [ae_iff]; simp
    refine setIntegral_mono_on_ae i2.integrableOn i1.integrableOn measurableSet_Iic ?_
    filter_upwards [hae] with t ht hta
    rcases lt_or_gt_of_ne ht with h0 | h0
    · rw [chiPdf_neg h0, chiPdf_neg h0]
    · rw [hr t h0]
      refine mul_le_of_le_one_left (chiPdf_nonneg hk t) ?_
      exact (mul_le_mul_of_nonneg_left (Real.sqrt_le_sqrt hta) hc0.le).trans h
  · have h3 : ∫ t in Ioi a, chiPdf k t ≤ ∫ t in Ioi a, chiPdf (k + 1) t := by
      refine setIntegral_mono_on i1.integrableOn i2.integrableOn measurableSet_Ioi fun t ht => ?_
      have h0 : 0 < t := lt_of_le_of_lt ha ht
      rw [hr t h0]
      refine le_mul_of_one_le_left (chiPdf_nonneg hk t) ?_
      exact h.le.trans (mul_le_mul_of_nonneg_left (Real.sqrt_le_sqrt (le_of_lt ht)) hc0.le)
    rw [chiCdf_compl hk, chiCdf_compl (by omega)] at h3
    linarith

/-- Moments. -/
theorem chi_mean {k : ℕ} (hk : 0 < k) :
    Integrable (fun t => t * chiPdf k t) ∧ ∫ t, t * chiPdf k t = k := by
  simp only [chiPdf_step hk]
  refine ⟨(chiPdf_integrable (by omega)).1.const_mul _, ?_⟩
  rw [integral_const_mul, (chiPdf_integrable (by omega)).2, mul_one]

theorem chi_second {k : ℕ} (hk : 0 < k) : Integrable (fun t => t ^ 2 * chiPdf k t) := by
  have e : ∀ t, t ^ 2 * chiPdf k t = (k * ((k + 2 : ℕ) : ℝ)) * chiPdf (k + 2 + 2) t := fun t => by
    rw [sq, mul_assoc, chiPdf_step hk, mul_left_comm, chiPdf_step (by omega), mul_assoc]
  simp only [e]
  exact (chiPdf_integrable (by omega)).1.const_mul _

end
end RS
