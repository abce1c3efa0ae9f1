import Mathlib.MeasureTheory.Measure.Lebesgue.Basic
import Mathlib.MeasureTheory.Measure.Lebesgue.Complex
import Mathlib.MeasureTheory.Integral.Pi
import Mathlib.MeasureTheory.Group.Integral
import Mathlib.Analysis.SpecialFunctions.Gaussian.GaussianIntegral
import Mathlib.Probability.Distributions.Gaussian.Real
import Verif.Lemmas.Rvs
import Verif.Lemmas.GaussSampler
import Mathlib.MeasureTheory.Integral.Prod

/-! Integrals of densities that depend on a quadratic form: change of variables, Gaussian integrals
and moments. -/
set_option autoImplicit false
namespace RS
open Matrix MeasureTheory

section Change
variable {d : ℕ} {E : Type*} [NormedAddCommGroup E] [NormedSpace ℝ E]

/-- `w ↦ m + L w` as a measurable embedding that scales the volume. -/
theorem measurePreserving_affine (m : Fin d → ℝ) {L : Matrix (Fin d) (Fin d) ℝ} (hL : L.det ≠ 0) :
    Measure.map (fun w : Fin d → ℝ => m + L *ᵥ w) volume =
      ENNReal.ofReal |L.det|⁻¹ • (volume : Measure (Fin d → ℝ)) := by
  have hc : Measurable (toLin' L : (Fin d → ℝ) → (Fin d → ℝ)) :=
    (LinearMap.continuous_on_pi _).measurable
  have h1 : (fun w : Fin d → ℝ => m + L *ᵥ w) = (fun x => m + x) ∘ toLin' L := by
    funext w; simp [toLin'_apply]
  rw [h1, ← Measure.map_map (measurable_const_add m) hc,
    Real.map_matrix_volume_pi_eq_smul_volume_pi hL, Measure.map_smul, map_add_left_eq_self, abs_inv]

theorem affine_embedding (m : Fin d → ℝ) {L : Matrix (Fin d) (Fin d) ℝ} (hL : L.det ≠ 0) :
    MeasurableEmbedding (fun w : Fin d → ℝ => m + L *ᵥ w) := by
  have hc : Continuous (fun w : Fin d → ℝ => m + L *ᵥ w) := by fun_prop
  refine hc.measurableEmbedding ?_
  intro w w' h
  have h' : L *ᵥ w = L *ᵥ w' := add_left_cancel h
  have hu : IsUnit L := (isUnit_iff_isUnit_det L).2 (isUnit_iff_ne_zero.2 hL)
  exact mulVec_injective_iff_isUnit.2 hu h'

/-- Change of variables `x = m + L w`. -/
theorem integral_affine (m : Fin d → ℝ) {L : Matrix (Fin d) (Fin d) ℝ} (hL : L.det ≠ 0)
    (F : (Fin d → ℝ) → E) : ∫ x, F x = |L.det| • ∫ w, F (m + L *ᵥ w) := by
  have h := (affine_embedding m hL).integral_map (μ := volume) F
  rw [measurePreserving_affine m hL, integral_smul_measure] at h
  rw [← h, ENNReal.toReal_ofReal (by positivity), smul_smul,
    mul_inv_cancel₀ (abs_ne_zero.2 hL), one_smul]

omit [NormedSpace ℝ E] in
theorem integrable_affine (m : Fin d → ℝ) {L : Matrix (Fin d) (Fin d) ℝ} (hL : L.det ≠ 0)
    (F : (Fin d → ℝ) → E) : Integrable F ↔ Integrable fun w => F (m + L *ᵥ w) := by
  have h := (affine_embedding m hL).integrable_map_iff (μ := volume) (g := F)
  rw [measurePreserving_affine m hL] at h
  rw [← Function.comp_def, ← h]
  have : ENNReal.ofReal |L.det|⁻¹ ≠ 0 := by
    simp only [ne_eq, ENNReal.ofReal_eq_zero, not_le]; positivity
  exact (integrable_smul_measure this ENNReal.ofReal_ne_top).symm

end Change

/-! ## The Gaussian kernel -/
section Gauss
variable {d : ℕ}

/-- `exp(-b |w|²)` is a product. -/
theorem kernel_prod (b : ℝ) (w : Fin d → ℝ) :
    Real.exp (-b * (w ⬝ᵥ w)) = ∏ i, Real.exp (-b * w i ^ 2) := by
  rw [← Real.exp_sum, dotProduct, Finset.mul_sum]
  simp only [sq]

theorem kernel_integrable {b : ℝ} (hb : 0 < b) :
    Integrable fun w : Fin d → ℝ => Real.exp (-b * (w ⬝ᵥ w)) := by
  simp only [kernel_prod]
  exact Integrable.fintype_prod (f := fun _ (x : ℝ) => Real.exp (-b * x ^ 2))
    fun _ => integrable_exp_neg_mul_sq hb

theorem kernel_integral (b : ℝ) :
    ∫ w : Fin d → ℝ, Real.exp (-b * (w ⬝ᵥ w)) = √(Real.pi / b) ^ d := by
  simp only [kernel_prod]
  rw [integral_fintype_prod_volume_eq_pow (fun x : ℝ => Real.exp (-b * x ^ 2)), integral_gaussian,
    Fintype.card_fin]

theorem sq_gauss_integrable {b : ℝ} (hb : 0 < b) :
    Integrable fun x : ℝ => x ^ 2 * Real.exp (-b * x ^ 2) := by
  have := integrable_rpow_mul_exp_neg_mul_sq hb (s := 2) (by norm_num)
  simpa using this

theorem sq_gauss_integral {b : ℝ} (hb : 0 < b) :
    ∫ x : ℝ, x ^ 2 * Real.exp (-b * x ^ 2) = 1 / (2 * b) * √(Real.pi / b) := by
  let v : NNReal := ⟨1 / (2 * b), by positivity⟩
  have hvr : (v : ℝ) = 1 / (2 * b) := rfl
  have hv : v ≠ 0 := by
    intro h
    have : (v : ℝ) = 0 := by rw [h]; rfl
    rw [hvr] at this
    have : 0 < 1 / (2 * b) := by positivity
    linarith
  have h2 := ProbabilityTheory.variance_fun_id_gaussianReal (μ := 0) (v := v)
  rw [ProbabilityTheory.variance_eq_integral measurable_id'.aemeasurable] at h2
  simp only [ProbabilityTheory.integral_id_gaussianReal, sub_zero] at h2
  rw [ProbabilityTheory.integral_gaussianReal_eq_integral_smul hv] at h2
  have h3 : ∀ x : ℝ, ProbabilityTheory.gaussianPDFReal 0 v x • x ^ 2 =
      (√(Real.pi / b))⁻¹ * (x ^ 2 * Real.exp (-b * x ^ 2)) := by
    intro x
    have e1 : 2 * Real.pi * (v : ℝ) = Real.pi / b := by rw [hvr]; field_simp
    have e2 : -(x - 0) ^ 2 / (2 * (v : ℝ)) = -b * x ^ 2 := by rw [hvr]; field_simp; ring
    rw [ProbabilityTheory.gaussianPDFReal, e1, e2, smul_eq_mul]; ring
  simp only [h3] at h2
  rw [integral_const_mul, hvr] at h2
  have h4 : √(Real.pi / b) ≠ 0 := by positivity
  field_simp at h2 ⊢
  linarith

/-- A coordinate squared. -/
theorem kernel_sq_prod (b : ℝ) (a : Fin d) (w : Fin d → ℝ) :
    w a ^ 2 * Real.exp (-b * (w ⬝ᵥ w)) =
      ∏ i, (fun x => (if i = a then x ^ 2 else 1) * Real.exp (-b * x ^ 2)) (w i) := by
  simp only [kernel_prod, Finset.prod_mul_distrib, Finset.prod_ite_eq', Finset.mem_univ, if_true]

theorem kernel_sq_integrable {b : ℝ} (hb : 0 < b) (a : Fin d) :
    Integrable fun w : Fin d → ℝ => w a ^ 2 * Real.exp (-b * (w ⬝ᵥ w)) := by
  simp only [kernel_sq_prod]
  refine Integrable.fintype_prod (f := fun i (x : ℝ) => (if i = a then x ^ 2 else 1) *
    Real.exp (-b * x ^ 2)) fun i => ?_
  by_cases h : i = a
  · simpa [h] using sq_gauss_integrable hb
  · simpa [h] using integrable_exp_neg_mul_sq hb

theorem kernel_sq_integral {b : ℝ} (hb : 0 < b) (a : Fin d) :
    ∫ w : Fin d → ℝ, w a ^ 2 * Real.exp (-b * (w ⬝ᵥ w)) = 1 / (2 * b) * √(Real.pi / b) ^ d := by
  simp only [kernel_sq_prod]
  rw [integral_fintype_prod_volume_eq_prod (fun i (x : ℝ) => (if i = a then x ^ 2 else 1) *
    Real.exp (-b * x ^ 2))]
  have h : ∀ i, ∫ x : ℝ, (if i = a then x ^ 2 else 1) * Real.exp (-b * x ^ 2) =
      (if i = a then 1 / (2 * b) else 1) * √(Real.pi / b) := by
    intro i
    by_cases h : i = a
    · simp only [h, if_true]; exact sq_gauss_integral hb
    · simp only [h, if_false, one_mul]; exact integral_gaussian b
  simp only [h, Finset.prod_mul_distrib, Finset.prod_ite_eq', Finset.mem_univ, if_true,
    Finset.prod_const, Finset.card_univ, Fintype.card_fin]

end Gauss

/-! ## Moments of radial functions -/
section Radial
variable {d : ℕ}

/-- Change of sign of one coordinate. -/
theorem integral_flip (a : Fin d) (F : (Fin d → ℝ) → ℝ) :
    ∫ w, F (Function.update w a (-w a)) = ∫ w, F w := by
  have hd : (diagonal fun i => if i = a then (-1 : ℝ) else 1).det = -1 := by
    rw [det_diagonal, Finset.prod_ite_eq' Finset.univ a]; simp
  have := integral_affine (0 : Fin d → ℝ) (L := diagonal fun i => if i = a then (-1 : ℝ) else 1)
    (by rw [hd]; norm_num) F
  rw [hd, abs_neg, abs_one, one_smul] at this
  rw [this]
  congr 1
  funext w
  congr 1
  funext i
  by_cases h : i = a
  · subst h; simp [mulVec_diagonal]
  · simp [mulVec_diagonal, h]

theorem dot_flip (a : Fin d) (w : Fin d → ℝ) :
    Function.update w a (-w a) ⬝ᵥ Function.update w a (-w a) = w ⬝ᵥ w := by
  simp only [dotProduct]
  refine Finset.sum_congr rfl fun i _ => ?_
  by_cases h : i = a
  · subst h; simp
  · simp [h]

theorem radial_mean (g : ℝ → ℝ) (a : Fin d) : ∫ w : Fin d → ℝ, w a * g (w ⬝ᵥ w) = 0 := by
  have := integral_flip a fun w => w a * g (w ⬝ᵥ w)
  simp only [dot_flip, Function.update_self, neg_mul, integral_neg] at this
  linarith

theorem radial_cov (g : ℝ → ℝ) {a c : Fin d} (h : a ≠ c) :
    ∫ w : Fin d → ℝ, w a * w c * g (w ⬝ᵥ w) = 0 := by
  have := integral_flip a fun w => w a * w c * g (w ⬝ᵥ w)
  simp only [dot_flip, Function.update_self, Function.update_of_ne h.symm, neg_mul,
    integral_neg] at this
  linarith

/-! ## Scale mixtures of Gaussian kernels -/

/-- `(1 + |w|²/ν)^(-α)` is a mixture of Gaussian kernels; hence its moments. -/
theorem mixture {φ : (Fin d → ℝ) → ℝ} (hφ : ∀ w, 0 ≤ φ w) (hm : Measurable φ) {C α β ν : ℝ}
    (hν : 0 < ν) (hα : 0 < α) (hβ : 0 < α - β)
    (hK : ∀ b : ℝ, 0 < b → Integrable (fun w => φ w * Real.exp (-b * (w ⬝ᵥ w))) ∧
      ∫ w, φ w * Real.exp (-b * (w ⬝ᵥ w)) = C * b ^ (-β)) :
    Integrable (fun w => φ w * (1 + (w ⬝ᵥ w) / ν) ^ (-α)) ∧
      ∫ w, φ w * (1 + (w ⬝ᵥ w) / ν) ^ (-α) =
        C * ν ^ β * (Real.Gamma (α - β) / Real.Gamma α) := by
  let μ : Measure ℝ := volume.restrict (Set.Ioi 0)
  let F : (Fin d → ℝ) × ℝ → ℝ := fun x =>
    φ x.1 * (x.2 ^ (α - 1) * Real.exp (-((1 + (x.1 ⬝ᵥ x.1) / ν) * x.2)))
  have hFm : Measurable F := by
    have : Measurable fun w : Fin d → ℝ => w ⬝ᵥ w := by
      simp only [dotProduct]; fun_prop
    have h2 : Measurable fun x : (Fin d → ℝ) × ℝ => x.1 ⬝ᵥ x.1 := this.comp measurable_fst
    exact (hm.comp measurable_fst).mul ((measurable_snd.pow_const _).mul
      (Real.measurable_exp.comp (((measurable_const.add (h2.div_const _)).mul measurable_snd).neg)))
  have hs : ∀ s : ℝ, 0 < s → ∀ w, F (w, s) =
      (s ^ (α - 1) * Real.exp (-s)) * (φ w * Real.exp (-(s / ν) * (w ⬝ᵥ w))) := by
    intro s _ w
    have : Real.exp (-((1 + (w ⬝ᵥ w) / ν) * s)) =
        Real.exp (-s) * Real.exp (-(s / ν) * (w ⬝ᵥ w)) := by
      rw [← Real.exp_add]; congr 1; ring
    simp only [F, this]; ring
  have hsi : ∀ s : ℝ, 0 < s → ∫ w, F (w, s) =
      C * ν ^ β * (Real.exp (-s) * s ^ (α - β - 1)) := by
    intro s h0
    simp only [hs s h0]
    rw [integral_const_mul, (hK _ (div_pos h0 hν)).2, Real.div_rpow h0.le hν.le,
      Real.rpow_neg h0.le, Real.rpow_neg hν.le]
    have h1 := Real.rpow_pos_of_pos h0 β
    have h2 := Real.rpow_pos_of_pos hν β
    have h3 : s ^ (α - 1) = s ^ (α - β - 1) * s ^ β := by
      rw [← Real.rpow_add h0]; congr 1; ring
    rw [h3]
    generalize s ^ (α - β - 1) = u
    generalize s ^ β = x at h1
    generalize ν ^ β = y at h2
    field_simp
  have hF0 : ∀ s : ℝ, 0 < s → ∀ w, 0 ≤ F (w, s) := by
    intro s h0 w
    rw [hs s h0]
    have := Real.rpow_pos_of_pos h0 (α - 1)
    have := hφ w
    positivity
  have hint : Integrable F (volume.prod μ) := by
    rw [integrable_prod_iff' hFm.aestronglyMeasurable]
    constructor
    · refine (ae_restrict_iff' measurableSet_Ioi).2 (ae_of_all _ fun s h0 => ?_)
      simp only [hs s h0]
      exact (hK _ (div_pos h0 hν)).1.const_mul _
    · have : Integrable (fun s => C * ν ^ β * (Real.exp (-s) * s ^ (α - β - 1))) μ :=
        (Real.GammaIntegral_convergent hβ).const_mul _
      refine this.congr ((ae_restrict_iff' measurableSet_Ioi).2 (ae_of_all _ fun s h0 => ?_))
      simp only [Real.norm_of_nonneg (hF0 s h0 _)]
      exact (hsi s h0).symm
  have hw : ∀ w, ∫ s, F (w, s) ∂μ = Real.Gamma α * (φ w * (1 + (w ⬝ᵥ w) / ν) ^ (-α)) := by
    intro w
    have hq : 0 ≤ w ⬝ᵥ w := Finset.sum_nonneg fun i _ => mul_self_nonneg _
    have hr : 0 < 1 + (w ⬝ᵥ w) / ν := by positivity
    simp only [F]
    rw [integral_const_mul]
    have := Real.integral_rpow_mul_exp_neg_mul_Ioi hα hr
    simp only [μ]
    rw [this, Real.rpow_neg hr.le, one_div, Real.inv_rpow hr.le]
    ring
  have hΓ : Real.Gamma α ≠ 0 := (Real.Gamma_pos_of_pos hα).ne'
  have e1 : ∀ w, φ w * (1 + (w ⬝ᵥ w) / ν) ^ (-α) = (Real.Gamma α)⁻¹ * ∫ s, F (w, s) ∂μ := by
    intro w; rw [hw]; field_simp
  constructor
  · simp only [e1]
    exact hint.integral_prod_left.const_mul _
  · simp only [e1]
    rw [integral_const_mul, integral_integral_swap hint]
    have : ∫ s, (∫ w, F (w, s)) ∂μ = ∫ s in Set.Ioi 0, C * ν ^ β * (Real.exp (-s) * s ^ (α - β - 1)) :=
      setIntegral_congr_fun measurableSet_Ioi fun s h0 => hsi s h0
    rw [this, integral_const_mul, ← Real.Gamma_eq_integral hβ]
    ring

end Radial
end RS
