import Verif.Lemmas.Density
import Verif.Spec.Law

/-! Laws whose density is a function of the Mahalanobis distance. -/
set_option autoImplicit false
namespace RS
open Matrix MeasureTheory

section Law
variable {E F : Type*} [MeasureSpace E] [NormedAddCommGroup F] [NormedSpace ℝ F]

theorem integral_lawOf {f : E → ℝ} (hf : Measurable f) (h0 : ∀ x, 0 ≤ f x) (G : E → F) :
    ∫ x, G x ∂lawOf f = ∫ x, f x • G x := by
  have := integral_withDensity_eq_integral_smul (μ := (volume : Measure E)) hf.real_toNNReal G
  refine this.trans ?_
  congr 1
  funext x
  rw [NNReal.smul_def, Real.coe_toNNReal _ (h0 x)]

theorem integrable_lawOf {f : E → ℝ} (hf : Measurable f) (h0 : ∀ x, 0 ≤ f x) (G : E → F) :
    Integrable G (lawOf f) ↔ Integrable fun x => f x • G x := by
  have := integrable_withDensity_iff_integrable_smul (μ := (volume : Measure E)) hf.real_toNNReal
    (g := G)
  refine this.trans (iff_of_eq ?_)
  congr 1
  funext x
  rw [NNReal.smul_def, Real.coe_toNNReal _ (h0 x)]

theorem lawOf_prob {f : E → ℝ} (h0 : ∀ x, 0 ≤ f x) (hi : Integrable f)
    (h1 : ∫ x, f x = 1) : IsProbabilityMeasure (lawOf f) := by
  constructor
  rw [lawOf, withDensity_apply _ MeasurableSet.univ, Measure.restrict_univ,
    ← ofReal_integral_eq_lintegral_ofReal hi (Filter.Eventually.of_forall h0), h1,
    ENNReal.ofReal_one]

end Law

variable {d : ℕ}

/-- What is needed of a radial density in dimension `d`: mass one and second moment `κ`. -/
structure RadialMass (d : ℕ) (g : ℝ → ℝ) : Prop where
  meas : Measurable g
  nonneg : ∀ t, 0 ≤ t → 0 ≤ g t
  int : Integrable fun w : Fin d → ℝ => g (w ⬝ᵥ w)
  mass : ∫ w : Fin d → ℝ, g (w ⬝ᵥ w) = 1

structure RadialMoments (d : ℕ) (g : ℝ → ℝ) (κ : ℝ) : Prop extends RadialMass d g where
  int2 : ∀ a, Integrable fun w : Fin d → ℝ => w a ^ 2 * g (w ⬝ᵥ w)
  second : ∀ a, ∫ w : Fin d → ℝ, w a ^ 2 * g (w ⬝ᵥ w) = κ

/-- The elliptical density. -/
noncomputable def ell (g : ℝ → ℝ) (m : Fin d → ℝ) (S : Matrix (Fin d) (Fin d) ℝ) (x : Fin d → ℝ) : ℝ :=
  (√S.det)⁻¹ * g ((x - m) ⬝ᵥ S⁻¹ *ᵥ (x - m))

theorem dot_self_nonneg' (w : Fin d → ℝ) : 0 ≤ w ⬝ᵥ w :=
  Finset.sum_nonneg fun _ _ => mul_self_nonneg _

theorem measurable_dot : Measurable fun w : Fin d → ℝ => w ⬝ᵥ w := by
  simp only [dotProduct]; fun_prop

section
variable {g : ℝ → ℝ} {m : Fin d → ℝ} {S : Matrix (Fin d) (Fin d) ℝ}

theorem ell_nonneg (hg : RadialMass d g) (hS : S.PosDef) (x : Fin d → ℝ) : 0 ≤ ell g m S x := by
  refine mul_nonneg (inv_nonneg.2 (Real.sqrt_nonneg _)) (hg.nonneg _ ?_)
  have := hS.inv.posSemidef.dotProduct_mulVec_nonneg (x - m)
  simpa using this

theorem ell_measurable (hg : RadialMass d g) : Measurable (ell g m S) := by
  have h : Measurable fun x : Fin d → ℝ => (x - m) ⬝ᵥ S⁻¹ *ᵥ (x - m) := by
    have : Continuous fun x : Fin d → ℝ => (x - m) ⬝ᵥ S⁻¹ *ᵥ (x - m) := by fun_prop
    exact this.measurable
  exact (hg.meas.comp h).const_mul _

/-- A square root of `S` and its effect on the density. -/
theorem ell_factor (hS : S.PosDef) : ∃ A : Matrix (Fin d) (Fin d) ℝ, A * Aᵀ = S ∧ A.det ≠ 0 ∧
    ∀ (g : ℝ → ℝ) (m : Fin d → ℝ) (w : Fin d → ℝ),
      |A.det| * ell g m S (m + A *ᵥ w) = g (w ⬝ᵥ w) := by
  obtain ⟨A, hA⟩ := exists_factor S
  have hA := hA hS
  have hdet : S.det = A.det ^ 2 := by rw [← hA, det_mul, det_transpose, sq]
  have hd : A.det ≠ 0 := fun h => by
    have := hS.det_pos
    rw [hdet, h] at this
    norm_num at this
  refine ⟨A, hA, hd, fun g m w => ?_⟩
  have hu : IsUnit A.det := isUnit_iff_ne_zero.2 hd
  have hut : IsUnit Aᵀ.det := by rwa [det_transpose]
  have hq : (A *ᵥ w) ⬝ᵥ S⁻¹ *ᵥ (A *ᵥ w) = w ⬝ᵥ w := by
    rw [← hA, Matrix.mul_inv_rev, mulVec_mulVec, Matrix.mul_assoc, nonsing_inv_mul _ hu, mul_one,
      ← vecMul_transpose, ← dotProduct_mulVec, mulVec_mulVec, mul_nonsing_inv _ hut, one_mulVec]
  have hsq : √S.det = |A.det| := by rw [hdet, Real.sqrt_sq_eq_abs]
  rw [ell, add_sub_cancel_left, hq, hsq, ← mul_assoc, mul_inv_cancel₀ (abs_ne_zero.2 hd), one_mul]

theorem ell_law (hg : RadialMass d g) (hS : S.PosDef) :
    Integrable (ell g m S) ∧ ∫ x, ell g m S x = 1 := by
  obtain ⟨A, -, hd, h⟩ := ell_factor hS
  have e : ∀ w, ell g m S (m + A *ᵥ w) = |A.det|⁻¹ * g (w ⬝ᵥ w) := fun w => by
    rw [← h g m w, ← mul_assoc, inv_mul_cancel₀ (abs_ne_zero.2 hd), one_mul]
  constructor
  · rw [integrable_affine m hd]
    simp only [e]
    exact hg.int.const_mul _
  · rw [integral_affine m hd]
    simp only [e]
    rw [integral_const_mul, hg.mass, mul_one, smul_eq_mul, mul_inv_cancel₀ (abs_ne_zero.2 hd)]

theorem ell_prob (hg : RadialMass d g) (hS : S.PosDef) : IsProbabilityMeasure (lawOf (ell g m S)) :=
  lawOf_prob (ell_nonneg hg hS) (ell_law hg hS).1 (ell_law hg hS).2

/-- Integrals against the elliptical law. -/
theorem ell_integral {F : Type*} [NormedAddCommGroup F] [NormedSpace ℝ F] (hg : RadialMass d g)
    (hS : S.PosDef) :
    ∃ A : Matrix (Fin d) (Fin d) ℝ, A * Aᵀ = S ∧ ∀ G : (Fin d → ℝ) → F,
      (Integrable G (lawOf (ell g m S)) ↔ Integrable fun w => g (w ⬝ᵥ w) • G (m + A *ᵥ w)) ∧
      ∫ x, G x ∂lawOf (ell g m S) = ∫ w, g (w ⬝ᵥ w) • G (m + A *ᵥ w) := by
  obtain ⟨A, hA, hd, h⟩ := ell_factor hS
  refine ⟨A, hA, fun G => ⟨?_, ?_⟩⟩
  · rw [integrable_lawOf (ell_measurable hg) (ell_nonneg hg hS), integrable_affine m hd]
    simp only [← h g m, mul_smul]
    have hc : |A.det| ≠ 0 := abs_ne_zero.2 hd
    exact (integrable_smul_iff hc _).symm
  · rw [integral_lawOf (ell_measurable hg) (ell_nonneg hg hS), integral_affine m hd,
      ← integral_smul]
    simp only [← h g m, mul_smul]

theorem radial_int_cross {κ : ℝ} (hg : RadialMoments d g κ) (a b : Fin d) :
    Integrable fun w : Fin d → ℝ => w a * w b * g (w ⬝ᵥ w) := by
  have hm : Measurable fun w : Fin d → ℝ => w a * w b * g (w ⬝ᵥ w) :=
    ((measurable_pi_apply a).mul (measurable_pi_apply b)).mul (hg.meas.comp measurable_dot)
  refine ((hg.int2 a).add (hg.int2 b)).mono' hm.aestronglyMeasurable (Filter.Eventually.of_forall
    fun w => ?_)
  have h0 := hg.nonneg _ (dot_self_nonneg' w)
  rw [Real.norm_eq_abs, abs_mul, abs_of_nonneg h0, Pi.add_apply, ← add_mul]
  refine mul_le_mul_of_nonneg_right ?_ h0
  rw [abs_le]
  constructor <;> nlinarith [sq_nonneg (w a + w b), sq_nonneg (w a - w b), sq_nonneg (w a), sq_nonneg (w b)]

theorem radial_int_lin {κ : ℝ} (hg : RadialMoments d g κ) (a : Fin d) :
    Integrable fun w : Fin d → ℝ => w a * g (w ⬝ᵥ w) := by
  have hm : Measurable fun w : Fin d → ℝ => w a * g (w ⬝ᵥ w) :=
    (measurable_pi_apply a).mul (hg.meas.comp measurable_dot)
  refine (hg.int.add (hg.int2 a)).mono' hm.aestronglyMeasurable (Filter.Eventually.of_forall
    fun w => ?_)
  have h0 := hg.nonneg _ (dot_self_nonneg' w)
  rw [Real.norm_eq_abs, abs_mul, abs_of_nonneg h0, Pi.add_apply]
  have : |w a| ≤ 1 + w a ^ 2 := by
    rw [abs_le]; constructor <;> nlinarith [sq_nonneg (w a + 1), sq_nonneg (w a - 1)]
  nlinarith [mul_le_mul_of_nonneg_right this h0]

theorem radial_second {κ : ℝ} (hg : RadialMoments d g κ) (a b : Fin d) :
    ∫ w : Fin d → ℝ, w a * w b * g (w ⬝ᵥ w) = if a = b then κ else 0 := by
  split_ifs with h
  · subst h
    simp only [← sq]
    exact hg.second a
  · exact radial_cov g h

/-- Mean and covariance of an elliptical law. -/
theorem ell_moments {κ : ℝ} (hg : RadialMoments d g κ) (hS : S.PosDef) :
    RealMoments (lawOf (ell g m S)) m (κ • S) := by
  obtain ⟨A, hA, hI⟩ := ell_integral (F := ℝ) (m := m) hg.toRadialMass hS
  have elin : ∀ a (w : Fin d → ℝ), g (w ⬝ᵥ w) • (m + A *ᵥ w) a =
      m a * g (w ⬝ᵥ w) + ∑ b, A a b * (w b * g (w ⬝ᵥ w)) := fun a w => by
    simp only [smul_eq_mul, Pi.add_apply, mulVec, dotProduct, mul_add, Finset.mul_sum]
    congr 1
    · ring
    · exact Finset.sum_congr rfl fun b _ => by ring
  have equad : ∀ a b (w : Fin d → ℝ),
      g (w ⬝ᵥ w) • (((m + A *ᵥ w) a - m a) * ((m + A *ᵥ w) b - m b)) =
      ∑ i, ∑ j, (A a i * A b j) * (w i * w j * g (w ⬝ᵥ w)) := fun a b w => by
    simp only [smul_eq_mul, Pi.add_apply, add_sub_cancel_left]
    rw [show (A *ᵥ w) a = ∑ i, A a i * w i from rfl, show (A *ᵥ w) b = ∑ i, A b i * w i from rfl,
      Finset.sum_mul_sum, Finset.mul_sum]
    refine Finset.sum_congr rfl fun i _ => ?_
    rw [Finset.mul_sum]
    exact Finset.sum_congr rfl fun j _ => by ring
  refine ⟨fun a => ?_, fun a b => ?_⟩
  · rw [(hI _).1, (hI _).2]
    simp only [elin]
    have h1 : ∀ b, Integrable fun w : Fin d → ℝ => A a b * (w b * g (w ⬝ᵥ w)) :=
      fun b => (radial_int_lin hg b).const_mul _
    refine ⟨(hg.int.const_mul _).add (integrable_finsetSum _ fun b _ => h1 b), ?_⟩
    rw [integral_add (hg.int.const_mul _) (integrable_finsetSum _ fun b _ => h1 b),
      integral_finsetSum _ fun b _ => h1 b, integral_const_mul, hg.mass]
    simp only [integral_const_mul, radial_mean]
    simp
  · rw [(hI _).1, (hI _).2]
    simp only [equad]
    have h1 : ∀ i j, Integrable fun w : Fin d → ℝ => (A a i * A b j) * (w i * w j * g (w ⬝ᵥ w)) :=
      fun i j => (radial_int_cross hg i j).const_mul _
    refine ⟨integrable_finsetSum _ fun i _ => integrable_finsetSum _ fun j _ => h1 i j, ?_⟩
    rw [integral_finsetSum _ fun i _ => integrable_finsetSum _ fun j _ => h1 i j]
    simp only [integral_finsetSum _ fun j _ => h1 _ j, integral_const_mul, radial_second hg,
      mul_ite, mul_zero, Finset.sum_ite_eq, Finset.mem_univ, if_true]
    rw [Matrix.smul_apply, ← hA, Matrix.mul_apply, smul_eq_mul, Finset.mul_sum]
    exact Finset.sum_congr rfl fun i _ => by rw [transpose_apply]; ring

end

/-! ## The normal density -/

/-- The radial part of the normal density. -/
noncomputable def gNormal (d : ℕ) (t : ℝ) : ℝ := (√(2 * Real.pi) ^ d)⁻¹ * Real.exp (-(1 / 2) * t)

theorem gNormal_moments (d : ℕ) : RadialMoments d (gNormal d) 1 := by
  have hpi : Real.pi / (1 / 2) = 2 * Real.pi := by ring
  have hc : √(2 * Real.pi) ^ d ≠ 0 := by positivity
  refine ⟨⟨?_, fun t _ => ?_, ?_, ?_⟩, fun a => ?_, fun a => ?_⟩
  · unfold gNormal; fun_prop
  · unfold gNormal; positivity
  · exact (kernel_integrable (by norm_num)).const_mul _
  · simp only [gNormal]
    rw [integral_const_mul, kernel_integral, hpi, inv_mul_cancel₀ hc]
  · have := (kernel_sq_integrable (b := 1 / 2) (by norm_num) a).const_mul (√(2 * Real.pi) ^ d)⁻¹
    refine this.congr (Filter.Eventually.of_forall fun w => ?_)
    simp only [gNormal]; ring
  · have h : ∀ w : Fin d → ℝ, w a ^ 2 * gNormal d (w ⬝ᵥ w) =
        (√(2 * Real.pi) ^ d)⁻¹ * (w a ^ 2 * Real.exp (-(1 / 2) * (w ⬝ᵥ w))) := fun w => by
      simp only [gNormal]; ring
    simp only [h]
    rw [integral_const_mul, kernel_sq_integral (by norm_num), hpi]
    field_simp

theorem exp_normalLogDensity (mu : Fin d → ℝ) {S : Matrix (Fin d) (Fin d) ℝ} (hS : S.PosDef)
    (x : Fin d → ℝ) : Real.exp (normalLogDensity mu S x) = ell (gNormal d) mu S x := by
  have hd := hS.det_pos
  have e : normalLogDensity mu S x = -Real.log √S.det + (-(Real.log (√(2 * Real.pi) ^ d)) +
      -(1 / 2) * ((x - mu) ⬝ᵥ S⁻¹ *ᵥ (x - mu))) := by
    rw [normalLogDensity, Real.log_sqrt hd.le, Real.log_pow, Real.log_sqrt (by positivity)]
    ring
  rw [e, Real.exp_add, Real.exp_add, Real.exp_neg, Real.exp_neg, Real.exp_log (Real.sqrt_pos.2 hd),
    Real.exp_log (by positivity), ell, gNormal]

/-! ## The t density -/

/-- The radial part of the t density. -/
noncomputable def gT (ν : ℝ) (d : ℕ) (t : ℝ) : ℝ :=
  Real.Gamma ((ν + d) / 2) / (Real.Gamma (ν / 2) * √(Real.pi * ν) ^ d) *
    (1 + t / ν) ^ (-((ν + d) / 2))

theorem sqrt_div_pow {b : ℝ} (hb : 0 < b) (d : ℕ) :
    √(Real.pi / b) ^ d = √Real.pi ^ d * b ^ (-((d : ℝ) / 2)) := by
  rw [Real.sqrt_div Real.pi_pos.le, div_pow, div_eq_mul_inv, Real.rpow_neg hb.le]
  congr 2
  rw [Real.sqrt_eq_rpow, ← Real.rpow_natCast, ← Real.rpow_mul hb.le]
  congr 1; ring

theorem sqrt_mul_pow {ν : ℝ} (hν : 0 < ν) (d : ℕ) :
    √(Real.pi * ν) ^ d = √Real.pi ^ d * ν ^ ((d : ℝ) / 2) := by
  rw [Real.sqrt_mul Real.pi_pos.le, mul_pow]
  congr 1
  rw [Real.sqrt_eq_rpow, ← Real.rpow_natCast, ← Real.rpow_mul hν.le]
  congr 1; ring

theorem gT_mass {ν : ℝ} (hν : 0 < ν) (d : ℕ) : RadialMass d (gT ν d) := by
  have hα : 0 < (ν + d) / 2 := by positivity
  obtain ⟨h1, h2⟩ := mixture (d := d) (φ := fun _ => 1) (C := √Real.pi ^ d) (β := (d : ℝ) / 2)
    (fun _ => zero_le_one) measurable_const hν hα (by linarith) (fun b hb => by
      simp only [one_mul]
      exact ⟨kernel_integrable hb, by rw [kernel_integral, sqrt_div_pow hb]⟩)
  simp only [one_mul] at h1 h2
  refine ⟨?_, fun t ht => ?_, h1.const_mul _, ?_⟩
  · unfold gT; fun_prop
  · unfold gT
    have := Real.Gamma_pos_of_pos hα
    have := Real.Gamma_pos_of_pos (half_pos hν)
    have : 0 ≤ 1 + t / ν := by positivity
    positivity
  · simp only [gT]
    rw [integral_const_mul, h2, sqrt_mul_pow hν]
    have e : (ν + d) / 2 - (d : ℝ) / 2 = ν / 2 := by ring
    rw [e]
    have := Real.Gamma_pos_of_pos hα
    have := Real.Gamma_pos_of_pos (half_pos hν)
    have := Real.rpow_pos_of_pos hν ((d : ℝ) / 2)
    have : 0 < √Real.pi ^ d := by positivity
    field_simp

theorem gT_moments {ν : ℝ} (hν : 2 < ν) (d : ℕ) : RadialMoments d (gT ν d) (ν / (ν - 2)) := by
  have hν0 : 0 < ν := by linarith
  have hα : 0 < (ν + d) / 2 := by positivity
  have hmix : ∀ a : Fin d, _ := fun a => mixture (d := d) (φ := fun w => w a ^ 2)
    (C := √Real.pi ^ d / 2) (β := (d : ℝ) / 2 + 1) (α := (ν + d) / 2)
    (fun _ => sq_nonneg _) (by fun_prop) hν0 hα (by linarith) (fun b hb => by
      refine ⟨kernel_sq_integrable hb a, ?_⟩
      rw [kernel_sq_integral hb, sqrt_div_pow hb, neg_add, Real.rpow_add hb, Real.rpow_neg_one]
      field_simp)
  have hc : ∀ a : Fin d, ∀ w : Fin d → ℝ, w a ^ 2 * gT ν d (w ⬝ᵥ w) =
      Real.Gamma ((ν + d) / 2) / (Real.Gamma (ν / 2) * √(Real.pi * ν) ^ d) *
        (w a ^ 2 * (1 + (w ⬝ᵥ w) / ν) ^ (-((ν + d) / 2))) := fun a w => by
    simp only [gT]; ring
  refine ⟨gT_mass hν0 d, fun a => ?_, fun a => ?_⟩
  · simp only [hc]
    exact (hmix a).1.const_mul _
  · simp only [hc]
    rw [integral_const_mul, (hmix a).2, sqrt_mul_pow hν0]
    have e : (ν + d) / 2 - ((d : ℝ) / 2 + 1) = ν / 2 - 1 := by ring
    have hG : Real.Gamma (ν / 2) = (ν / 2 - 1) * Real.Gamma (ν / 2 - 1) := by
      have := Real.Gamma_add_one (s := ν / 2 - 1) (by linarith)
      rwa [sub_add_cancel] at this
    rw [e, hG, Real.rpow_add hν0, Real.rpow_one]
    have := Real.Gamma_pos_of_pos hα
    have := Real.Gamma_pos_of_pos (s := ν / 2 - 1) (by linarith)
    have := Real.rpow_pos_of_pos hν0 ((d : ℝ) / 2)
    have : 0 < √Real.pi ^ d := by positivity
    have h2 : 0 < ν / 2 - 1 := by linarith
    have h3 : 0 < ν - 2 := by linarith
    have h4 : ν - 2 = 2 * (ν / 2 - 1) := by ring
    rw [h4]
    field_simp

theorem exp_tLogDensity {df : ℝ} (hdf : 0 < df) (mu : Fin d → ℝ) {S : Matrix (Fin d) (Fin d) ℝ}
    (hS : S.PosDef) (x : Fin d → ℝ) :
    Real.exp (tLogDensity df mu S x) = ell (gT df d) mu S x := by
  have hd := hS.det_pos
  have hα : 0 < (df + d) / 2 := by positivity
  have g1 := Real.Gamma_pos_of_pos hα
  have g2 := Real.Gamma_pos_of_pos (half_pos hdf)
  have hq : 0 ≤ (x - mu) ⬝ᵥ S⁻¹ *ᵥ (x - mu) := by
    have := hS.inv.posSemidef.dotProduct_mulVec_nonneg (x - mu)
    simpa using this
  have hr : 0 < 1 + ((x - mu) ⬝ᵥ S⁻¹ *ᵥ (x - mu)) / df := by positivity
  have e : tLogDensity df mu S x = -Real.log √S.det + (Real.log (Real.Gamma ((df + d) / 2) /
      (Real.Gamma (df / 2) * √(Real.pi * df) ^ d)) +
      Real.log (1 + ((x - mu) ⬝ᵥ S⁻¹ *ᵥ (x - mu)) / df) * -((df + d) / 2)) := by
    rw [tLogDensity, Real.log_sqrt hd.le, Real.log_div g1.ne' (by positivity),
      Real.log_mul g2.ne' (by positivity), Real.log_pow, Real.log_sqrt (by positivity)]
    ring
  rw [e, Real.exp_add, Real.exp_add, Real.exp_neg, Real.exp_log (Real.sqrt_pos.2 hd),
    Real.exp_log (by positivity), ← Real.rpow_def_of_pos hr, ell, gT]

end RS
