import Verif.Lemmas.HuberEll
import Verif.Lemmas.ChiSquare

/-! The squared distance under the laws of `rvs`, and the scale of the Huber estimate for them. -/
set_option autoImplicit false

namespace RS
open Matrix ComplexOrder Filter Topology MeasureTheory ProbabilityTheory

section
variable {p : ℕ}

/-- Open sets have positive probability under a positive density. -/
theorem lawOf_open {E : Type*} [TopologicalSpace E] [MeasureSpace E] [BorelSpace E]
    [(volume : Measure E).IsOpenPosMeasure] {f : E → ℝ} (hf : Measurable f) (hpos : ∀ x, 0 < f x)
    {U : Set E} (hU : IsOpen U) (hne : U.Nonempty) : lawOf f U ≠ 0 := by
  intro h
  have h2 : ∀ᵐ x ∂lawOf f, x ∉ U := measure_eq_zero_iff_ae_notMem.1 h
  rw [lawOf, ae_withDensity_iff hf.ennreal_ofReal] at h2
  have h3 : ∀ᵐ x ∂(volume : Measure E), x ∉ U := by
    filter_upwards [h2] with x hx
    exact hx (by rw [Ne, ENNReal.ofReal_eq_zero, not_le]; exact hpos x)
  exact (hU.measure_pos volume hne).ne' (measure_eq_zero_iff_ae_notMem.2 h3)

/-- The squared distance takes every non-negative value. -/
theorem qf_surj {𝕜 : Type} [RCLike 𝕜] (hp : 0 < p) {S : Matrix (Fin p) (Fin p) 𝕜} (hS : S.PosDef)
    {s : ℝ} (hs : 0 ≤ s) : ∃ v : Fin p → 𝕜, qf S v = s := by
  have hne : (Pi.single ⟨0, hp⟩ 1 : Fin p → 𝕜) ≠ 0 := by
    intro h
    have := congrFun h ⟨0, hp⟩
    simp at this
  set e : Fin p → 𝕜 := Pi.single ⟨0, hp⟩ 1
  have hq := qf_pos hS hne
  refine ⟨((√(s / qf S e) : ℝ) : 𝕜) • e, ?_⟩
  have h1 : qf S (((√(s / qf S e) : ℝ) : 𝕜) • e) = (√(s / qf S e) * √(s / qf S e)) * qf S e := by
    simp only [qf, star_smul, mulVec_smul, smul_dotProduct, dotProduct_smul, smul_eq_mul,
      RCLike.star_def, RCLike.conj_ofReal, RCLike.re_ofReal_mul]
    ring
  rw [h1, Real.mul_self_sqrt (by positivity)]
  field_simp

/-- The squared distance under an elliptical density. -/
theorem real_quad_law {g : ℝ → ℝ} (hg : RadialMass p g) {S : Matrix (Fin p) (Fin p) ℝ}
    (hS : S.PosDef) (F : ℝ → ℝ) :
    (Integrable (fun x => F (qf S x)) (lawOf (ell g 0 S)) ↔
      Integrable fun w : Fin p → ℝ => F (w ⬝ᵥ w) * g (w ⬝ᵥ w)) ∧
    ∫ x, F (qf S x) ∂lawOf (ell g 0 S) = ∫ w : Fin p → ℝ, F (w ⬝ᵥ w) * g (w ⬝ᵥ w) := by
  obtain ⟨A, hA, hI⟩ := ell_integral (F := ℝ) (m := 0) hg hS
  have hd : IsUnit A.det := by
    rw [isUnit_iff_ne_zero]; intro h
    have := hS.det_pos
    rw [← hA, det_mul, h, zero_mul] at this
    exact lt_irrefl _ this
  have hut : IsUnit Aᵀ.det := by rwa [det_transpose]
  have hq : ∀ w : Fin p → ℝ, qf S (0 + A *ᵥ w) = w ⬝ᵥ w := fun w => by
    rw [zero_add, qf_real, ← hA, Matrix.mul_inv_rev, mulVec_mulVec, Matrix.mul_assoc,
      nonsing_inv_mul _ hd, mul_one,
      ← vecMul_transpose, ← dotProduct_mulVec, mulVec_mulVec, mul_nonsing_inv _ hut, one_mulVec]
  obtain ⟨h1, h2⟩ := hI fun x => F (qf S x)
  simp only [hq, smul_eq_mul, mul_comm (g _)] at h1 h2
  exact ⟨h1, h2⟩

theorem halves_zero : halves (0 : Fin p → ℂ) = 0 := by
  refine (zEquiv p).injective ?_
  change zOf (halves 0) = zOf 0
  rw [zOf_halves]
  funext j
  simp [zOf]
  rfl

/-- Complex data: twice the squared distance. -/
theorem cplx_quad_law {g : ℝ → ℝ} (hg : RadialMass (p + p) g) {S : Matrix (Fin p) (Fin p) ℂ}
    (hS : S.PosDef) {f : (Fin p → ℂ) → ℝ}
    (hf : (fun x : Fin (p + p) → ℝ => f (zOf x)) = ell g 0 (realify S)) (F : ℝ → ℝ)
    (hF : Measurable F) :
    (Integrable (fun x => F (qf S x)) (lawOf f) ↔
      Integrable fun w : Fin (p + p) → ℝ => F ((w ⬝ᵥ w) / 2) * g (w ⬝ᵥ w)) ∧
    ∫ x, F (qf S x) ∂lawOf f = ∫ w : Fin (p + p) → ℝ, F ((w ⬝ᵥ w) / 2) * g (w ⬝ᵥ w) := by
  have hS' := (realify_posDef S).2 hS
  have hm : Measurable fun x => F (qf S x) := hF.comp (continuous_qf S).measurable
  have hz := (zOf_preserving p).measurable
  have e : ∀ w : Fin (p + p) → ℝ, F (qf S (zOf w)) = F (qf (realify S) w / 2) := fun w => by
    rw [qf_real, quad_realify_inv hS, qf_cplx, mul_div_cancel_left₀ _ two_ne_zero]
  obtain ⟨h1, h2⟩ := real_quad_law hg hS' fun t => F (t / 2)
  rw [← lawOf_zOf, hf, integral_map hz.aemeasurable hm.aestronglyMeasurable,
    integrable_map_measure hm.aestronglyMeasurable hz.aemeasurable]
  simp only [Function.comp_def, e]
  exact ⟨h1, h2⟩

theorem realN_quad (hp : 0 < p) {S : Matrix (Fin p) (Fin p) ℝ} (hS : S.PosDef) (F : ℝ → ℝ) :
    (Integrable (fun x => F (qf S x)) (lawOf fun x => Real.exp (normalLogDensity 0 S x)) ↔
      Integrable fun t => F t * chiPdf p t) ∧
    ∫ x, F (qf S x) ∂lawOf (fun x => Real.exp (normalLogDensity 0 S x)) =
      ∫ t, F t * chiPdf p t := by
  rw [show (fun x => Real.exp (normalLogDensity 0 S x)) = ell (gNormal p) 0 S from
    funext fun x => exp_normalLogDensity 0 hS x]
  obtain ⟨h1, h2⟩ := real_quad_law (gNormal_moments p).toRadialMass hS F
  obtain ⟨h3, h4⟩ := chi_quad hp F
  exact ⟨h1.trans h3, h2.trans h4⟩

theorem cplxN_quad (hp : 0 < p) {S : Matrix (Fin p) (Fin p) ℂ} (hS : S.PosDef) (F : ℝ → ℝ)
    (hF : Measurable F) :
    (Integrable (fun x => F (qf S x)) (lawOf fun x => Real.exp (cnormalLogDensity 0 S x)) ↔
      Integrable fun t => F (t / 2) * chiPdf (p + p) t) ∧
    ∫ x, F (qf S x) ∂lawOf (fun x => Real.exp (cnormalLogDensity 0 S x)) =
      ∫ t, F (t / 2) * chiPdf (p + p) t := by
  obtain ⟨h1, h2⟩ := cplx_quad_law (gNormal_moments (p + p)).toRadialMass hS
    (f := fun x => Real.exp (cnormalLogDensity 0 S x))
    (by rw [exp_cnormal_zOf 0 hS, halves_zero]) F hF
  obtain ⟨h3, h4⟩ := chi_quad (d := p + p) (by omega) fun t => F (t / 2)
  exact ⟨h1.trans h3, h2.trans h4⟩

/-- The strict Cauchy–Schwarz inequality behind the scale. -/
theorem scale_strict {α : Type*} [MeasurableSpace α] {μ : Measure α} [IsProbabilityMeasure μ]
    {q : α → ℝ} (hm : Measurable q) (h0 : ∀ x, 0 ≤ q x) (hi : Integrable q μ)
    (h2 : Integrable (fun x => q x ^ 2) μ) {a lbda : ℝ} (hl : 0 < lbda) (hla : lbda ≤ a)
    (hlow : μ {x | 0 < q x ∧ q x < a} ≠ 0) (hhigh : μ {x | a < q x} ≠ 0) :
    (∫ x, q x ∂μ) ^ 2 < (∫ x, min (q x) a ∂μ) * ∫ x, max 1 (q x / lbda) * q x ∂μ := by
  have ha : 0 < a := hl.trans_le hla
  have iA : Integrable (fun x => min (q x) a) μ := hi.inf (integrable_const a)
  have iB : ∀ c : ℝ, 0 < c → Integrable (fun x => max 1 (q x / c) * q x) μ := fun c hc => by
    have hmm : Measurable fun x => max 1 (q x / c) * q x := by fun_prop
    refine (hi.add (h2.div_const c)).mono' hmm.aestronglyMeasurable (Eventually.of_forall fun x => ?_)
    have hq := h0 x
    rw [Real.norm_of_nonneg (mul_nonneg (zero_le_one.trans (le_max_left _ _)) hq), Pi.add_apply]
    have h1 : max 1 (q x / c) ≤ 1 + q x / c := max_le
      (by have : 0 ≤ q x / c := by positivity
          linarith) (by linarith)
    calc max 1 (q x / c) * q x ≤ (1 + q x / c) * q x := mul_le_mul_of_nonneg_right h1 hq
      _ = _ := by ring
  set m := ∫ x, q x ∂μ
  set A := ∫ x, min (q x) a ∂μ
  have hA0 : 0 < A := by
    rw [integral_pos_iff_support_of_nonneg (fun x => le_min (h0 x) ha.le) iA, pos_iff_ne_zero]
    refine fun hz => hhigh (measure_mono_null (fun x (hx : a < q x) => ?_) hz)
    simp only [Function.mem_support]
    rw [min_eq_right hx.le]
    exact ha.ne'
  have hAm : A < m := by
    rw [← sub_pos, ← integral_sub hi iA, integral_pos_iff_support_of_nonneg
      (fun x => sub_nonneg.2 (min_le_left _ _)) (hi.sub iA), pos_iff_ne_zero]
    refine fun hz => hhigh (measure_mono_null (fun x (hx : a < q x) => ?_) hz)
    simp only [Function.mem_support]
    rw [min_eq_right hx.le]
    linarith
  have hBmono : ∫ x, max 1 (q x / a) * q x ∂μ ≤ ∫ x, max 1 (q x / lbda) * q x ∂μ := by
    refine integral_mono (iB a ha) (iB lbda hl) fun x => ?_
    exact mul_le_mul_of_nonneg_right (max_le_max le_rfl
      (div_le_div_of_nonneg_left (h0 x) hl hla)) (h0 x)
  set B := ∫ x, max 1 (q x / a) * q x ∂μ
  have hkey : 0 < m ^ 2 * A - 2 * m * A * m + A ^ 2 * B := by
    have iD : Integrable (fun x => m ^ 2 * min (q x) a - 2 * m * A * q x) μ :=
      (iA.const_mul _).sub (hi.const_mul _)
    have iE : Integrable (fun x => A ^ 2 * (max 1 (q x / a) * q x)) μ := (iB a ha).const_mul _
    have iT : Integrable (fun x => m ^ 2 * min (q x) a - 2 * m * A * q x +
        A ^ 2 * (max 1 (q x / a) * q x)) μ := iD.add iE
    have e : m ^ 2 * A - 2 * m * A * m + A ^ 2 * B =
        ∫ x, (m ^ 2 * min (q x) a - 2 * m * A * q x + A ^ 2 * (max 1 (q x / a) * q x)) ∂μ := by
      rw [integral_add iD iE, integral_sub (iA.const_mul _) (hi.const_mul _), integral_const_mul, integral_const_mul,
        integral_const_mul]
    have hlo : ∀ x, q x ≤ a → m ^ 2 * min (q x) a - 2 * m * A * q x +
        A ^ 2 * (max 1 (q x / a) * q x) = q x * (m - A) ^ 2 := fun x hx => by
      rw [min_eq_left hx, max_eq_left ((div_le_one ha).2 hx)]; ring
    have hhi : ∀ x, a < q x → m ^ 2 * min (q x) a - 2 * m * A * q x +
        A ^ 2 * (max 1 (q x / a) * q x) = (m * a - A * q x) ^ 2 / a := fun x hx => by
      rw [min_eq_right hx.le, max_eq_right ((one_le_div ha).2 hx.le)]
      field_simp; ring
    rw [e, integral_pos_iff_support_of_nonneg (fun x => ?_) iT, pos_iff_ne_zero]
    · refine fun hz => hlow (measure_mono_null (fun x (hx : 0 < q x ∧ q x < a) => ?_) hz)
      simp only [Function.mem_support]
      rw [hlo x hx.2.le]
      have : 0 < m - A := by linarith
      have := hx.1
      positivity
    · rcases le_or_gt (q x) a with hx | hx
      · simp only [Pi.zero_apply]; rw [hlo x hx]; exact mul_nonneg (h0 x) (sq_nonneg _)
      · simp only [Pi.zero_apply]; rw [hhi x hx]; positivity
  have h3 : 0 < A * (A * B - m ^ 2) := by nlinarith
  have h4 := (mul_pos_iff_of_pos_left hA0).1 h3
  nlinarith [mul_le_mul_of_nonneg_left hBmono hA0.le]

end
end RS
