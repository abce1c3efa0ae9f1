import Verif.Lemmas.StudentLaw
import Verif.Lemmas.Fisher

/-! The complex Student estimator on samples of the law it is made for. -/
set_option autoImplicit false

namespace RS
open Matrix ComplexOrder Filter Topology MeasureTheory ProbabilityTheory

section
variable {p : ℕ} {df : ℝ} {S : Matrix (Fin p) (Fin p) ℂ}

/-- The Fisher information of the complex t law with `2 df` degrees of freedom. -/
noncomputable def fisherForm (df : ℝ) (S D E : Matrix (Fin p) (Fin p) ℂ) : ℝ :=
  (df + p) / (df + p + 1) * (S⁻¹ * D * (S⁻¹ * E)).trace.re +
    ((df + p) / (df + p + 1) - 1) * ((S⁻¹ * D).trace.re * (S⁻¹ * E).trace.re)

/-- The law. -/
noncomputable abbrev tLaw (df : ℝ) (S : Matrix (Fin p) (Fin p) ℂ) : Measure (Fin p → ℂ) :=
  lawOf fun x => Real.exp (ctLogDensity (2 * df) 0 S x)

theorem tLaw_popFixed (hdf : 0 < df) (hS : S.PosDef) : PopFixed df (tLaw df S) S := by
  have hd : 0 < 2 * df := by linarith
  have := cplxT_prob hd hS
  have hu := cplxT_u hd hS
  rw [mul_div_cancel_left₀ df two_ne_zero] at hu
  refine elliptical_popFixed hdf.le hS (cplxT_elliptical _ hS) ?_
  have hpt : ∀ x : Fin p → ℂ, (df + p) / (df + qf S x) * qf S x =
      (df + p) * (qf S x / (df + qf S x)) := fun x => by ring
  simp only [hpt]
  rw [integral_const_mul, hu]
  field_simp

theorem tScore_mul (hdf : 0 < df) (hp : 0 < p) (hS : S.PosDef) {D E : Matrix (Fin p) (Fin p) ℂ}
    (hD : D.IsHermitian) (hE : E.IsHermitian) :
    Integrable (fun z => ctScore (2 * df) S D z * ctScore (2 * df) S E z) (tLaw df S) ∧
    ∫ z, ctScore (2 * df) S D z * ctScore (2 * df) S E z ∂tLaw df S = fisherForm df S D E := by
  have hd : 0 < 2 * df := by linarith
  refine ⟨ctScore_integrable hd hS hD hE, ?_⟩
  rw [ctScore_mul hd hp hS hD hE, mul_div_cancel_left₀ df two_ne_zero]
  rfl

theorem sandwich_herm (hS : S.PosDef) {K : Matrix (Fin p) (Fin p) ℂ} (hK : K.IsHermitian) :
    (S * K * S).IsHermitian := by
  rw [IsHermitian, conjTranspose_mul, conjTranspose_mul, hS.isHermitian.eq, hK.eq, Matrix.mul_assoc]

theorem wScore_eq (hS : S.PosDef) (K : Matrix (Fin p) (Fin p) ℂ) (x : Fin p → ℂ) :
    wScore df S K x = ctScore (2 * df) S (S * K * S) x + (K * S).trace.re := by
  have hSd := (Matrix.isUnit_iff_isUnit_det S).1 hS.isUnit
  have e1 : S⁻¹ * (S * K * S) = K * S := by
    rw [Matrix.mul_assoc, ← Matrix.mul_assoc, nonsing_inv_mul _ hSd, Matrix.one_mul]
  have e2 : S⁻¹ * (S * K * S) * S⁻¹ = K := by
    rw [e1, Matrix.mul_assoc, mul_nonsing_inv _ hSd, Matrix.mul_one]
  unfold wScore ctScore
  rw [e2, e1, mul_div_cancel_left₀ df two_ne_zero]
  change _ * (star x ⬝ᵥ (K *ᵥ x)).re = _
  ring

theorem mip_herm {K : Matrix (Fin p) (Fin p) ℂ} (hK : K.IsHermitian) (A : Matrix (Fin p) (Fin p) ℂ) :
    mip K A = (K * A).trace.re := by
  rw [mip, hK.eq]
  rfl

theorem tScore_integrable (hdf : 0 < df) (hS : S.PosDef) {D : Matrix (Fin p) (Fin p) ℂ}
    (hD : D.IsHermitian) : MemLp (ctScore (2 * df) S D) 2 (tLaw df S) := by
  have hd : 0 < 2 * df := by linarith
  have := cplxT_prob hd hS
  obtain ⟨C, -, hC⟩ := ctScore_bound hd hS hD
  exact MemLp.of_bound (ctScore_measurable _ S D).aestronglyMeasurable C (Eventually.of_forall hC)

theorem tScore_mean (hdf : 0 < df) (hS : S.PosDef) {K : Matrix (Fin p) (Fin p) ℂ}
    (hK : K.IsHermitian) : ∫ z, ctScore (2 * df) S (S * K * S) z ∂tLaw df S = 0 := by
  have hd : 0 < 2 * df := by linarith
  have := cplxT_prob hd hS
  have h1 := score_mean hdf.le hS (tLaw_popFixed hdf hS) K
  simp only [wScore_eq hS] at h1
  rw [integral_add ((tScore_integrable hdf hS (sandwich_herm hS hK)).integrable (by norm_num))
    (integrable_const _), integral_const, probReal_univ, one_smul, mip_herm hK] at h1
  linarith

/-- The variance of the influence is the Fisher information. -/
theorem wScore_var (hdf : 0 < df) (hp : 0 < p) (hS : S.PosDef) {K : Matrix (Fin p) (Fin p) ℂ}
    (hK : K.IsHermitian) :
    Var[wScore df S K; tLaw df S] = fisherForm df S (S * K * S) (S * K * S) := by
  have hd : 0 < 2 * df := by linarith
  have := cplxT_prob hd hS
  have hm := tScore_integrable hdf hS (sandwich_herm hS hK)
  rw [show wScore df S K = fun x => ctScore (2 * df) S (S * K * S) x + (K * S).trace.re from
    funext (wScore_eq hS K), variance_add_const hm.aestronglyMeasurable, variance_eq_sub hm,
    tScore_mean hdf hS hK, ← (tScore_mul hdf hp hS (sandwich_herm hS hK) (sandwich_herm hS hK)).2]
  simp only [Pi.pow_apply, sq, mul_zero, sub_zero]

theorem fisher_sandwich (hS : S.PosDef) {K : Matrix (Fin p) (Fin p) ℂ} (hK : K.IsHermitian)
    (E : Matrix (Fin p) (Fin p) ℂ) : fisherForm df S (S * K * S) (S * E * S) =
      (df + p) / (df + p + 1) * mip K (S * E * S) +
        ((df + p) / (df + p + 1) - 1) * ((K * S).trace.re * (E * S).trace.re) := by
  have hSd := (Matrix.isUnit_iff_isUnit_det S).1 hS.isUnit
  have e1 : ∀ K : Matrix (Fin p) (Fin p) ℂ, S⁻¹ * (S * K * S) = K * S := fun K => by
    rw [Matrix.mul_assoc, ← Matrix.mul_assoc, nonsing_inv_mul _ hSd, Matrix.one_mul]
  unfold fisherForm
  rw [e1, e1, mip_herm hK]
  simp only [Matrix.mul_assoc]

/-- The derivative of the population equation is the Fisher information. -/
theorem jac_fisher (hdf : 0 < df) (hp : 0 < p) (hS : S.PosDef) {K E : Matrix (Fin p) (Fin p) ℂ}
    (hK : K.IsHermitian) (hE : E.IsHermitian) :
    mip E (jac df (tLaw df S) S K) = fisherForm df S (S * K * S) (S * E * S) := by
  have hd : 0 < 2 * df := by linarith
  have := cplxT_prob hd hS
  have hkp : 0 < df + (p : ℝ) := by positivity
  rw [jac_symm hS, (mip_wMoment (dWeight_int hdf.le hS K) E).2]
  have e : ∀ x, dWeight df S K x * hfm E x = (df + p)⁻¹ *
      (ctScore (2 * df) S (S * K * S) x * ctScore (2 * df) S (S * E * S) x +
        (K * S).trace.re * ctScore (2 * df) S (S * E * S) x +
        (E * S).trace.re * ctScore (2 * df) S (S * K * S) x + (K * S).trace.re * (E * S).trace.re) :=
    fun x => by
      have h1 := wScore_eq (df := df) hS K x
      have h2 := wScore_eq (df := df) hS E x
      have h3 : dWeight df S K x * hfm E x = (df + p)⁻¹ * (wScore df S K x * wScore df S E x) := by
        have hq : df + qf S x ≠ 0 := by linarith [qf_nonneg hS x]
        unfold dWeight wScore
        field_simp
      rw [h3, h1, h2]
      ring
  have i1 := (tScore_integrable hdf hS (sandwich_herm hS hK)).integrable (by norm_num)
  have i2 := (tScore_integrable hdf hS (sandwich_herm hS hE)).integrable (by norm_num)
  obtain ⟨i3, e3⟩ := tScore_mul hdf hp hS (sandwich_herm hS hK) (sandwich_herm hS hE)
  simp only [e]
  rw [integral_const_mul, integral_add ((i3.fun_add (i2.const_mul _)).fun_add (i1.const_mul _)) (integrable_const _),
    integral_add (i3.fun_add (i2.const_mul _)) (i1.const_mul _), integral_add i3 (i2.const_mul _), e3,
    integral_const_mul, integral_const_mul, tScore_mean hdf hS hK, tScore_mean hdf hS hE, integral_const,
    probReal_univ, one_smul, fisher_sandwich hS hK]
  field_simp
  ring

theorem mip_self {E : Matrix (Fin p) (Fin p) ℂ} (h : mip E E = 0) : E = 0 := by
  rw [mip_apply] at h
  have h1 : ∀ i j, RCLike.re (star (E j i) * E j i) = ‖E j i‖ ^ 2 := fun i j => by
    rw [RCLike.star_def, RCLike.conj_mul, ← RCLike.ofReal_pow, RCLike.ofReal_re]
  simp only [h1] at h
  have h2 := (Finset.sum_eq_zero_iff_of_nonneg fun i _ => Finset.sum_nonneg fun j _ => sq_nonneg _).1 h
  ext j i
  have h3 := (Finset.sum_eq_zero_iff_of_nonneg fun j _ => sq_nonneg _).1 (h2 i (Finset.mem_univ i)) j
    (Finset.mem_univ j)
  simpa using h3

theorem real_smul_herm (c : ℝ) {K : Matrix (Fin p) (Fin p) ℂ} (hK : K.IsHermitian) :
    ((c : ℂ) • K).IsHermitian := by
  rw [IsHermitian, conjTranspose_smul, hK.eq, Complex.star_def, Complex.conj_ofReal]

theorem jac_explicit (hdf : 0 < df) (hp : 0 < p) (hS : S.PosDef) {K : Matrix (Fin p) (Fin p) ℂ}
    (hK : K.IsHermitian) : jac df (tLaw df S) S K = (((df + p) / (df + p + 1) : ℝ) : ℂ) • (S * K * S) +
      ((((df + p) / (df + p + 1) - 1) * (K * S).trace.re : ℝ) : ℂ) • S := by
  rw [← sub_eq_zero]
  apply mip_self
  have hE : (jac df (tLaw df S) S K - ((((df + p) / (df + p + 1) : ℝ) : ℂ) • (S * K * S) +
      ((((df + p) / (df + p + 1) - 1) * (K * S).trace.re : ℝ) : ℂ) • S)).IsHermitian :=
    ((sandwich_herm hS hK).sub (wMoment_herm _ _)).sub ((real_smul_herm _ (sandwich_herm hS hK)).add
      (real_smul_herm _ hS.isHermitian))
  set E := jac df (tLaw df S) S K - ((((df + p) / (df + p + 1) : ℝ) : ℂ) • (S * K * S) +
      ((((df + p) / (df + p + 1) - 1) * (K * S).trace.re : ℝ) : ℂ) • S)
  change mip E (jac df (tLaw df S) S K - _) = 0
  have r1 := mip_smul E (S * K * S) ((df + p) / (df + p + 1))
  have r2 := mip_smul E S (((df + p) / (df + p + 1) - 1) * (K * S).trace.re)
  rw [mip_sub, jac_fisher hdf hp hS hK hE, mip_add]
  refine sub_eq_zero.2 (Eq.trans ?_ (congrArg₂ (· + ·) r1 r2).symm)
  rw [fisher_sandwich hS hK, mip_sandwich hS.isHermitian K E, mip_comm _ E, mip_herm hE S]
  ring

/-- The solution of the influence equation. -/
noncomputable def solK (df : ℝ) (S H : Matrix (Fin p) (Fin p) ℂ) : Matrix (Fin p) (Fin p) ℂ :=
  (((df + p + 1) / (df + p) : ℝ) : ℂ) • (H + (((H * S).trace.re / df : ℝ) : ℂ) • S⁻¹)

theorem solK_herm (hS : S.PosDef) {H : Matrix (Fin p) (Fin p) ℂ} (hH : H.IsHermitian) :
    (solK df S H).IsHermitian :=
  real_smul_herm _ (hH.add (real_smul_herm _ hS.isHermitian.inv))

theorem solK_trace (hdf : 0 < df) (hp : 0 < p) (hS : S.PosDef) (H : Matrix (Fin p) (Fin p) ℂ) :
    (solK df S H * S).trace.re = (df + p + 1) / df * (H * S).trace.re := by
  have hSd := (Matrix.isUnit_iff_isUnit_det S).1 hS.isUnit
  have hp' : (0 : ℝ) < p := by exact_mod_cast hp
  unfold solK
  rw [Matrix.smul_mul, Matrix.add_mul, Matrix.smul_mul, nonsing_inv_mul _ hSd, trace_smul, trace_add,
    trace_smul, trace_one, Fintype.card_fin, smul_eq_mul, smul_eq_mul, Complex.re_ofReal_mul, Complex.add_re,
    Complex.re_ofReal_mul, Complex.natCast_re]
  field_simp

theorem solK_solves (hdf : 0 < df) (hp : 0 < p) (hS : S.PosDef) {H : Matrix (Fin p) (Fin p) ℂ}
    (hH : H.IsHermitian) : jac df (tLaw df S) S (solK df S H) = S * H * S := by
  have hSd := (Matrix.isUnit_iff_isUnit_det S).1 hS.isUnit
  have hp' : (0 : ℝ) < p := by exact_mod_cast hp
  rw [jac_explicit hdf hp hS (solK_herm hS hH), solK_trace hdf hp hS]
  unfold solK
  rw [Matrix.mul_smul, Matrix.smul_mul, Matrix.mul_add, Matrix.add_mul, Matrix.mul_smul, Matrix.smul_mul,
    mul_nonsing_inv _ hSd, Matrix.one_mul, smul_smul, smul_add, smul_smul, add_assoc, ← add_smul,
    ← Complex.ofReal_mul, ← Complex.ofReal_mul, ← Complex.ofReal_add]
  have e1 : (df + p) / (df + p + 1) * ((df + p + 1) / (df + p)) = 1 := by field_simp
  have e2 : ((df + p) / (df + p + 1) * ((df + p + 1) / (df + p)) * ((H * S).trace.re / df) +
      ((df + p) / (df + p + 1) - 1) * ((df + p + 1) / df * (H * S).trace.re)) = 0 := by
    field_simp
    ring
  rw [e2, e1, Complex.ofReal_one, one_smul, Complex.ofReal_zero, zero_smul, add_zero]

/-- The asymptotic variance. -/
noncomputable def effVar (df : ℝ) (S H : Matrix (Fin p) (Fin p) ℂ) : ℝ :=
  (df + p + 1) / (df + p) * ((H * S * (H * S)).trace.re + (H * S).trace.re ^ 2 / df)

theorem effVar_eq (hdf : 0 < df) (hp : 0 < p) (hS : S.PosDef) {H : Matrix (Fin p) (Fin p) ℂ}
    (hH : H.IsHermitian) :
    fisherForm df S (S * solK df S H * S) (S * solK df S H * S) = effVar df S H := by
  have hSd := (Matrix.isUnit_iff_isUnit_det S).1 hS.isUnit
  have hK := solK_herm (df := df) hS hH
  rw [← jac_fisher hdf hp hS hK hK, solK_solves hdf hp hS hH, mip_herm hK]
  unfold solK effVar
  rw [Matrix.smul_mul, Matrix.add_mul, Matrix.smul_mul, trace_smul, trace_add, trace_smul, smul_eq_mul,
    smul_eq_mul, Complex.re_ofReal_mul, Complex.add_re, Complex.re_ofReal_mul, ← Matrix.mul_assoc S⁻¹,
    ← Matrix.mul_assoc S⁻¹, nonsing_inv_mul _ hSd, Matrix.one_mul]
  simp only [Matrix.mul_assoc]
  ring

/-- `tr(H D)` is the product of `D` with the direction of `K`. -/
theorem fisher_solK (hdf : 0 < df) (hp : 0 < p) (hS : S.PosDef) {H D : Matrix (Fin p) (Fin p) ℂ}
    (hH : H.IsHermitian) (hD : D.IsHermitian) :
    fisherForm df S (S * solK df S H * S) D = (H * D).trace.re := by
  have hSd := (Matrix.isUnit_iff_isUnit_det S).1 hS.isUnit
  have e : D = S * (S⁻¹ * D * S⁻¹) * S := by
    rw [Matrix.mul_assoc, Matrix.mul_assoc, Matrix.mul_assoc, nonsing_inv_mul _ hSd, Matrix.mul_one,
      ← Matrix.mul_assoc, mul_nonsing_inv _ hSd, Matrix.one_mul]
  have hE : (S⁻¹ * D * S⁻¹).IsHermitian := by
    rw [IsHermitian, conjTranspose_mul, conjTranspose_mul, hS.isHermitian.inv.eq, hD.eq, Matrix.mul_assoc]
  conv_lhs => rw [e]
  rw [← jac_fisher hdf hp hS (solK_herm hS hH) hE, solK_solves hdf hp hS hH,
    mip_sandwich hS.isHermitian, ← e, mip_comm, mip_herm hH]

theorem fisher_cs (hdf : 0 < df) (hp : 0 < p) (hS : S.PosDef) {D E : Matrix (Fin p) (Fin p) ℂ}
    (hD : D.IsHermitian) (hE : E.IsHermitian) :
    fisherForm df S D E ^ 2 ≤ fisherForm df S D D * fisherForm df S E E := by
  obtain ⟨i1, e1⟩ := tScore_mul hdf hp hS hD hD
  obtain ⟨i2, e2⟩ := tScore_mul hdf hp hS hD hE
  obtain ⟨i3, e3⟩ := tScore_mul hdf hp hS hE hE
  have key : ∀ t : ℝ, 0 ≤ fisherForm df S E E * (t * t) + 2 * fisherForm df S D E * t +
      fisherForm df S D D := fun t => by
    have h0 : 0 ≤ ∫ z, (ctScore (2 * df) S D z + t * ctScore (2 * df) S E z) ^ 2 ∂tLaw df S :=
      integral_nonneg fun z => sq_nonneg _
    have e : ∀ z, (ctScore (2 * df) S D z + t * ctScore (2 * df) S E z) ^ 2 =
        ctScore (2 * df) S D z * ctScore (2 * df) S D z +
        2 * t * (ctScore (2 * df) S D z * ctScore (2 * df) S E z) +
        t * t * (ctScore (2 * df) S E z * ctScore (2 * df) S E z) := fun z => by ring
    simp only [e] at h0
    rw [integral_add (i1.fun_add (i2.const_mul _)) (i3.const_mul _), integral_add i1 (i2.const_mul _),
      integral_const_mul, integral_const_mul, e1, e2, e3] at h0
    linarith
  have := discrim_le_zero key
  unfold discrim at this
  nlinarith

end
end RS
