import Verif.Lemmas.StudentLaw
import Verif.Lemmas.FisherReal
import Verif.Lemmas.StudentEff

/-! The real Student estimator on samples of the law it is made for. -/
set_option autoImplicit false

namespace RS.FR
open Matrix ComplexOrder Filter Topology MeasureTheory ProbabilityTheory

section
variable {p : ℕ} {df : ℝ} {S : Matrix (Fin p) (Fin p) ℝ}

/-- The Fisher information of the real t law with `df` degrees of freedom. -/
noncomputable def fisherForm (df : ℝ) (S D E : Matrix (Fin p) (Fin p) ℝ) : ℝ :=
  1 / 2 * ((df + p) / (df + p + 2)) * (S⁻¹ * D * (S⁻¹ * E)).trace +
    1 / 4 * ((df + p) / (df + p + 2) - 1) * ((S⁻¹ * D).trace * (S⁻¹ * E).trace)

/-- The law. -/
noncomputable abbrev tLaw (df : ℝ) (S : Matrix (Fin p) (Fin p) ℝ) : Measure (Fin p → ℝ) :=
  lawOf fun x => Real.exp (tLogDensity df 0 S x)

theorem tLaw_popFixed (hdf : 0 < df) (hS : S.PosDef) : PopFixed df (tLaw df S) S := by
  have := realT_prob hdf hS
  have hu := realT_u hdf hS
  refine elliptical_popFixed hdf.le hS (realT_elliptical hdf hS) ?_
  have hpt : ∀ x : Fin p → ℝ, (df + p) / (df + qf S x) * qf S x =
      (df + p) * (qf S x / (df + qf S x)) := fun x => by ring
  simp only [hpt]
  rw [integral_const_mul, hu]
  field_simp

theorem tScore_mul (hdf : 0 < df) (hp : 0 < p) (hS : S.PosDef) {D E : Matrix (Fin p) (Fin p) ℝ}
    (hD : D.IsHermitian) (hE : E.IsHermitian) :
    Integrable (fun z => rtScore df S D z * rtScore df S E z) (tLaw df S) ∧
    ∫ z, rtScore df S D z * rtScore df S E z ∂tLaw df S = fisherForm df S D E := by
  refine ⟨rtScore_integrable hdf hS hD hE, ?_⟩
  rw [rtScore_mul hdf hp hS hD hE]
  rfl

theorem sandwich_herm (hS : S.PosDef) {K : Matrix (Fin p) (Fin p) ℝ} (hK : K.IsHermitian) :
    (S * K * S).IsHermitian := by
  rw [IsHermitian, conjTranspose_mul, conjTranspose_mul, hS.isHermitian.eq, hK.eq, Matrix.mul_assoc]

theorem wScore_eq (hS : S.PosDef) (K : Matrix (Fin p) (Fin p) ℝ) (x : Fin p → ℝ) :
    wScore df S K x = 2 * rtScore df S (S * K * S) x + (K * S).trace := by
  have hSd := (Matrix.isUnit_iff_isUnit_det S).1 hS.isUnit
  have e1 : S⁻¹ * (S * K * S) = K * S := by
    rw [Matrix.mul_assoc, ← Matrix.mul_assoc, nonsing_inv_mul _ hSd, Matrix.one_mul]
  have e2 : S⁻¹ * (S * K * S) * S⁻¹ = K := by
    rw [e1, Matrix.mul_assoc, mul_nonsing_inv _ hSd, Matrix.mul_one]
  unfold wScore rtScore
  rw [e2, e1]
  change _ * (star x ⬝ᵥ (K *ᵥ x)) = _
  ring

theorem mip_herm {K : Matrix (Fin p) (Fin p) ℝ} (hK : K.IsHermitian) (A : Matrix (Fin p) (Fin p) ℝ) :
    mip K A = (K * A).trace := by
  rw [mip, hK.eq]
  rfl

theorem tScore_integrable (hdf : 0 < df) (hS : S.PosDef) {D : Matrix (Fin p) (Fin p) ℝ}
    (hD : D.IsHermitian) : MemLp (rtScore df S D) 2 (tLaw df S) := by
  have := realT_prob hdf hS
  obtain ⟨C, -, hC⟩ := rtScore_bound hdf hS hD
  exact MemLp.of_bound (rtScore_measurable _ S D).aestronglyMeasurable C (Eventually.of_forall hC)

theorem tScore_mean (hdf : 0 < df) (hS : S.PosDef) {K : Matrix (Fin p) (Fin p) ℝ}
    (hK : K.IsHermitian) : ∫ z, rtScore df S (S * K * S) z ∂tLaw df S = 0 := by
  have := realT_prob hdf hS
  have h1 := score_mean hdf.le hS (tLaw_popFixed hdf hS) K
  simp only [wScore_eq hS] at h1
  rw [integral_add (((tScore_integrable hdf hS (sandwich_herm hS hK)).integrable (by norm_num)).const_mul _)
    (integrable_const _), integral_const, probReal_univ, one_smul, mip_herm hK, integral_const_mul] at h1
  linarith

/-- The variance of the influence is four times the Fisher information. -/
theorem wScore_var (hdf : 0 < df) (hp : 0 < p) (hS : S.PosDef) {K : Matrix (Fin p) (Fin p) ℝ}
    (hK : K.IsHermitian) :
    Var[wScore df S K; tLaw df S] = 4 * fisherForm df S (S * K * S) (S * K * S) := by
  have := realT_prob hdf hS
  have hm := tScore_integrable hdf hS (sandwich_herm hS hK)
  rw [show wScore df S K = fun x => 2 * rtScore df S (S * K * S) x + (K * S).trace from
    funext (wScore_eq hS K), variance_add_const (hm.const_mul 2).aestronglyMeasurable, variance_const_mul,
    variance_eq_sub hm, tScore_mean hdf hS hK,
    ← (tScore_mul hdf hp hS (sandwich_herm hS hK) (sandwich_herm hS hK)).2]
  simp only [Pi.pow_apply, sq, mul_zero, sub_zero]
  norm_num

theorem fisher_sandwich (hS : S.PosDef) {K : Matrix (Fin p) (Fin p) ℝ} (hK : K.IsHermitian)
    (E : Matrix (Fin p) (Fin p) ℝ) : fisherForm df S (S * K * S) (S * E * S) =
      1 / 2 * ((df + p) / (df + p + 2)) * mip K (S * E * S) +
        1 / 4 * ((df + p) / (df + p + 2) - 1) * ((K * S).trace * (E * S).trace) := by
  have hSd := (Matrix.isUnit_iff_isUnit_det S).1 hS.isUnit
  have e1 : ∀ K : Matrix (Fin p) (Fin p) ℝ, S⁻¹ * (S * K * S) = K * S := fun K => by
    rw [Matrix.mul_assoc, ← Matrix.mul_assoc, nonsing_inv_mul _ hSd, Matrix.one_mul]
  unfold fisherForm
  rw [e1, e1, mip_herm hK]
  simp only [Matrix.mul_assoc]

/-- The derivative of the population equation is twice the Fisher information. -/
theorem jac_fisher (hdf : 0 < df) (hp : 0 < p) (hS : S.PosDef) {K E : Matrix (Fin p) (Fin p) ℝ}
    (hK : K.IsHermitian) (hE : E.IsHermitian) :
    mip E (jac df (tLaw df S) S K) = 2 * fisherForm df S (S * K * S) (S * E * S) := by
  have := realT_prob hdf hS
  have hkp : 0 < df + (p : ℝ) := by positivity
  rw [jac_symm hS, (mip_wMoment (dWeight_int hdf.le hS K) E).2]
  have e : ∀ x, dWeight df S K x * hfm E x = (df + p)⁻¹ *
      (4 * (rtScore df S (S * K * S) x * rtScore df S (S * E * S) x) +
        2 * (K * S).trace * rtScore df S (S * E * S) x +
        2 * (E * S).trace * rtScore df S (S * K * S) x + (K * S).trace * (E * S).trace) :=
    fun x => by
      have h1 := wScore_eq (df := df) hS K x
      have h2 := wScore_eq (df := df) hS E x
      have h3 : dWeight df S K x * hfm E x = (df + p)⁻¹ * (wScore df S K x * wScore df S E x) := by
        have hq : df + qf S x ≠ 0 := by linarith [qf_nonneg hS x]
        unfold dWeight wScore
        field_simp
      rw [h3, h1, h2]
      ring
  have i1 := (tScore_integrable hdf hS (sandwich_herm hS hK)).integrable (by norm_num)
  have i2 := (tScore_integrable hdf hS (sandwich_herm hS hE)).integrable (by norm_num)
  obtain ⟨i3, e3⟩ := tScore_mul hdf hp hS (sandwich_herm hS hK) (sandwich_herm hS hE)
  simp only [e]
  rw [integral_const_mul, integral_add (((i3.const_mul _).fun_add (i2.const_mul _)).fun_add
      (i1.const_mul _)) (integrable_const _),
    integral_add ((i3.const_mul _).fun_add (i2.const_mul _)) (i1.const_mul _),
    integral_add (i3.const_mul _) (i2.const_mul _), integral_const, probReal_univ, one_smul,
    integral_const_mul, integral_const_mul, integral_const_mul, e3, tScore_mean hdf hS hK,
    tScore_mean hdf hS hE, fisher_sandwich hS hK]
  field_simp
  ring

theorem mip_self {E : Matrix (Fin p) (Fin p) ℝ} (h : mip E E = 0) : E = 0 := by
  rw [mip_apply] at h
  have h1 : ∀ i j, RCLike.re (star (E j i) * E j i) = ‖E j i‖ ^ 2 := fun i j => by
    rw [RCLike.star_def, RCLike.conj_mul, ← RCLike.ofReal_pow, RCLike.ofReal_re]
  simp only [h1] at h
  have h2 := (Finset.sum_eq_zero_iff_of_nonneg fun i _ => Finset.sum_nonneg fun j _ => sq_nonneg _).1 h
  ext j i
  have h3 := (Finset.sum_eq_zero_iff_of_nonneg fun j _ => sq_nonneg _).1 (h2 i (Finset.mem_univ i)) j
    (Finset.mem_univ j)
  simpa using h3

theorem real_smul_herm (c : ℝ) {K : Matrix (Fin p) (Fin p) ℝ} (hK : K.IsHermitian) :
    (c • K).IsHermitian := by
  rw [IsHermitian, conjTranspose_smul, hK.eq, star_trivial]

theorem jac_explicit (hdf : 0 < df) (hp : 0 < p) (hS : S.PosDef) {K : Matrix (Fin p) (Fin p) ℝ}
    (hK : K.IsHermitian) : jac df (tLaw df S) S K = ((df + p) / (df + p + 2)) • (S * K * S) +
      (1 / 2 * ((df + p) / (df + p + 2) - 1) * (K * S).trace) • S := by
  rw [← sub_eq_zero]
  apply mip_self
  have hE : (jac df (tLaw df S) S K - (((df + p) / (df + p + 2)) • (S * K * S) +
      (1 / 2 * ((df + p) / (df + p + 2) - 1) * (K * S).trace) • S)).IsHermitian :=
    ((sandwich_herm hS hK).sub (wMoment_herm _ _)).sub ((real_smul_herm _ (sandwich_herm hS hK)).add
      (real_smul_herm _ hS.isHermitian))
  set E := jac df (tLaw df S) S K - (((df + p) / (df + p + 2)) • (S * K * S) +
      (1 / 2 * ((df + p) / (df + p + 2) - 1) * (K * S).trace) • S)
  change mip E (jac df (tLaw df S) S K - _) = 0
  have r1 := mip_smul E (S * K * S) ((df + p) / (df + p + 2))
  have r2 := mip_smul E S (1 / 2 * ((df + p) / (df + p + 2) - 1) * (K * S).trace)
  rw [mip_sub, jac_fisher hdf hp hS hK hE, mip_add]
  refine sub_eq_zero.2 (Eq.trans ?_ (congrArg₂ (· + ·) r1 r2).symm)
  rw [fisher_sandwich hS hK, mip_sandwich hS.isHermitian K E, mip_comm _ E, mip_herm hE S]
  ring

/-- The solution of the influence equation. -/
noncomputable def solK (df : ℝ) (S H : Matrix (Fin p) (Fin p) ℝ) : Matrix (Fin p) (Fin p) ℝ :=
  ((df + p + 2) / (df + p)) • (H + ((H * S).trace / df) • S⁻¹)

theorem solK_herm (hS : S.PosDef) {H : Matrix (Fin p) (Fin p) ℝ} (hH : H.IsHermitian) :
    (solK df S H).IsHermitian :=
  real_smul_herm _ (hH.add (real_smul_herm _ hS.isHermitian.inv))

theorem solK_trace (hdf : 0 < df) (hp : 0 < p) (hS : S.PosDef) (H : Matrix (Fin p) (Fin p) ℝ) :
    (solK df S H * S).trace = (df + p + 2) / df * (H * S).trace := by
  have hSd := (Matrix.isUnit_iff_isUnit_det S).1 hS.isUnit
  have hp' : (0 : ℝ) < p := by exact_mod_cast hp
  unfold solK
  rw [Matrix.smul_mul, Matrix.add_mul, Matrix.smul_mul, nonsing_inv_mul _ hSd, trace_smul, trace_add,
    trace_smul, trace_one, Fintype.card_fin, smul_eq_mul, smul_eq_mul]
  field_simp

theorem solK_solves (hdf : 0 < df) (hp : 0 < p) (hS : S.PosDef) {H : Matrix (Fin p) (Fin p) ℝ}
    (hH : H.IsHermitian) : jac df (tLaw df S) S (solK df S H) = S * H * S := by
  have hSd := (Matrix.isUnit_iff_isUnit_det S).1 hS.isUnit
  have hp' : (0 : ℝ) < p := by exact_mod_cast hp
  rw [jac_explicit hdf hp hS (solK_herm hS hH), solK_trace hdf hp hS]
  unfold solK
  rw [Matrix.mul_smul, Matrix.smul_mul, Matrix.mul_add, Matrix.add_mul, Matrix.mul_smul, Matrix.smul_mul,
    mul_nonsing_inv _ hSd, Matrix.one_mul, smul_smul, smul_add, smul_smul, add_assoc, ← add_smul]
  have e1 : (df + p) / (df + p + 2) * ((df + p + 2) / (df + p)) = 1 := by field_simp
  have e2 : ((df + p) / (df + p + 2) * ((df + p + 2) / (df + p)) * ((H * S).trace / df) +
      1 / 2 * ((df + p) / (df + p + 2) - 1) * ((df + p + 2) / df * (H * S).trace)) = 0 := by
    field_simp
    ring
  rw [e2, e1, one_smul, zero_smul, add_zero]

/-- The asymptotic variance. -/
noncomputable def effVar (df : ℝ) (S H : Matrix (Fin p) (Fin p) ℝ) : ℝ :=
  2 * ((df + p + 2) / (df + p)) * ((H * S * (H * S)).trace + (H * S).trace ^ 2 / df)

theorem effVar_eq (hdf : 0 < df) (hp : 0 < p) (hS : S.PosDef) {H : Matrix (Fin p) (Fin p) ℝ}
    (hH : H.IsHermitian) :
    4 * fisherForm df S (S * solK df S H * S) (S * solK df S H * S) = effVar df S H := by
  have hSd := (Matrix.isUnit_iff_isUnit_det S).1 hS.isUnit
  have hK := solK_herm (df := df) hS hH
  have h := jac_fisher hdf hp hS hK hK
  rw [solK_solves hdf hp hS hH, mip_herm hK] at h
  rw [show (4 : ℝ) * fisherForm df S (S * solK df S H * S) (S * solK df S H * S) =
    2 * (2 * fisherForm df S (S * solK df S H * S) (S * solK df S H * S)) by ring, ← h]
  unfold solK effVar
  rw [Matrix.smul_mul, Matrix.add_mul, Matrix.smul_mul, trace_smul, trace_add, trace_smul, smul_eq_mul,
    smul_eq_mul, ← Matrix.mul_assoc S⁻¹, ← Matrix.mul_assoc S⁻¹, nonsing_inv_mul _ hSd, Matrix.one_mul]
  simp only [Matrix.mul_assoc]
  ring

/-- `tr(H D)` is twice the product of `D` with the direction of `K`. -/
theorem fisher_solK (hdf : 0 < df) (hp : 0 < p) (hS : S.PosDef) {H D : Matrix (Fin p) (Fin p) ℝ}
    (hH : H.IsHermitian) (hD : D.IsHermitian) :
    2 * fisherForm df S (S * solK df S H * S) D = (H * D).trace := by
  have hSd := (Matrix.isUnit_iff_isUnit_det S).1 hS.isUnit
  have e : D = S * (S⁻¹ * D * S⁻¹) * S := by
    rw [Matrix.mul_assoc, Matrix.mul_assoc, Matrix.mul_assoc, nonsing_inv_mul _ hSd, Matrix.mul_one,
      ← Matrix.mul_assoc, mul_nonsing_inv _ hSd, Matrix.one_mul]
  have hE : (S⁻¹ * D * S⁻¹).IsHermitian := by
    rw [IsHermitian, conjTranspose_mul, conjTranspose_mul, hS.isHermitian.inv.eq, hD.eq, Matrix.mul_assoc]
  conv_lhs => rw [e]
  rw [← jac_fisher hdf hp hS (solK_herm hS hH) hE, solK_solves hdf hp hS hH,
    mip_sandwich hS.isHermitian, ← e, mip_comm, mip_herm hH]

theorem fisher_cs (hdf : 0 < df) (hp : 0 < p) (hS : S.PosDef) {D E : Matrix (Fin p) (Fin p) ℝ}
    (hD : D.IsHermitian) (hE : E.IsHermitian) :
    fisherForm df S D E ^ 2 ≤ fisherForm df S D D * fisherForm df S E E := by
  obtain ⟨i1, e1⟩ := tScore_mul hdf hp hS hD hD
  obtain ⟨i2, e2⟩ := tScore_mul hdf hp hS hD hE
  obtain ⟨i3, e3⟩ := tScore_mul hdf hp hS hE hE
  have key : ∀ t : ℝ, 0 ≤ fisherForm df S E E * (t * t) + 2 * fisherForm df S D E * t +
      fisherForm df S D D := fun t => by
    have h0 : 0 ≤ ∫ z, (rtScore df S D z + t * rtScore df S E z) ^ 2 ∂tLaw df S :=
      integral_nonneg fun z => sq_nonneg _
    have e : ∀ z, (rtScore df S D z + t * rtScore df S E z) ^ 2 =
        rtScore df S D z * rtScore df S D z +
        2 * t * (rtScore df S D z * rtScore df S E z) +
        t * t * (rtScore df S E z * rtScore df S E z) := fun z => by ring
    simp only [e] at h0
    rw [integral_add (i1.fun_add (i2.const_mul _)) (i3.const_mul _), integral_add i1 (i2.const_mul _),
      integral_const_mul, integral_const_mul, e1, e2, e3] at h0
    linarith
  have := discrim_le_zero key
  unfold discrim at this
  nlinarith

end
end RS.FR
