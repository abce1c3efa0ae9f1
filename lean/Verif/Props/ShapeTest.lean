import Verif.Props.CohTest
import Verif.Lemmas.ShapeTest

/-
Testing whether the scatter matrix has a given shape with an estimate (C184).
-/
set_option autoImplicit false

namespace RS
open Matrix ComplexOrder Filter Topology MeasureTheory ProbabilityTheory

section
variable {p : ℕ}

theorem shapeStat_smul {𝕜 : Type} [RCLike 𝕜] {S T : Matrix (Fin p) (Fin p) 𝕜} (hS : S.PosDef) {c : ℝ} (hc : 0 < c) :
    shapeStat ((c : 𝕜) • S) T = shapeStat S T := by
  have hc' : (c : 𝕜) ≠ 0 := by exact_mod_cast hc.ne'
  have h1 : ((c : 𝕜) • S)⁻¹ = (c : 𝕜)⁻¹ • S⁻¹ := by
    refine Matrix.inv_eq_right_inv ?_
    rw [Matrix.smul_mul, Matrix.mul_smul, smul_smul, mul_inv_cancel₀ hc', one_smul,
      Matrix.mul_nonsing_inv S ((isUnit_iff_isUnit_det _).1 hS.isUnit)]
  have h2 : ((p / RCLike.re (((c : 𝕜) • S)⁻¹ * T).trace : ℝ) : 𝕜) • (((c : 𝕜) • S)⁻¹ * T) =
      ((p / RCLike.re (S⁻¹ * T).trace : ℝ) : 𝕜) • (S⁻¹ * T) := by
    rw [h1, Matrix.smul_mul, trace_smul, smul_eq_mul, ← RCLike.ofReal_inv, RCLike.re_ofReal_mul, smul_smul,
      ← RCLike.ofReal_mul]
    congr 2
    field_simp
  rw [shapeStat, shapeStat, h2]

/-- The statistic is the sum of the squares of the entries of a matrix that measures the difference. -/
theorem shapeStat_frob {𝕜 : Type} [RCLike 𝕜] {S T L : Matrix (Fin p) (Fin p) 𝕜} (hT : T.IsHermitian)
    (hL : Lᴴ * L = S⁻¹) : shapeStat S T = ∑ i, ∑ j,
      ‖(((p / RCLike.re (S⁻¹ * T).trace : ℝ) : 𝕜) • (L * T * Lᴴ) - 1) i j‖ ^ 2 := by
  set r : ℝ := p / RCLike.re (S⁻¹ * T).trace with hr
  have hD : ((r : 𝕜) • (L * T * Lᴴ) - 1)ᴴ = (r : 𝕜) • (L * T * Lᴴ) - 1 := by
    rw [conjTranspose_sub, conjTranspose_one, conjTranspose_smul, conjTranspose_mul,
      conjTranspose_mul, conjTranspose_conjTranspose, hT.eq, RCLike.star_def, RCLike.conj_ofReal, ← Matrix.mul_assoc]
  have htrL : ∀ T : Matrix (Fin p) (Fin p) 𝕜, (L * T * Lᴴ).trace = (S⁻¹ * T).trace := fun T => by
    rw [trace_mul_comm, ← Matrix.mul_assoc, hL]
  have hs : (L * T * Lᴴ * (L * T * Lᴴ)).trace = (S⁻¹ * T * (S⁻¹ * T)).trace := by
    rw [show L * T * Lᴴ * (L * T * Lᴴ) = L * (T * (S⁻¹ * T)) * Lᴴ by
      rw [← hL]; simp only [Matrix.mul_assoc], htrL, Matrix.mul_assoc]
  have h1 : shapeStat S T =
      RCLike.re (((r : 𝕜) • (L * T * Lᴴ) - 1) * ((r : 𝕜) • (L * T * Lᴴ) - 1)ᴴ).trace := by
    rw [hD, shapeStat, ← hr]
    simp only [Matrix.sub_mul, Matrix.mul_sub, Matrix.smul_mul, Matrix.mul_smul, Matrix.one_mul, Matrix.mul_one,
      trace_sub, trace_smul, htrL, hs]
  rw [h1]
  simp only [Matrix.trace, Matrix.diag, Matrix.mul_apply, conjTranspose_apply, map_sum, RCLike.star_def,
    RCLike.mul_conj]
  refine Finset.sum_congr rfl fun i _ => Finset.sum_congr rfl fun j _ => ?_
  rw [← RCLike.ofReal_pow, RCLike.ofReal_re]

/-- The statistic is never negative, and zero only if the shapes agree: `T` is a multiple of `S`. -/
theorem C184_zero {𝕜 : Type} [RCLike 𝕜] (hp : 0 < p) {S T : Matrix (Fin p) (Fin p) 𝕜} (hS : S.PosDef)
    (hT : T.PosDef) : 0 ≤ shapeStat S T ∧ (shapeStat S T = 0 ↔ ∃ c : ℝ, 0 < c ∧ T = (c : 𝕜) • S) := by
  have hp' : (0 : ℝ) < p := by exact_mod_cast hp
  have : Nonempty (Fin p) := ⟨⟨0, hp⟩⟩
  obtain ⟨L, hL1, hL2⟩ := posDef_root hS
  have hf := shapeStat_frob hT.isHermitian hL1
  have hpos : 0 < RCLike.re (S⁻¹ * T).trace := by
    have hpd : (L * T * Lᴴ).PosDef := hT.mul_mul_conjTranspose_same
      (vecMul_injective_of_isUnit ((IsUnit.of_mul_eq_one (S * Lᴴ)) (by rw [← Matrix.mul_assoc, hL2])))
    rw [← hL1, Matrix.mul_assoc, trace_mul_comm, ]
    exact (RCLike.pos_iff.1 hpd.trace_pos).1
  refine ⟨hf ▸ Finset.sum_nonneg fun i _ => Finset.sum_nonneg fun j _ => sq_nonneg _, fun h => ?_, ?_⟩
  · rw [hf, Finset.sum_eq_zero_iff_of_nonneg fun i _ => Finset.sum_nonneg fun j _ => sq_nonneg _] at h
    have hD : ((p / RCLike.re (S⁻¹ * T).trace : ℝ) : 𝕜) • (L * T * Lᴴ) = 1 := by
      rw [← sub_eq_zero]
      ext i j
      have h1 := h i (Finset.mem_univ i)
      rw [Finset.sum_eq_zero_iff_of_nonneg fun j _ => sq_nonneg _] at h1
      exact norm_eq_zero.1 (pow_eq_zero_iff two_ne_zero |>.1 (h1 j (Finset.mem_univ j)))
    set r : ℝ := p / RCLike.re (S⁻¹ * T).trace with hr
    have hr0 : 0 < r := div_pos hp' hpos
    have hr1 : (r : 𝕜) ≠ 0 := by exact_mod_cast hr0.ne'
    have hSd : IsUnit S.det := (isUnit_iff_isUnit_det _).1 hS.isUnit
    have h2 : (r : 𝕜) • (S⁻¹ * T * S⁻¹) = S⁻¹ := by
      have := congrArg (fun M => Lᴴ * M * L) hD
      simp only [Matrix.mul_smul, Matrix.smul_mul, Matrix.mul_one] at this
      rw [hL1, show Lᴴ * (L * T * Lᴴ) * L = (Lᴴ * L) * T * (Lᴴ * L) by simp only [Matrix.mul_assoc], hL1] at this
      exact this
    have h3 : (r : 𝕜) • T = S := by
      have := congrArg (fun M => S * M * S) h2
      simp only [Matrix.mul_smul, Matrix.smul_mul] at this
      rw [show S * (S⁻¹ * T * S⁻¹) * S = (S * S⁻¹) * T * (S⁻¹ * S) by simp only [Matrix.mul_assoc],
        Matrix.mul_nonsing_inv S hSd, Matrix.nonsing_inv_mul S hSd, Matrix.one_mul, Matrix.mul_one,
        Matrix.one_mul] at this
      exact this
    refine ⟨r⁻¹, inv_pos.2 hr0, ?_⟩
    rw [← h3, smul_smul, RCLike.ofReal_inv, inv_mul_cancel₀ hr1, one_smul]
  · rintro ⟨c, hc, rfl⟩
    have hc' : (c : 𝕜) ≠ 0 := by exact_mod_cast hc.ne'
    have e : S⁻¹ * ((c : 𝕜) • S) = (c : 𝕜) • 1 := by
      rw [Matrix.mul_smul, Matrix.nonsing_inv_mul S ((isUnit_iff_isUnit_det _).1 hS.isUnit)]
    have e2 : ((p / RCLike.re ((c : 𝕜) • (1 : Matrix (Fin p) (Fin p) 𝕜)).trace : ℝ) : 𝕜) •
        ((c : 𝕜) • (1 : Matrix (Fin p) (Fin p) 𝕜)) = 1 := by
      rw [trace_smul, trace_one, Fintype.card_fin, smul_eq_mul, RCLike.re_ofReal_mul, RCLike.natCast_re, smul_smul,
        ← RCLike.ofReal_mul, show (p / (c * p) * c : ℝ) = 1 by field_simp, RCLike.ofReal_one, one_smul]
    rw [shapeStat, e, e2, sub_self, Matrix.zero_mul, trace_zero, map_zero]

variable {Ω : Type*} [MeasurableSpace Ω] {P : Measure Ω} [IsProbabilityMeasure P]

omit [MeasurableSpace Ω] in
theorem tylerSol_posDef {𝕜 : Type} [RCLike 𝕜] {x : ℕ → Ω → Fin p → 𝕜} {name : String}
    (hname : name = "trace" ∨ name = "determinant" ∨ name = "element") (hp : 0 < p)
    {S : Matrix (Fin p) (Fin p) 𝕜} (hS : S.PosDef) (N : ℕ) (ω : Ω) : (tylerSol name S x N ω).PosDef := by
  rw [tylerSol]
  split_ifs with h
  · exact toName_posDef hname hp h.2.choose_spec.1
  · exact hS

omit [MeasurableSpace Ω] in
theorem solOf_posDef {𝕜 : Type} [RCLike 𝕜] {x : ℕ → Ω → Fin p → 𝕜} {nu : ℝ}
    {S : Matrix (Fin p) (Fin p) 𝕜} (hS : S.PosDef) (N : ℕ) (ω : Ω) : (solOf nu S x N ω).PosDef := by
  rw [solOf]
  split_ifs with h
  · exact h.2.choose_spec.1
  · exact hS

/-- Complex data, Tyler's estimator: for every elliptical law with scatter matrix `S` (any multiple of it),
with or without moments, and every normalisation, `N` times the distance of the shape of the estimate from
the shape of `S` converges in distribution to `1 + 1/p` times a chi-square variable (the sum of the squares
of independent standard normal variables) with `p² - 1` degrees of freedom. -/
theorem C184_tyler_complex {x : ℕ → Ω → Fin p → ℂ} {μ : Measure (Fin p → ℂ)} (h : IIDSamples P x μ)
    (hμ : NullSubspaces μ) (hp : 0 < p) (S : Matrix (Fin p) (Fin p) ℂ) (hS : S.PosDef) (hE : EllipticalLaw μ S)
    (name : String) (hname : name = "trace" ∨ name = "determinant" ∨ name = "element") :
    ∃ T : ℕ → Ω → Matrix (Fin p) (Fin p) ℂ,
      (∀ᵐ ω ∂P, ∀ N, p < N → ∀ env : NumEnv N p ℂ, env.eigh.Ok →
        SettlesAt (fun init tol iterMax =>
          complexTylerFixedPoint env (firstSamples x ω N) init tol iterMax name) (T N ω)) ∧
      TendstoInDistribution (fun (N : ℕ) ω => N * shapeStat S (T N ω)) atTop
        (fun z : Fin (p ^ 2 - 1) → ℝ => (1 + 1 / p) * ∑ i, z i ^ 2) (fun _ => P)
        (Measure.pi fun _ => gaussianReal 0 1) := by
  have := h.prob
  have hp' : (0 : ℝ) < p := by exact_mod_cast hp
  have hc := inv_pos.2 (toName_normalise hname hp hS).1
  have hS' := toName_posDef hname hp hS
  have hE' : EllipticalLaw μ (toName name S) := elliptical_smul hE hc
  refine ⟨tylerSol name (toName name S) x, ?_, ?_⟩
  · filter_upwards [h.generalPosition hμ] with ω hg N hN env hs
    obtain ⟨Q, a1, a2, a3⟩ := tylerSol_spec name hp (toName name S) hN (hg N)
    rw [a3]
    exact tyler_settles_complex hname hp hN (hg N) a1 a2 env hs
  · have key := shape_limit (c := 1 + 1 / p) (P := P) (hermCoordsComplex p) (d := p ^ 2 - 1)
      (by rw [Fintype.card_prod, Fintype.card_fin, ← pow_two, Nat.sub_add_cancel (Nat.pow_pos hp)]) hp hS'
      (tylerSol_posDef (x := x) hname hp hS') (by positivity) fun g H hH hm hg h0 => by
        refine limit_congr (tyler_delta hname (sphere_complex hμ hp hS' hE') one_pos h hμ
          hp hS' (elliptical_tyler hμ hp hS' hE') (toName_normalised hname hp hS) hH hm hg) rfl ?_
        rw [tylerVar, shapePart_zero name h0]
        congr 2
        field_simp
    refine key.congr (fun N => Eventually.of_forall fun ω => ?_) (EventuallyEq.refl _ _)
    exact congrArg _ (shapeStat_smul hS hc)

/-- Real data, Tyler's estimator: `2 (1 + 2/p)` times a chi-square variable with `p (p + 1)/2 - 1` degrees
of freedom. -/
theorem C184_tyler_real {x : ℕ → Ω → Fin p → ℝ} {μ : Measure (Fin p → ℝ)} (h : IIDSamples P x μ)
    (hμ : NullSubspaces μ) (hp : 0 < p) (S : Matrix (Fin p) (Fin p) ℝ) (hS : S.PosDef) (hE : EllipticalLaw μ S)
    (name : String) (hname : name = "trace" ∨ name = "determinant" ∨ name = "element") :
    ∃ T : ℕ → Ω → Matrix (Fin p) (Fin p) ℝ,
      (∀ᵐ ω ∂P, ∀ N, p < N → ∀ env : NumEnv N p ℝ, env.eigh.Ok →
        SettlesAt (fun init tol iterMax =>
          tylerFixedPoint env (firstSamples x ω N) init tol iterMax name) (T N ω)) ∧
      TendstoInDistribution (fun (N : ℕ) ω => N * shapeStat S (T N ω)) atTop
        (fun z : Fin (p * (p + 1) / 2 - 1) → ℝ => 2 * (1 + 2 / p) * ∑ i, z i ^ 2) (fun _ => P)
        (Measure.pi fun _ => gaussianReal 0 1) := by
  have := h.prob
  have hp' : (0 : ℝ) < p := by exact_mod_cast hp
  have hc := inv_pos.2 (toName_normalise hname hp hS).1
  have hS' := toName_posDef hname hp hS
  have hE' : EllipticalLaw μ (toName name S) := elliptical_smul hE hc
  refine ⟨tylerSol name (toName name S) x, ?_, ?_⟩
  · filter_upwards [h.generalPosition hμ] with ω hg N hN env hs
    obtain ⟨Q, a1, a2, a3⟩ := tylerSol_spec name hp (toName name S) hN (hg N)
    rw [a3]
    exact tyler_settles_real hname hp hN (hg N) a1 a2 env hs
  · have key := shape_limit (c := 2 * (1 + 2 / p)) (P := P) (hermCoordsReal p) (d := p * (p + 1) / 2 - 1)
      (sym2_card hp) hp hS'
      (tylerSol_posDef (x := x) hname hp hS') (by positivity) fun g H hH hm hg h0 => by
        refine limit_congr (tyler_delta hname (sphere_real hμ hp hS' hE') two_pos h hμ
          hp hS' (elliptical_tyler hμ hp hS' hE') (toName_normalised hname hp hS) hH hm hg) rfl ?_
        rw [tylerVar, shapePart_zero name h0]
        congr 2
        field_simp
    refine key.congr (fun N => Eventually.of_forall fun ω => ?_) (EventuallyEq.refl _ _)
    exact congrArg _ (shapeStat_smul hS hc)

/-- The Student-t estimator on samples of the complex t law with `2 df` degrees of freedom. -/
theorem C184_student_complex {x : ℕ → Ω → Fin p → ℂ} (hp : 0 < p) (df : ℝ) (hdf : 0 < df)
    (S : Matrix (Fin p) (Fin p) ℂ) (hS : S.PosDef)
    (h : IIDSamples P x (lawOf fun x => Real.exp (ctLogDensity (2 * df) 0 S x))) :
    ∃ T : ℕ → Ω → Matrix (Fin p) (Fin p) ℂ,
      (∀ᵐ ω ∂P, ∀ N, p ≤ N → ∀ env : NumEnv N p ℂ, env.eigh.Ok →
        SettlesAt (fun init tol iterMax =>
          complexStudentFixedPoint env (firstSamples x ω N) df init tol iterMax) (T N ω)) ∧
      TendstoInDistribution (fun (N : ℕ) ω => N * shapeStat S (T N ω)) atTop
        (fun z : Fin (p ^ 2 - 1) → ℝ => (1 + 1 / (df + p)) * ∑ i, z i ^ 2) (fun _ => P)
        (Measure.pi fun _ => gaussianReal 0 1) := by
  have hp' : (0 : ℝ) < p := by exact_mod_cast hp
  refine ⟨solOf df S x, ?_, ?_⟩
  · filter_upwards [h.generalPosition (lawOf_null_cplx _)] with ω hg N hN env hs
    obtain ⟨h1, h2⟩ := solOf_spec hdf hp S hN (hg N)
    exact settles_complex hp hdf (student_spans _ (generalPosition_student (hg N) hN hdf)) h1 h2 env hs
  · refine shape_limit (hermCoordsComplex p)
      (by rw [Fintype.card_prod, Fintype.card_fin, ← pow_two, Nat.sub_add_cancel (Nat.pow_pos hp)]) hp hS
      (solOf_posDef hS) (by positivity) fun g H hH hm hg h0 => ?_
    refine limit_congr (student_delta h (lawOf_null_cplx _) hp hdf hS (tLaw_popFixed hdf hS) hH
      (solK_solves hdf hp hS hH) hm hg) rfl ?_
    congr 1
    refine ((wScore_var hdf hp hS (solK_herm hS hH)).trans (effVar_eq hdf hp hS hH)).trans ?_
    have h0' : (H * S).trace.re = 0 := h0
    change (df + p + 1) / (df + p) * ((H * S * (H * S)).trace.re + (H * S).trace.re ^ 2 / df) =
      (1 + 1 / (df + p)) * (H * S * (H * S)).trace.re
    rw [h0']
    field_simp
    ring

/-- The Student-t estimator on samples of the real t law with `df/2` degrees of freedom. -/
theorem C184_student_real {x : ℕ → Ω → Fin p → ℝ} (hp : 0 < p) (df : ℝ) (hdf : 0 < df)
    (S : Matrix (Fin p) (Fin p) ℝ) (hS : S.PosDef)
    (h : IIDSamples P x (lawOf fun x => Real.exp (tLogDensity (df / 2) 0 S x))) :
    ∃ T : ℕ → Ω → Matrix (Fin p) (Fin p) ℝ,
      (∀ᵐ ω ∂P, ∀ N, p ≤ N → ∀ env : NumEnv N p ℝ, env.eigh.Ok →
        SettlesAt (fun init tol iterMax =>
          studentFixedPoint env (firstSamples x ω N) df init tol iterMax) (T N ω)) ∧
      TendstoInDistribution (fun (N : ℕ) ω => N * shapeStat S (T N ω)) atTop
        (fun z : Fin (p * (p + 1) / 2 - 1) → ℝ => 2 * (1 + 2 / (df / 2 + p)) * ∑ i, z i ^ 2) (fun _ => P)
        (Measure.pi fun _ => gaussianReal 0 1) := by
  have hp' : (0 : ℝ) < p := by exact_mod_cast hp
  have hnu := half_pos hdf
  refine ⟨solOf (df / 2) S x, ?_, ?_⟩
  · filter_upwards [h.generalPosition (lawOf_null_real _)] with ω hg N hN env hs
    obtain ⟨h1, h2⟩ := solOf_spec hnu hp S hN (hg N)
    exact settles_real hp hdf (student_spans _ (generalPosition_student (hg N) hN hnu)) h1 h2 env hs
  · refine shape_limit (hermCoordsReal p) (sym2_card hp) hp hS
      (solOf_posDef hS) (by positivity) fun g H hH hm hg h0 => ?_
    refine limit_congr (student_delta h (lawOf_null_real _) hp hnu hS (FR.tLaw_popFixed hnu hS) hH
      (FR.solK_solves hnu hp hS hH) hm hg) rfl ?_
    congr 1
    refine ((FR.wScore_var hnu hp hS (FR.solK_herm hS hH)).trans (FR.effVar_eq hnu hp hS hH)).trans ?_
    have h0' : (H * S).trace = 0 := h0
    change 2 * ((df / 2 + p + 2) / (df / 2 + p)) * ((H * S * (H * S)).trace + (H * S).trace ^ 2 / (df / 2)) =
      2 * (1 + 2 / (df / 2 + p)) * (H * S * (H * S)).trace
    rw [h0']
    field_simp
    ring

theorem shapeStat_measurable (S : Matrix (Fin p) (Fin p) ℂ) :
    Measurable fun a : Fin p → Fin p → ℂ => shapeStat S (of a) := by
  have he : ∀ k l, Measurable fun a : Fin p → Fin p → ℂ => a k l := fun k l =>
    (measurable_pi_apply l).comp (measurable_pi_apply k)
  have h1 : ∀ i j, Measurable fun a : Fin p → Fin p → ℂ => (S⁻¹ * of a) i j := fun i j => by
    simp only [Matrix.mul_apply, of_apply]
    exact Finset.measurable_fun_sum _ fun k _ => (he k j).const_mul _
  have h2 : Measurable fun a : Fin p → Fin p → ℂ => (p / RCLike.re (S⁻¹ * of a).trace : ℝ) := by
    refine measurable_const.div (Complex.measurable_re.comp ?_)
    exact Finset.measurable_fun_sum _ fun k _ => h1 k k
  have h3 : ∀ i j, Measurable fun a : Fin p → Fin p → ℂ =>
      ((((p / RCLike.re (S⁻¹ * of a).trace : ℝ)) : ℂ) • (S⁻¹ * of a) - 1) i j := fun i j => by
    simp only [Matrix.sub_apply, Matrix.smul_apply, smul_eq_mul]
    exact ((Complex.measurable_ofReal.comp h2).mul (h1 i j)).sub_const _
  refine Complex.measurable_re.comp (Finset.measurable_fun_sum _ fun i _ => ?_)
  simp only [Matrix.diag, Matrix.mul_apply]
  exact Finset.measurable_fun_sum _ fun j _ => (h3 i j).mul (h3 j i)

/-- `ComplexEmpiricalCovariance` on samples of an elliptical law with mean zero, covariance `S` and finite
fourth moments: the factor is `E[(z^H S⁻¹ z)²] / (p (p + 1))`, which depends on the law. -/
theorem C184_empirical {x : ℕ → Ω → Fin p → ℂ} {μ : Measure (Fin p → ℂ)} {S : Matrix (Fin p) (Fin p) ℂ}
    (h : IIDSamples P x μ) (hp : 0 < p) (hS : S.PosDef) (hE : EllipticalLaw μ S)
    (hM : MeanCov μ 0 S) (h4 : FourthMoment μ) (centered : Bool) :
    ∃ C : ℕ → Ω → Matrix (Fin p) (Fin p) ℂ,
      (∀ N, 0 < N → ∀ ω, ∃ loc, complexEmpCovFit (.cplx (.d2 N p (firstSamples x ω N))) centered =
        .ok ⟨⟨p, loc⟩, .cplx (.d2 p p (C N ω))⟩) ∧
      TendstoInDistribution (fun (N : ℕ) ω => N * shapeStat S (C N ω)) atTop
        (fun z : Fin (p ^ 2 - 1) → ℝ =>
          (∫ z, (star z ⬝ᵥ S⁻¹ *ᵥ z).re ^ 2 ∂μ) / (p * (p + 1)) * ∑ i, z i ^ 2) (fun _ => P)
        (Measure.pi fun _ => gaussianReal 0 1) := by
  have hpr := h.prob
  have hp' : (0 : ℝ) < p := by exact_mod_cast hp
  refine ⟨fun N ω => complexEmpiricalCovariance (firstSamples x ω N) centered,
    fun N hN ω => emp_fit hN hp _ centered, ?_⟩
  refine shape_limit_herm (hermCoordsComplex p)
    (by rw [Fintype.card_prod, Fintype.card_fin, ← pow_two, Nat.sub_add_cancel (Nat.pow_pos hp)]) hp hS
    (fun N ω => (C25_posSemidef _ centered).isHermitian) (emp_consistent h hM centered fun _ => rfl)
    (fun N => by simpa using measurable_of_mip (shapeStat_measurable S) (emp_mip_measurable h centered N) 0)
    (div_pos (meanCov_qf_sq_pos hp hS hM h4) (by positivity)).le fun g H hH hm hg h0 => ?_
  refine limit_congr (emp_delta h hM h4 hS.isHermitian centered (fun _ => rfl) g H hH hm hg) rfl ?_
  have e1 : (H * S).trace.re = 0 := h0
  congr 1
  have hmem : MemLp (fun z : Fin p → ℂ => (star z ⬝ᵥ H *ᵥ z).re) 2 μ := by
    have := trForm_memLp h4 H 0
    simp only [sub_zero, trForm, outerC, trForm_outer_herm hH] at this
    exact this
  have hmean : ∫ z, (star z ⬝ᵥ H *ᵥ z).re ∂μ = 0 := by
    have := trForm_mean (fun a b => hM.outer_centred a b) H
    simp only [sub_zero, trForm, outerC, trForm_outer_herm hH] at this
    rw [this, hH.eq, e1]
  simp only [sub_zero]
  rw [variance_eq_sub hmem]
  simp only [Pi.pow_apply]
  rw [elliptical_var hp hS hE h4 hH, hmean, e1]
  change _ * ((∫ z, (star z ⬝ᵥ S⁻¹ *ᵥ z).re ^ 2 ∂μ) / _) - _ = _ * (H * S * (H * S)).trace.re
  ring

/-- On normal samples the factor is 1. -/
theorem C184_normal {x : ℕ → Ω → Fin p → ℂ} {S : Matrix (Fin p) (Fin p) ℂ} (hp : 0 < p) (hS : S.PosDef)
    (h : IIDSamples P x (lawOf fun z => Real.exp (cnormalLogDensity 0 S z))) (centered : Bool) :
    ∃ C : ℕ → Ω → Matrix (Fin p) (Fin p) ℂ,
      (∀ N, 0 < N → ∀ ω, ∃ loc, complexEmpCovFit (.cplx (.d2 N p (firstSamples x ω N))) centered =
        .ok ⟨⟨p, loc⟩, .cplx (.d2 p p (C N ω))⟩) ∧
      TendstoInDistribution (fun (N : ℕ) ω => N * shapeStat S (C N ω)) atTop
        (fun z : Fin (p ^ 2 - 1) → ℝ => ∑ i, z i ^ 2) (fun _ => P) (Measure.pi fun _ => gaussianReal 0 1) := by
  have hp' : (0 : ℝ) < p := by exact_mod_cast hp
  obtain ⟨C, a1, a2⟩ := C184_empirical h hp hS (cplxN_elliptical hS) (cplxN_meanCov hS) (cplxN_fourth hp hS) centered
  have e : ∫ z, (star z ⬝ᵥ S⁻¹ *ᵥ z).re ^ 2 ∂lawOf (fun z => Real.exp (cnormalLogDensity 0 S z)) = p * (p + 1) :=
    cplxN_qf_sq hp hS
  refine ⟨C, a1, a2.congr (fun N => EventuallyEq.refl _ _) (Eventually.of_forall fun z => ?_)⟩
  simp only
  rw [e, div_self (by positivity), one_mul]

/-- On samples of the complex t law with `ν > 4` degrees of freedom the factor is `(ν - 2)/(ν - 4)`: the
threshold that is right for normal samples is too small. -/
theorem C184_t {x : ℕ → Ω → Fin p → ℂ} {S : Matrix (Fin p) (Fin p) ℂ} (hp : 0 < p) (hS : S.PosDef) (ν : ℝ)
    (hν : 4 < ν) (h : IIDSamples P x (lawOf fun z => Real.exp (ctLogDensity ν 0 S z))) (centered : Bool) :
    ∃ C : ℕ → Ω → Matrix (Fin p) (Fin p) ℂ,
      (∀ N, 0 < N → ∀ ω, ∃ loc, complexEmpCovFit (.cplx (.d2 N p (firstSamples x ω N))) centered =
        .ok ⟨⟨p, loc⟩, .cplx (.d2 p p (C N ω))⟩) ∧
      TendstoInDistribution (fun (N : ℕ) ω => N * shapeStat S (C N ω)) atTop
        (fun z : Fin (p ^ 2 - 1) → ℝ => (ν - 2) / (ν - 4) * ∑ i, z i ^ 2) (fun _ => P)
        (Measure.pi fun _ => gaussianReal 0 1) := by
  have hp' : (0 : ℝ) < p := by exact_mod_cast hp
  have hν0 : 0 < ν := by linarith
  have hν2 : 0 < ν - 2 := by linarith
  have hc : 0 < ν / (ν - 2) := by positivity
  have hS' : (((ν / (ν - 2) : ℝ) : ℂ) • S).PosDef := hS.smul (by exact_mod_cast hc)
  obtain ⟨C, a1, a2⟩ := C184_empirical h hp hS' (elliptical_smul (cplxT_elliptical ν hS) hc)
    (cplxT_meanCov hS (by linarith)) ((cplxT_fourth hν0 hp hS).2 hν) centered
  refine ⟨C, a1, a2.congr (fun N => Eventually.of_forall fun ω => ?_) (Eventually.of_forall fun z => ?_)⟩
  · exact congrArg _ (shapeStat_smul hS hc)
  · simp only
    rw [cplxT_scaled_sq hp hS hν, mul_div_cancel_left₀ _ (by positivity)]

/-- The test by Tyler's estimator on complex data: the threshold `(1 + 1/p) t` has in the limit the false
alarm rate of a chi-square variable with `p² - 1` degrees of freedom, whatever the elliptical law. -/
theorem C184_level_complex {x : ℕ → Ω → Fin p → ℂ} {μ : Measure (Fin p → ℂ)} (h : IIDSamples P x μ)
    (hμ : NullSubspaces μ) (hp : 2 ≤ p) (S : Matrix (Fin p) (Fin p) ℂ) (hS : S.PosDef) (hE : EllipticalLaw μ S)
    (name : String) (hname : name = "trace" ∨ name = "determinant" ∨ name = "element") :
    ∃ T : ℕ → Ω → Matrix (Fin p) (Fin p) ℂ,
      (∀ᵐ ω ∂P, ∀ N, p < N → ∀ env : NumEnv N p ℂ, env.eigh.Ok →
        SettlesAt (fun init tol iterMax =>
          complexTylerFixedPoint env (firstSamples x ω N) init tol iterMax name) (T N ω)) ∧
      ∀ t : ℝ, Tendsto (fun N : ℕ => P {ω | (1 + 1 / p) * t ≤ N * shapeStat S (T N ω)}) atTop
        (𝓝 ((Measure.pi fun _ : Fin (p ^ 2 - 1) => gaussianReal 0 1) {z | t ≤ ∑ i, z i ^ 2})) := by
  obtain ⟨T, a1, a2⟩ := C184_tyler_complex h hμ (by omega) S hS hE name hname
  exact ⟨T, a1, chi_tail (Nat.sub_pos_of_lt (Nat.one_lt_pow two_ne_zero (by omega))) (by positivity) a2⟩

/-- Real data: the threshold `2 (1 + 2/p) t`. -/
theorem C184_level_real {x : ℕ → Ω → Fin p → ℝ} {μ : Measure (Fin p → ℝ)} (h : IIDSamples P x μ)
    (hμ : NullSubspaces μ) (hp : 2 ≤ p) (S : Matrix (Fin p) (Fin p) ℝ) (hS : S.PosDef) (hE : EllipticalLaw μ S)
    (name : String) (hname : name = "trace" ∨ name = "determinant" ∨ name = "element") :
    ∃ T : ℕ → Ω → Matrix (Fin p) (Fin p) ℝ,
      (∀ᵐ ω ∂P, ∀ N, p < N → ∀ env : NumEnv N p ℝ, env.eigh.Ok →
        SettlesAt (fun init tol iterMax =>
          tylerFixedPoint env (firstSamples x ω N) init tol iterMax name) (T N ω)) ∧
      ∀ t : ℝ, Tendsto (fun N : ℕ => P {ω | 2 * (1 + 2 / p) * t ≤ N * shapeStat S (T N ω)}) atTop
        (𝓝 ((Measure.pi fun _ : Fin (p * (p + 1) / 2 - 1) => gaussianReal 0 1) {z | t ≤ ∑ i, z i ^ 2})) := by
  obtain ⟨T, a1, a2⟩ := C184_tyler_real h hμ (by omega) S hS hE name hname
  refine ⟨T, a1, chi_tail (Nat.sub_pos_of_lt ?_) (by positivity) a2⟩
  have : 2 ≤ p * (p + 1) / 2 := by
    rw [Nat.le_div_iff_mul_le two_pos]
    nlinarith
  omega

/-- The test by the empirical covariance with the threshold for normal samples: on samples of a complex t law
its false alarm rate is larger than on normal samples. -/
theorem C184_level_t {x : ℕ → Ω → Fin p → ℂ} {S : Matrix (Fin p) (Fin p) ℂ} (hp : 2 ≤ p) (hS : S.PosDef) (ν : ℝ)
    (hν : 4 < ν) (h : IIDSamples P x (lawOf fun z => Real.exp (ctLogDensity ν 0 S z))) (centered : Bool) :
    ∃ C : ℕ → Ω → Matrix (Fin p) (Fin p) ℂ,
      (∀ N, 0 < N → ∀ ω, ∃ loc, complexEmpCovFit (.cplx (.d2 N p (firstSamples x ω N))) centered =
        .ok ⟨⟨p, loc⟩, .cplx (.d2 p p (C N ω))⟩) ∧
      ∀ t : ℝ, 0 < t → ∃ a, Tendsto (fun N : ℕ => P {ω | t ≤ N * shapeStat S (C N ω)}) atTop (𝓝 a) ∧
        (Measure.pi fun _ : Fin (p ^ 2 - 1) => gaussianReal 0 1) {z | t ≤ ∑ i, z i ^ 2} < a := by
  have hν2 : 0 < ν - 2 := by linarith
  have hν4 : 0 < ν - 4 := by linarith
  have hd : 0 < p ^ 2 - 1 := Nat.sub_pos_of_lt (Nat.one_lt_pow two_ne_zero (by omega))
  obtain ⟨C, a1, a2⟩ := C184_t (by omega) hS ν hν h centered
  refine ⟨C, a1, fun t ht => ⟨_, ?_, chi_tail_lt hd (s := (ν - 4) / (ν - 2) * t) (by positivity) ?_⟩⟩
  · refine (chi_tail hd (by positivity) a2 ((ν - 4) / (ν - 2) * t)).congr fun N => ?_
    rw [show (ν - 2) / (ν - 4) * ((ν - 4) / (ν - 2) * t) = t by field_simp]
  · have : (ν - 4) / (ν - 2) < 1 := by rw [div_lt_one hν2]; linarith
    nlinarith

/-- On normal samples this threshold is right. -/
theorem C184_level_normal {x : ℕ → Ω → Fin p → ℂ} {S : Matrix (Fin p) (Fin p) ℂ} (hp : 2 ≤ p) (hS : S.PosDef)
    (h : IIDSamples P x (lawOf fun z => Real.exp (cnormalLogDensity 0 S z))) (centered : Bool) :
    ∃ C : ℕ → Ω → Matrix (Fin p) (Fin p) ℂ,
      (∀ N, 0 < N → ∀ ω, ∃ loc, complexEmpCovFit (.cplx (.d2 N p (firstSamples x ω N))) centered =
        .ok ⟨⟨p, loc⟩, .cplx (.d2 p p (C N ω))⟩) ∧
      ∀ t : ℝ, Tendsto (fun N : ℕ => P {ω | t ≤ N * shapeStat S (C N ω)}) atTop
        (𝓝 ((Measure.pi fun _ : Fin (p ^ 2 - 1) => gaussianReal 0 1) {z | t ≤ ∑ i, z i ^ 2})) := by
  have hd : 0 < p ^ 2 - 1 := Nat.sub_pos_of_lt (Nat.one_lt_pow two_ne_zero (by omega))
  obtain ⟨C, a1, a2⟩ := C184_normal (by omega) hS h centered
  refine ⟨C, a1, fun t => ?_⟩
  have := chi_tail hd one_pos (a2.congr (fun N => EventuallyEq.refl _ _)
    (Eventually.of_forall fun z => (one_mul _).symm)) t
  simpa only [one_mul] using this

theorem tylerSol_tendsto {𝕜 : Type} [RCLike 𝕜] [MeasurableSpace 𝕜] [BorelSpace 𝕜] {x : ℕ → Ω → Fin p → 𝕜}
    {μ : Measure (Fin p → 𝕜)} (h : IIDSamples P x μ) (hμ : NullSubspaces μ) (hp : 0 < p)
    {S : Matrix (Fin p) (Fin p) 𝕜} (hS : S.PosDef) (hf : PopFixed 0 μ S) {name : String}
    (hname : name = "trace" ∨ name = "determinant" ∨ name = "element") (hn : Normalised name S) :
    ∀ᵐ ω ∂P, Tendsto (fun N => tylerSol name S x N ω) atTop (𝓝 S) := by
  have := h.prob
  filter_upwards [h.tyler_consistent hμ hp hS hf, h.generalPosition hμ] with ω h1 hg
  have hex : ∀ N, ∃ Q : Matrix (Fin p) (Fin p) 𝕜, Q.PosDef ∧
      (p < N → mStep (wTyler p) (firstSamples x ω N) Q = Q ∧ tylerSol name S x N ω = toName name Q) :=
    fun N => by
      by_cases hN : p < N
      · obtain ⟨Q, a1, a2, a3⟩ := tylerSol_spec name hp S hN (hg N)
        exact ⟨Q, a1, fun _ => ⟨a2, a3⟩⟩
      · exact ⟨1, PosDef.one, fun h => absurd h hN⟩
  choose Q hQ hQ2 using hex
  obtain ⟨c, hc, hlim⟩ := h1 Q (by
    filter_upwards [eventually_gt_atTop p] with N hN using ⟨hQ N, (hQ2 N hN).1⟩)
  have h2 := toName_tendsto hname hp (fun N => (hQ N).smul (by
    have := hc N; exact_mod_cast this : (0 : 𝕜) < (c N : 𝕜))) hS hlim
  rw [toName_self hname hp hS hn] at h2
  exact h2.congr' (by
    filter_upwards [eventually_gt_atTop p] with N hN
    rw [toName_smul hname hp (hQ N) (hc N), (hQ2 N hN).2])

theorem shapeStat_diverges {𝕜 : Type} [RCLike 𝕜] (hp : 0 < p) {S R : Matrix (Fin p) (Fin p) 𝕜} (hS : S.PosDef)
    (hR : R.PosDef) (hne : ∀ c : ℝ, 0 < c → R ≠ (c : 𝕜) • S) {T : ℕ → Matrix (Fin p) (Fin p) 𝕜}
    (hT : Tendsto T atTop (𝓝 R)) : Tendsto (fun N : ℕ => N * shapeStat S (T N)) atTop atTop := by
  have : Nonempty (Fin p) := ⟨⟨0, hp⟩⟩
  have hpos : 0 < shapeStat S R := by
    obtain ⟨a, b⟩ := C184_zero hp hS hR
    refine lt_of_le_of_ne a fun h => ?_
    obtain ⟨c, hc, h1⟩ := b.1 h.symm
    exact hne c hc h1
  have hne0 : RCLike.re (S⁻¹ * R).trace ≠ 0 := by
    obtain ⟨L, hL1, hL2⟩ := posDef_root hS
    have hpd : (L * R * Lᴴ).PosDef := hR.mul_mul_conjTranspose_same
      (vecMul_injective_of_isUnit ((IsUnit.of_mul_eq_one (S * Lᴴ)) (by rw [← Matrix.mul_assoc, hL2])))
    rw [← hL1, Matrix.mul_assoc, trace_mul_comm]
    exact (RCLike.pos_iff.1 hpd.trace_pos).1.ne'
  have hc1 : Tendsto (fun N => S⁻¹ * T N) atTop (𝓝 (S⁻¹ * R)) :=
    ((continuous_const (y := S⁻¹)).matrix_mul continuous_id).continuousAt.tendsto.comp hT
  have hc2 : Tendsto (fun N => RCLike.re (S⁻¹ * T N).trace) atTop (𝓝 (RCLike.re (S⁻¹ * R).trace)) :=
    (RCLike.continuous_re.comp continuous_id.matrix_trace).continuousAt.tendsto.comp hc1
  have hc3 : Tendsto (fun N => ((p / RCLike.re (S⁻¹ * T N).trace : ℝ) : 𝕜) • (S⁻¹ * T N) - 1) atTop
      (𝓝 (((p / RCLike.re (S⁻¹ * R).trace : ℝ) : 𝕜) • (S⁻¹ * R) - 1)) :=
    ((RCLike.continuous_ofReal.continuousAt.tendsto.comp (tendsto_const_nhds.div hc2 hne0)).smul hc1).sub_const _
  have hc4 : Tendsto (fun N => shapeStat S (T N)) atTop (𝓝 (shapeStat S R)) :=
    (RCLike.continuous_re.comp ((continuous_id.matrix_mul continuous_id).matrix_trace)).continuousAt.tendsto.comp hc3
  exact tendsto_natCast_atTop_atTop.atTop_mul_pos hpos hc4

/-- Complex data: if the scatter matrix `R` of the law does not have the shape of `S`, then the statistic of
Tyler's estimate exceeds every threshold as the samples grow, almost surely. -/
theorem C184_power_complex {x : ℕ → Ω → Fin p → ℂ} {μ : Measure (Fin p → ℂ)} (h : IIDSamples P x μ)
    (hμ : NullSubspaces μ) (hp : 0 < p) (R : Matrix (Fin p) (Fin p) ℂ) (hR : R.PosDef) (hE : EllipticalLaw μ R)
    (name : String) (hname : name = "trace" ∨ name = "determinant" ∨ name = "element") :
    ∃ T : ℕ → Ω → Matrix (Fin p) (Fin p) ℂ,
      (∀ᵐ ω ∂P, ∀ N, p < N → ∀ env : NumEnv N p ℂ, env.eigh.Ok →
        SettlesAt (fun init tol iterMax =>
          complexTylerFixedPoint env (firstSamples x ω N) init tol iterMax name) (T N ω)) ∧
      ∀ S : Matrix (Fin p) (Fin p) ℂ, S.PosDef → (∀ c : ℝ, 0 < c → R ≠ (c : ℂ) • S) →
        ∀ᵐ ω ∂P, Tendsto (fun N : ℕ => N * shapeStat S (T N ω)) atTop atTop := by
  have := h.prob
  have hc := inv_pos.2 (toName_normalise hname hp hR).1
  have hR' := toName_posDef hname hp hR
  have hE' : EllipticalLaw μ (toName name R) := elliptical_smul hE hc
  refine ⟨tylerSol name (toName name R) x, ?_, fun S hS hne => ?_⟩
  · filter_upwards [h.generalPosition hμ] with ω hg N hN env hs
    obtain ⟨Q, a1, a2, a3⟩ := tylerSol_spec name hp (toName name R) hN (hg N)
    rw [a3]
    exact tyler_settles_complex hname hp hN (hg N) a1 a2 env hs
  · filter_upwards [tylerSol_tendsto h hμ hp hR' (elliptical_tyler hμ hp hR' hE') hname
      (toName_normalised hname hp hR)] with ω hω
    refine shapeStat_diverges hp hS hR' (fun c hc0 hcS => ?_) hω
    refine hne (scaleOf name R * c) (mul_pos (inv_pos.1 hc) hc0) ?_
    have hs : ((scaleOf name R : ℝ) : ℂ) ≠ 0 := by exact_mod_cast (inv_pos.1 hc).ne'
    have h1 : toName name R = (c : ℂ) • S := hcS
    rw [Complex.ofReal_mul, ← smul_smul, ← h1, toName, smul_smul]
    change R = (((scaleOf name R : ℝ) : ℂ) * ((((scaleOf name R)⁻¹ : ℝ)) : ℂ)) • R
    rw [Complex.ofReal_inv, mul_inv_cancel₀ hs, one_smul]

/-- Real data. -/
theorem C184_power_real {x : ℕ → Ω → Fin p → ℝ} {μ : Measure (Fin p → ℝ)} (h : IIDSamples P x μ)
    (hμ : NullSubspaces μ) (hp : 0 < p) (R : Matrix (Fin p) (Fin p) ℝ) (hR : R.PosDef) (hE : EllipticalLaw μ R)
    (name : String) (hname : name = "trace" ∨ name = "determinant" ∨ name = "element") :
    ∃ T : ℕ → Ω → Matrix (Fin p) (Fin p) ℝ,
      (∀ᵐ ω ∂P, ∀ N, p < N → ∀ env : NumEnv N p ℝ, env.eigh.Ok →
        SettlesAt (fun init tol iterMax =>
          tylerFixedPoint env (firstSamples x ω N) init tol iterMax name) (T N ω)) ∧
      ∀ S : Matrix (Fin p) (Fin p) ℝ, S.PosDef → (∀ c : ℝ, 0 < c → R ≠ c • S) →
        ∀ᵐ ω ∂P, Tendsto (fun N : ℕ => N * shapeStat S (T N ω)) atTop atTop := by
  have := h.prob
  have hc := inv_pos.2 (toName_normalise hname hp hR).1
  have hR' := toName_posDef hname hp hR
  have hE' : EllipticalLaw μ (toName name R) := elliptical_smul hE hc
  refine ⟨tylerSol name (toName name R) x, ?_, fun S hS hne => ?_⟩
  · filter_upwards [h.generalPosition hμ] with ω hg N hN env hs
    obtain ⟨Q, a1, a2, a3⟩ := tylerSol_spec name hp (toName name R) hN (hg N)
    rw [a3]
    exact tyler_settles_real hname hp hN (hg N) a1 a2 env hs
  · filter_upwards [tylerSol_tendsto h hμ hp hR' (elliptical_tyler hμ hp hR' hE') hname
      (toName_normalised hname hp hR)] with ω hω
    refine shapeStat_diverges hp hS hR' (fun c hc0 hcS => ?_) hω
    refine hne (scaleOf name R * c) (mul_pos (inv_pos.1 hc) hc0) ?_
    have hs : scaleOf name R ≠ 0 := (inv_pos.1 hc).ne'
    have h1 : toName name R = c • S := hcS
    rw [← smul_smul, ← h1, toName, smul_smul]
    change R = (scaleOf name R * (scaleOf name R)⁻¹) • R
    rw [mul_inv_cancel₀ hs, one_smul]

/- Samples of the complex t law with 2 degrees of freedom (no covariance) and of the real t law with 1 degree
of freedom (no mean), with a scatter matrix that is not a multiple of the identity. -/
example : ∃ (P : Measure (ℕ → Fin 2 → ℂ)) (_ : IsProbabilityMeasure P)
    (T : ℕ → (ℕ → Fin 2 → ℂ) → Matrix (Fin 2) (Fin 2) ℂ),
    (∀ᵐ ω ∂P, ∀ N, 2 < N → ∀ env : NumEnv N 2 ℂ, env.eigh.Ok →
      SettlesAt (fun init tol iterMax => complexTylerFixedPoint env
        (firstSamples (fun i (ω : ℕ → Fin 2 → ℂ) => ω i) ω N) init tol iterMax "determinant") (T N ω)) ∧
    TendstoInDistribution (fun (N : ℕ) ω => N * shapeStat !![2, 1; 1, 2] (T N ω)) atTop
      (fun z : Fin 3 → ℝ => (1 + 1 / ((2 : ℕ) : ℝ)) * ∑ i, z i ^ 2) (fun _ => P)
      (Measure.pi fun _ => gaussianReal 0 1) := by
  have hd : (0 : ℝ) < 2 * 1 := by norm_num
  have hpr := cplxT_prob hd two_one_posDef'
  have h := iid_exists (lawOf fun x => Real.exp (ctLogDensity (2 * 1) 0
    (!![2, 1; 1, 2] : Matrix (Fin 2) (Fin 2) ℂ) x))
  obtain ⟨T, a1, a2⟩ := C184_tyler_complex h (lawOf_null_cplx _) two_pos _ two_one_posDef'
    (cplxT_elliptical _ two_one_posDef') "determinant" (Or.inr (Or.inl rfl))
  exact ⟨_, inferInstance, T, a1, a2⟩

/- The hypothesis of the power theorems: this law is not spherical. -/
example : ∃ (P : Measure (ℕ → Fin 2 → ℂ)) (_ : IsProbabilityMeasure P)
    (T : ℕ → (ℕ → Fin 2 → ℂ) → Matrix (Fin 2) (Fin 2) ℂ),
    (∀ᵐ ω ∂P, ∀ N, 2 < N → ∀ env : NumEnv N 2 ℂ, env.eigh.Ok →
      SettlesAt (fun init tol iterMax => complexTylerFixedPoint env
        (firstSamples (fun i (ω : ℕ → Fin 2 → ℂ) => ω i) ω N) init tol iterMax "trace") (T N ω)) ∧
    ∀ᵐ ω ∂P, Tendsto (fun N : ℕ => N * shapeStat 1 (T N ω)) atTop atTop := by
  have hd : (0 : ℝ) < 2 * 1 := by norm_num
  have hpr := cplxT_prob hd two_one_posDef'
  have h := iid_exists (lawOf fun x => Real.exp (ctLogDensity (2 * 1) 0
    (!![2, 1; 1, 2] : Matrix (Fin 2) (Fin 2) ℂ) x))
  obtain ⟨T, a1, a2⟩ := C184_power_complex h (lawOf_null_cplx _) two_pos _ two_one_posDef'
    (cplxT_elliptical _ two_one_posDef') "trace" (Or.inl rfl)
  exact ⟨_, inferInstance, T, a1, a2 1 PosDef.one fun c _ hcc => by
    have := congrFun (congrFun hcc 0) 1
    simp at this⟩

example : ∃ (P : Measure (ℕ → Fin 2 → ℝ)) (_ : IsProbabilityMeasure P)
    (T : ℕ → (ℕ → Fin 2 → ℝ) → Matrix (Fin 2) (Fin 2) ℝ),
    (∀ᵐ ω ∂P, ∀ N, 2 ≤ N → ∀ env : NumEnv N 2 ℝ, env.eigh.Ok →
      SettlesAt (fun init tol iterMax => studentFixedPoint env
        (firstSamples (fun i (ω : ℕ → Fin 2 → ℝ) => ω i) ω N) 2 init tol iterMax) (T N ω)) ∧
    TendstoInDistribution (fun (N : ℕ) ω => N * shapeStat !![2, 1; 1, 2] (T N ω)) atTop
      (fun z : Fin 2 → ℝ => 2 * (1 + 2 / (2 / 2 + ((2 : ℕ) : ℝ))) * ∑ i, z i ^ 2) (fun _ => P)
      (Measure.pi fun _ => gaussianReal 0 1) := by
  have hd : (0 : ℝ) < 2 / 2 := by norm_num
  have hpr := realT_prob hd two_one_posDef
  have h := iid_exists (lawOf fun x => Real.exp (tLogDensity (2 / 2) 0
    (!![2, 1; 1, 2] : Matrix (Fin 2) (Fin 2) ℝ) x))
  obtain ⟨T, a1, a2⟩ := C184_student_real two_pos 2 two_pos _ two_one_posDef h
  exact ⟨_, inferInstance, T, a1, a2⟩

/- Five degrees of freedom: with the empirical covariance the statistic is three times the one for normal
samples. -/
example : ∃ (P : Measure (ℕ → Fin 2 → ℂ)) (_ : IsProbabilityMeasure P)
    (C : ℕ → (ℕ → Fin 2 → ℂ) → Matrix (Fin 2) (Fin 2) ℂ),
    (∀ N, 0 < N → ∀ ω, ∃ loc, complexEmpCovFit (.cplx (.d2 N 2
      (firstSamples (fun i (ω : ℕ → Fin 2 → ℂ) => ω i) ω N))) true = .ok ⟨⟨2, loc⟩, .cplx (.d2 2 2 (C N ω))⟩) ∧
    TendstoInDistribution (fun (N : ℕ) ω => N * shapeStat !![2, 1; 1, 2] (C N ω)) atTop
      (fun z : Fin 3 → ℝ => 3 * ∑ i, z i ^ 2) (fun _ => P) (Measure.pi fun _ => gaussianReal 0 1) := by
  have hpr := cplxT_prob (df := 5) (by norm_num) two_one_posDef'
  have h := iid_exists (lawOf fun x => Real.exp (ctLogDensity 5 0 (!![2, 1; 1, 2] : Matrix (Fin 2) (Fin 2) ℂ) x))
  obtain ⟨C, a1, a2⟩ := C184_t two_pos two_one_posDef' 5 (by norm_num) h true
  exact ⟨_, inferInstance, C, a1, a2.congr (fun N => EventuallyEq.refl _ _) (Eventually.of_forall fun z => by
    norm_num
    rfl)⟩

end
end RS
