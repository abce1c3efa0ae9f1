import Mathlib.Analysis.SpecialFunctions.Log.Basic
import Verif.Lemmas.Mappings
import Verif.Spec.Probability

set_option autoImplicit false

namespace RS
open Matrix ComplexOrder

theorem realify_inv {n : ℕ} {a : Matrix (Fin n) (Fin n) ℂ} (h : IsUnit a.det) :
    (realify a)⁻¹ = (4 : ℝ) • realify a⁻¹ := by
  apply inv_eq_right_inv
  have h1 := realify_mul a a⁻¹
  rw [mul_nonsing_inv _ h, realify_one] at h1
  have h2 := congrArg (fun M => (2 : ℝ) • M) h1
  simp only [smul_smul] at h2
  rw [mul_smul_comm]
  norm_num at h2
  exact h2.symm

theorem quad_realify_inv {n : ℕ} {a : Matrix (Fin n) (Fin n) ℂ} (h : a.PosDef)
    (x : Fin (n + n) → ℝ) :
    x ⬝ᵥ ((realify a)⁻¹ *ᵥ x) = 2 * (star (zOf x) ⬝ᵥ (a⁻¹ *ᵥ zOf x)).re := by
  rw [realify_inv ((isUnit_iff_isUnit_det _).1 h.isUnit), smul_mulVec, dotProduct_smul,
    quad_realify, smul_eq_mul]
  ring

theorem log_det_realify {n : ℕ} {a : Matrix (Fin n) (Fin n) ℂ} (h : a.PosDef) :
    Real.log (realify a).det = 2 * Real.log a.det.re - 2 * n * Real.log 2 := by
  have hd := Complex.pos_iff.1 h.det_pos
  have hn : Complex.normSq a.det = a.det.re ^ 2 := by
    rw [Complex.normSq_apply, ← hd.2]; ring
  rw [det_realify, hn, Real.log_mul (by positivity) (by have := hd.1; positivity), Real.log_pow,
    Real.log_pow, one_div, Real.log_inv]
  push_cast; ring

/-- A real vector of halves. -/
def halves {n : ℕ} (z : Fin n → ℂ) : Fin (n + n) → ℝ :=
  Fin.append (fun i => (z i).re) (fun i => (z i).im)

theorem zOf_halves {n : ℕ} (z : Fin n → ℂ) : zOf (halves z) = z := zOf_append z

theorem zOf_sub {n : ℕ} (x y : Fin (n + n) → ℝ) : zOf (x - y) = zOf x - zOf y := by
  funext i; apply Complex.ext <;> rfl

theorem scipyNormal_realify {p : ℕ} {S : Matrix (Fin p) (Fin p) ℂ} (hS : S.PosDef)
    (mu z : Fin p → ℂ) :
    scipyNormal (realify S) (halves z - halves mu) = cnormalLogDensity mu S z := by
  unfold scipyNormal cnormalLogDensity
  rw [quad_realify_inv hS, log_det_realify hS, zOf_sub, zOf_halves, zOf_halves,
    Real.log_mul (by norm_num) Real.pi_pos.ne']
  push_cast; ring

theorem scipyT_realify {p : ℕ} {S : Matrix (Fin p) (Fin p) ℂ} (hS : S.PosDef) {df : ℝ} (hdf : 0 < df)
    (mu z : Fin p → ℂ) :
    scipyT df (realify S) (halves z - halves mu) = ctLogDensity df mu S z := by
  unfold scipyT ctLogDensity
  simp only
  rw [quad_realify_inv hS, log_det_realify hS, zOf_sub, zOf_halves, zOf_halves]
  have e1 : 1 / 2 * (df + ((p + p : ℕ) : ℝ)) = df / 2 + p := by push_cast; ring
  have e2 : 1 / 2 * df = df / 2 := by ring
  have e3 : Real.log (Real.pi * df / 2) = Real.log (df * Real.pi) - Real.log 2 := by
    rw [Real.log_div (by positivity) (by norm_num), mul_comm]
  rw [e1, e2, e3]
  have e4 : 1 / df * (2 * (star (z - mu) ⬝ᵥ S⁻¹ *ᵥ (z - mu)).re) =
      2 * (star (z - mu) ⬝ᵥ S⁻¹ *ᵥ (z - mu)).re / df := by ring
  rw [e4]
  push_cast; ring

theorem scipyNormal_eq {p : ℕ} (mu x : Fin p → ℝ) (S : Matrix (Fin p) (Fin p) ℝ) :
    scipyNormal S (x - mu) = normalLogDensity mu S x := by
  unfold scipyNormal normalLogDensity; ring

theorem scipyT_eq {p : ℕ} (df : ℝ) (mu x : Fin p → ℝ) (S : Matrix (Fin p) (Fin p) ℝ) :
    scipyT df S (x - mu) = tLogDensity df mu S x := by
  unfold scipyT tLogDensity
  simp only
  have e1 : 1 / 2 * (df + (p : ℝ)) = (df + p) / 2 := by ring
  have e2 : 1 / 2 * df = df / 2 := by ring
  have e3 : 1 / df * ((x - mu) ⬝ᵥ S⁻¹ *ᵥ (x - mu)) = ((x - mu) ⬝ᵥ S⁻¹ *ᵥ (x - mu)) / df := by ring
  rw [e1, e2, e3, mul_comm df Real.pi]
  ring

/-! ## The checks -/

theorem checkParams_complex {p : ℕ} {mean : Option NDArr} {mu : Fin p → ℂ} (hm : MeanIs mean mu)
    (S : Matrix (Fin p) (Fin p) ℂ) :
    checkParams mean (.arr (.cplx (.d2 p p S))) =
      .ok (.real (.d1 (p + p) (halves mu)), .arr (.real (.d2 (p + p) (p + p) (realify S)))) := by
  cases hm with
  | none =>
    simp [checkParams, zerosFor, Arr.len, bind, Except.bind, pure, Except.pure, NDArr.isComplex,
      CovArg.isComplex, NDArr.asComplex, arraytoreal, covariancetoreal]
    rfl
  | cplx mu =>
    simp [checkParams, bind, Except.bind, pure, Except.pure, NDArr.isComplex,
      CovArg.isComplex, NDArr.asComplex, arraytoreal, covariancetoreal]
    rfl
  | real v =>
    simp [checkParams, bind, Except.bind, pure, Except.pure, NDArr.isComplex,
      CovArg.isComplex, NDArr.asComplex, arraytoreal, covariancetoreal, Arr.map]
    rfl

theorem checkParams_real {p : ℕ} {mean : Option NDArr} {mu : Fin p → ℝ} (hm : RealMeanIs mean mu)
    (S : Matrix (Fin p) (Fin p) ℝ) :
    checkParams mean (.arr (.real (.d2 p p S))) =
      .ok (.real (.d1 p mu), .arr (.real (.d2 p p S))) := by
  cases hm with
  | none =>
    simp [checkParams, zerosFor, Arr.len, bind, Except.bind, pure, Except.pure, NDArr.isComplex,
      CovArg.isComplex]
    rfl
  | real v =>
    simp [checkParams, bind, Except.bind, pure, Except.pure, NDArr.isComplex, CovArg.isComplex]

theorem scipyParams_ok {p : ℕ} (mu : Fin p → ℝ) {S : Matrix (Fin p) (Fin p) ℝ} (hS : S.PosDef) :
    scipyParams (some (.real (.d1 p mu))) (.arr (.real (.d2 p p S))) = .ok ⟨p, mu, S⟩ := by
  simp only [scipyParams, NDArr.realPart, bind, Except.bind, dif_pos]
  exact (if_pos hS).trans rfl

theorem scipyParams_none {p : ℕ} {S : Matrix (Fin p) (Fin p) ℝ} (hS : S.PosDef) :
    scipyParams none (.arr (.real (.d2 p p S))) = .ok ⟨p, 0, S⟩ := by
  simp only [scipyParams, NDArr.realPart, bind, Except.bind, dif_pos]
  rw [if_pos hS]; rfl

theorem scipyParams_realMean {p : ℕ} {mean : Option NDArr} {mu : Fin p → ℝ}
    (hm : RealMeanIs mean mu) {S : Matrix (Fin p) (Fin p) ℝ} (hS : S.PosDef) :
    scipyParams mean (.arr (.real (.d2 p p S))) = .ok ⟨p, mu, S⟩ := by
  cases hm with
  | none => exact scipyParams_none hS
  | real => exact scipyParams_ok _ hS

/-- What the data become when the covariance is complex. -/
theorem checkParamsArray_complex {p m : ℕ} {X : NDArr} {Z : Matrix (Fin m) (Fin p) ℂ} (hX : DataIs X m Z)
    {mean : Option NDArr} {mu : Fin p → ℂ} (hm : MeanIs mean mu) (S : Matrix (Fin p) (Fin p) ℂ) :
    ∃ x, (x = .real (.d2 m (p + p) (of fun i => halves (Z i))) ∨
        ∃ h : m = 1, x = .real (.d1 (p + p) (halves (Z ⟨0, by omega⟩)))) ∧
      checkParamsArray X mean (.arr (.cplx (.d2 p p S))) = .ok ⟨x, some (.real (.d1 (p + p) (halves mu))),
        .arr (.real (.d2 (p + p) (p + p) (realify S))), !X.isComplex, false⟩ := by
  cases hX with
  | cplx2 m Z =>
    refine ⟨_, .inl rfl, ?_⟩
    simp only [checkParamsArray, checkParams_complex hm, bind, Except.bind, CovArg.isComplex,
      NDArr.isComplex, if_true, NDArr.asComplex, arraytoreal, pure, Except.pure]
    rfl
  | cplx1 z =>
    refine ⟨_, .inr ⟨rfl, rfl⟩, ?_⟩
    simp only [checkParamsArray, checkParams_complex hm, bind, Except.bind, CovArg.isComplex,
      NDArr.isComplex, if_true, NDArr.asComplex, arraytoreal, pure, Except.pure]
    rfl
  | real2 m Y =>
    refine ⟨_, .inl rfl, ?_⟩
    simp only [checkParamsArray, checkParams_complex hm, bind, Except.bind, CovArg.isComplex,
      NDArr.isComplex, if_true, NDArr.asComplex, arraytoreal, pure, Except.pure, Arr.map]
    rfl
  | real1 y =>
    refine ⟨_, .inr ⟨rfl, rfl⟩, ?_⟩
    simp only [checkParamsArray, checkParams_complex hm, bind, Except.bind, CovArg.isComplex,
      NDArr.isComplex, if_true, NDArr.asComplex, arraytoreal, pure, Except.pure, Arr.map]
    rfl

theorem scipyEval_halves {p m : ℕ} (mu : Fin p → ℂ) (C : Matrix (Fin (p + p)) (Fin (p + p)) ℝ)
    (dens : (Fin (p + p) → ℝ) → ℝ) (Z : Matrix (Fin m) (Fin p) ℂ) (x : NDArr)
    (hx : x = .real (.d2 m (p + p) (of fun i => halves (Z i))) ∨
        ∃ h : m = 1, x = .real (.d1 (p + p) (halves (Z ⟨0, by omega⟩)))) :
    scipyEval ⟨p + p, halves mu, C⟩ dens x = .ok ⟨m, fun i => dens (halves (Z i) - halves mu)⟩ := by
  rcases hx with rfl | ⟨h, rfl⟩
  · simp only [scipyEval, NDArr.realPart, scipyRows, bind, Except.bind, scipyDev, dif_pos, pure,
      Except.pure]
    rfl
  · subst h
    have h1 : p + p ≠ 1 := by omega
    simp only [scipyEval, NDArr.realPart, scipyRows, bind, Except.bind, scipyDev, dif_pos, pure,
      Except.pure, if_neg h1]
    congr 2
    funext i
    rw [Fin.fin_one_eq_zero i]
    rfl

/-- What the data become when all parameters are real. -/
theorem checkParamsArray_real {p m : ℕ} {X : NDArr} {Y : Matrix (Fin m) (Fin p) ℝ} (hX : RealDataIs X m Y)
    {mean : Option NDArr} {mu : Fin p → ℝ} (hm : RealMeanIs mean mu) (S : Matrix (Fin p) (Fin p) ℝ) :
    checkParamsArray X mean (.arr (.real (.d2 p p S))) =
      .ok ⟨.real X.realPart, mean, .arr (.real (.d2 p p S)), false, X.isComplex⟩ := by
  cases hX <;> simp [checkParamsArray, checkParams_real hm, bind, Except.bind, CovArg.isComplex,
      NDArr.isComplex, pure, Except.pure, NDArr.realPart]

theorem scipyEval_real {p m : ℕ} {X : NDArr} {Y : Matrix (Fin m) (Fin p) ℝ} (hX : RealDataIs X m Y)
    (mu : Fin p → ℝ) (S : Matrix (Fin p) (Fin p) ℝ) (dens : (Fin p → ℝ) → ℝ) :
    scipyEval ⟨p, mu, S⟩ dens (.real X.realPart) = .ok ⟨m, fun i => dens (Y i - mu)⟩ := by
  cases hX with
  | real2 m Y =>
    simp only [scipyEval, NDArr.realPart, scipyRows, bind, Except.bind, scipyDev, dif_pos, pure,
      Except.pure]
    rfl
  | cplx2 m Z =>
    simp only [scipyEval, NDArr.realPart, Arr.map, scipyRows, bind, Except.bind, scipyDev, dif_pos,
      pure, Except.pure]
    rfl
  | real1 hp y =>
    simp only [scipyEval, NDArr.realPart, scipyRows, bind, Except.bind, scipyDev, dif_pos, pure,
      Except.pure, if_neg hp]
    rfl
  | cplx1 hp z =>
    simp only [scipyEval, NDArr.realPart, Arr.map, scipyRows, bind, Except.bind, scipyDev, dif_pos,
      pure, Except.pure, if_neg hp]
    rfl
  | reals hp m y =>
    subst hp
    simp only [scipyEval, NDArr.realPart, scipyRows, bind, Except.bind, scipyDev, dif_pos, pure,
      Except.pure, if_true]
    rfl
  | cplxs hp m z =>
    subst hp
    simp only [scipyEval, NDArr.realPart, Arr.map, scipyRows, bind, Except.bind, scipyDev, dif_pos,
      pure, Except.pure, if_true]
    rfl

end RS
