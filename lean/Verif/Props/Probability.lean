import Verif.Lemmas.Demo
import Mathlib.Analysis.Complex.ExponentialBounds
import Mathlib.MeasureTheory.Integral.Bochner.Basic
import Mathlib.Probability.Distributions.Gaussian.Real
import Mathlib.Probability.Independence.InfinitePi
import Mathlib.Probability.Independence.Integration
import Verif.Lemmas.MatFun
import Verif.Lemmas.Probability
import Verif.Lemmas.RealEmbed
import Verif.Props.Mappings

/-
Densities and random draws, C61 to C64, C89 and C90.
-/
set_option autoImplicit false

namespace RS
open Matrix ComplexOrder

/-! ## C61 -/

/-- With a complex covariance `logpdf` is the log-density of the circular complex normal law, for
data and mean given in any of the accepted ways. -/
theorem C61_logpdf {p m : ℕ} {X : NDArr} {Z : Matrix (Fin m) (Fin p) ℂ} (hX : DataIs X m Z)
    {mean : Option NDArr} {mu : Fin p → ℂ} (hm : MeanIs mean mu) (S : Matrix (Fin p) (Fin p) ℂ)
    (hS : S.PosDef) :
    CNormal.logpdf X mean (.arr (.cplx (.d2 p p S))) =
      .ok ⟨m, fun i => cnormalLogDensity mu S (Z i)⟩ := by
  obtain ⟨x, hx, hc⟩ := checkParamsArray_complex hX hm S
  simp only [CNormal.logpdf, hc, bind, Except.bind, scipyParams_ok _ ((realify_posDef S).2 hS),
    scipyEval_halves mu _ _ Z x hx, scipyNormal_realify hS]

/-- The same through the frozen law `complex_multivariate_normal(mean, cov)`. -/
theorem C61_frozen {p m : ℕ} {X : NDArr} {Z : Matrix (Fin m) (Fin p) ℂ} (hX : DataIs X m Z)
    {mean : Option NDArr} {mu : Fin p → ℂ} (hm : MeanIs mean mu) (S : Matrix (Fin p) (Fin p) ℂ)
    (hS : S.PosDef) :
    CNormal.frozenLogpdf mean (.arr (.cplx (.d2 p p S))) X =
      .ok ⟨m, fun i => cnormalLogDensity mu S (Z i)⟩ := by
  obtain ⟨x, hx, hc⟩ := checkParamsArray_complex hX hm S
  simp only [CNormal.frozenLogpdf, checkParams_complex hm, hc, bind, Except.bind,
    scipyParams_ok _ ((realify_posDef S).2 hS), scipyEval_halves mu _ _ Z x hx,
    scipyNormal_realify hS]

/-- `pdf` is `exp(-(z-mu)ᴴ S⁻¹ (z-mu)) / (π^p det S)`. -/
theorem C61_pdf {p m : ℕ} {X : NDArr} {Z : Matrix (Fin m) (Fin p) ℂ} (hX : DataIs X m Z)
    {mean : Option NDArr} {mu : Fin p → ℂ} (hm : MeanIs mean mu) (S : Matrix (Fin p) (Fin p) ℂ)
    (hS : S.PosDef) :
    CNormal.pdf X mean (.arr (.cplx (.d2 p p S))) =
      .ok ⟨m, fun i => Real.exp (-(star (Z i - mu) ⬝ᵥ S⁻¹ *ᵥ (Z i - mu)).re) /
        (Real.pi ^ p * S.det.re)⟩ := by
  have hd : 0 < S.det.re := (Complex.pos_iff.1 hS.det_pos).1
  simp only [CNormal.pdf, C61_logpdf hX hm S hS, bind, Except.bind, pure, Except.pure]
  congr 2
  funext i
  have : cnormalLogDensity mu S (Z i) = -(star (Z i - mu) ⬝ᵥ S⁻¹ *ᵥ (Z i - mu)).re -
      Real.log (Real.pi ^ p * S.det.re) := by
    unfold cnormalLogDensity
    rw [Real.log_mul (pow_ne_zero _ Real.pi_pos.ne') hd.ne', Real.log_pow]; ring
  rw [this, Real.exp_sub, Real.exp_log (mul_pos (pow_pos Real.pi_pos _) hd)]

/-- `entropy` of the complex law is `p log(π e) + log det S`. -/
theorem C61_entropy {p : ℕ} {mean : Option NDArr} {mu : Fin p → ℂ} (hm : MeanIs mean mu)
    (S : Matrix (Fin p) (Fin p) ℂ) (hS : S.PosDef) :
    CNormal.entropy mean (.arr (.cplx (.d2 p p S))) =
      .ok (p * Real.log (Real.pi * Real.exp 1) + Real.log S.det.re) := by
  simp only [CNormal.entropy, checkParams_complex hm, bind, Except.bind,
    scipyParams_ok _ ((realify_posDef S).2 hS), pure, Except.pure]
  congr 1
  have hdet : 0 < (realify S).det := by
    have := ((realify_posDef S).2 hS).det_pos
    exact this
  have he : (0 : ℝ) < Real.exp 1 := Real.exp_pos 1
  have hpi := Real.pi_pos
  rw [det_smul, Real.log_mul (by positivity) hdet.ne', Real.log_pow, log_det_realify hS,
    Fintype.card_fin, mul_assoc 2, Real.log_mul (by norm_num) (by positivity)]
  push_cast; ring

/-- With real parameters `logpdf` and the frozen law evaluate the real normal density. -/
theorem C61_real {p m : ℕ} {X : NDArr} {Y : Matrix (Fin m) (Fin p) ℝ} (hX : RealDataIs X m Y)
    {mean : Option NDArr} {mu : Fin p → ℝ} (hm : RealMeanIs mean mu) (S : Matrix (Fin p) (Fin p) ℝ)
    (hS : S.PosDef) :
    CNormal.logpdf X mean (.arr (.real (.d2 p p S))) =
      .ok ⟨m, fun i => normalLogDensity mu S (Y i)⟩ ∧
    CNormal.frozenLogpdf mean (.arr (.real (.d2 p p S))) X =
      .ok ⟨m, fun i => normalLogDensity mu S (Y i)⟩ := by
  constructor
  · simp only [CNormal.logpdf, checkParamsArray_real hX hm, bind, Except.bind, scipyParams_realMean hm hS,
      scipyEval_real hX, scipyNormal_eq]
  · simp only [CNormal.frozenLogpdf, checkParams_real hm, checkParamsArray_real hX hm, bind, Except.bind,
      scipyParams_ok _ hS, scipyEval_real hX, scipyNormal_eq]

/-- One point in dimension 1: mean 0, variance 2, at `1 + i`. -/
example : CNormal.logpdf (.cplx (.d1 1 fun _ => 1 + Complex.I)) none
      (.arr (.cplx (.d2 1 1 !![2]))) = .ok ⟨1, fun _ => -Real.log Real.pi - Real.log 2 - 1⟩ := by
  have hS : (!![2] : Matrix (Fin 1) (Fin 1) ℂ).PosDef := by
    have : (!![2] : Matrix (Fin 1) (Fin 1) ℂ) = diagonal fun _ => 2 := by
      ext i j; fin_cases i; fin_cases j; simp
    rw [this, posDef_diagonal_iff]
    intro i; simp
  rw [C61_logpdf (DataIs.cplx1 _) MeanIs.none _ hS]
  congr 2
  funext i
  unfold cnormalLogDensity
  have hinv : (!![2] : Matrix (Fin 1) (Fin 1) ℂ)⁻¹ = !![1 / 2] := by
    apply inv_eq_right_inv; ext i j; fin_cases i; fin_cases j; simp
  rw [hinv]
  simp [dotProduct, mulVec, Matrix.det_unique]
  norm_num

/-! ## C62 -/

/-- The frozen t law with complex parameters. -/
theorem C62_frozen {p m : ℕ} {X : NDArr} {Z : Matrix (Fin m) (Fin p) ℂ} (hX : DataIs X m Z)
    {loc : Option NDArr} {mu : Fin p → ℂ} (hm : MeanIs loc mu) (S : Matrix (Fin p) (Fin p) ℂ)
    (hS : S.PosDef) (df : ℝ) (hdf : 0 < df) :
    CT.frozenLogpdf loc (.arr (.cplx (.d2 p p S))) df X =
      .ok ⟨m, fun i => ctLogDensity df mu S (Z i)⟩ := by
  obtain ⟨x, hx, hc⟩ := checkParamsArray_complex hX hm S
  simp only [CT.frozenLogpdf, checkParams_complex hm, hc, bind, Except.bind, if_neg hdf.not_ge,
    scipyParams_ok _ ((realify_posDef S).2 hS), scipyEval_halves mu _ _ Z x hx,
    scipyT_realify hS hdf]

theorem C62_frozen_real {p m : ℕ} {X : NDArr} {Y : Matrix (Fin m) (Fin p) ℝ} (hX : RealDataIs X m Y)
    {loc : Option NDArr} {mu : Fin p → ℝ} (hm : RealMeanIs loc mu) (S : Matrix (Fin p) (Fin p) ℝ)
    (hS : S.PosDef) (df : ℝ) (hdf : 0 < df) :
    CT.frozenLogpdf loc (.arr (.real (.d2 p p S))) df X =
      .ok ⟨m, fun i => tLogDensity df mu S (Y i)⟩ := by
  simp only [CT.frozenLogpdf, checkParams_real hm, checkParamsArray_real hX hm, bind, Except.bind,
    if_neg hdf.not_ge, scipyParams_ok _ hS, scipyEval_real hX, scipyT_eq]

/-- `df <= 0` is refused. -/
theorem C62_df_rejected {p : ℕ} {loc : Option NDArr} {mu : Fin p → ℂ} (hm : MeanIs loc mu)
    (S : Matrix (Fin p) (Fin p) ℂ) (df : ℝ) (hdf : df ≤ 0) (x : NDArr) :
    CT.frozenLogpdf loc (.arr (.cplx (.d2 p p S))) df x = .error .valueError := by
  simp only [CT.frozenLogpdf, checkParams_complex hm, bind, Except.bind, if_pos hdf]

/-! ## C63 -/

theorem asComplex_idem (X : NDArr) : X.asComplex.asComplex = X.asComplex := by
  cases X <;> rfl

theorem asComplex_isComplex (X : NDArr) : X.asComplex.isComplex = true := by
  cases X <;> rfl

/-- With a complex covariance, data of any dtype and shape are evaluated as the corresponding
complex data; only the warning differs. -/
theorem C63_real_data_as_complex (X : NDArr) (mean : Option NDArr) (cov : CovArg)
    (hc : cov.isComplex = true) :
    CNormal.logpdf X mean cov = CNormal.logpdf X.asComplex mean cov ∧
    CNormal.frozenLogpdf mean cov X = CNormal.frozenLogpdf mean cov X.asComplex ∧
    (∀ df, CT.frozenLogpdf mean cov df X = CT.frozenLogpdf mean cov df X.asComplex) ∧
    (∀ c, checkParamsArray X mean cov = .ok c → c.warnReal = !X.isComplex ∧ c.warnDiscard = false) := by
  have key : ∀ {α : Type} (k : Checked → Py α) (_ : ∀ (c : Checked) (w : Bool), k ⟨c.x, c.mean, c.cov, w, false⟩ =
      k ⟨c.x, c.mean, c.cov, false, false⟩),
      (checkParamsArray X mean cov >>= k) = (checkParamsArray X.asComplex mean cov >>= k) := by
    intro α k hk
    simp only [checkParamsArray, hc, if_true, asComplex_idem, bind, Except.bind]
    cases checkParams mean cov with
    | error e => rfl
    | ok mc =>
      dsimp only
      cases arraytoreal X.asComplex with
      | error e => rfl
      | ok x =>
        have := hk ⟨x, some mc.1, mc.2, false, false⟩
        simp only [pure, Except.pure] at this ⊢
        rw [this, this (!X.asComplex.isComplex)]
  refine ⟨key (fun c => do let P ← scipyParams c.mean c.cov; scipyEval P (scipyNormal P.cov) c.x)
    fun c w => rfl, ?_, ?_, ?_⟩
  · unfold CNormal.frozenLogpdf
    refine bind_congr fun mc => ?_
    obtain ⟨m', c'⟩ := mc
    refine bind_congr fun P => ?_
    exact key (fun c => scipyEval P (scipyNormal P.cov) c.x) fun c w => rfl
  · intro df
    unfold CT.frozenLogpdf
    refine bind_congr fun mc => ?_
    obtain ⟨m', c'⟩ := mc
    dsimp only
    split_ifs
    · rfl
    · refine bind_congr fun P => ?_
      exact key (fun c => scipyEval P (scipyT df P.cov) c.x) fun c w => rfl
  · intro c h
    simp only [checkParamsArray, hc, if_true, bind, Except.bind] at h
    cases hp : checkParams mean cov with
    | error e => rw [hp] at h; simp at h
    | ok mc =>
      rw [hp] at h
      dsimp only at h
      cases hx : arraytoreal X.asComplex with
      | error e => rw [hx] at h; simp at h
      | ok x =>
        rw [hx] at h
        simp only [pure, Except.pure, Except.ok.injEq] at h
        rw [← h]; exact ⟨rfl, rfl⟩

/-- With a real covariance complex data of any shape are evaluated through their real part, with a
warning. -/
theorem C63_complex_data_real_params (X : NDArr) (mean : Option NDArr) (cov : CovArg)
    (hc : cov.isComplex = false) :
    CNormal.logpdf X mean cov = CNormal.logpdf (.real X.realPart) mean cov ∧
    CNormal.frozenLogpdf mean cov X = CNormal.frozenLogpdf mean cov (.real X.realPart) ∧
    (∀ df, CT.frozenLogpdf mean cov df X = CT.frozenLogpdf mean cov df (.real X.realPart)) ∧
    (∀ c, checkParamsArray X mean cov = .ok c → c.warnReal = false ∧ c.warnDiscard = X.isComplex) := by
  have key : ∀ {α : Type} (k : Checked → Py α) (_ : ∀ (c : Checked) (w : Bool),
      k ⟨c.x, c.mean, c.cov, false, w⟩ = k ⟨c.x, c.mean, c.cov, false, false⟩),
      (checkParamsArray X mean cov >>= k) = (checkParamsArray (.real X.realPart) mean cov >>= k) := by
    intro α k hk
    simp only [checkParamsArray, hc, bind, Except.bind]
    cases checkParams mean cov with
    | error e => rfl
    | ok mc =>
      cases X with
      | real a => rfl
      | cplx a =>
        have := hk ⟨.real (NDArr.cplx a).realPart, mean, cov, false, false⟩ true
        simpa [NDArr.isComplex, NDArr.realPart, pure, Except.pure] using this
  refine ⟨key (fun c => do let P ← scipyParams c.mean c.cov; scipyEval P (scipyNormal P.cov) c.x)
    fun c w => rfl, ?_, ?_, ?_⟩
  · unfold CNormal.frozenLogpdf
    refine bind_congr fun mc => ?_
    obtain ⟨m', c'⟩ := mc
    refine bind_congr fun P => ?_
    exact key (fun c => scipyEval P (scipyNormal P.cov) c.x) fun c w => rfl
  · intro df
    unfold CT.frozenLogpdf
    refine bind_congr fun mc => ?_
    obtain ⟨m', c'⟩ := mc
    dsimp only
    split_ifs
    · rfl
    · refine bind_congr fun P => ?_
      exact key (fun c => scipyEval P (scipyT df P.cov) c.x) fun c w => rfl
  · intro c h
    simp only [checkParamsArray, hc, bind, Except.bind] at h
    cases hp : checkParams mean cov with
    | error e => rw [hp] at h; simp at h
    | ok mc =>
      rw [hp] at h
      cases X with
      | real a => simp [NDArr.isComplex, pure, Except.pure] at h; rw [← h]; exact ⟨rfl, rfl⟩
      | cplx a => simp [NDArr.isComplex, pure, Except.pure] at h; rw [← h]; exact ⟨rfl, rfl⟩

theorem checkParams_mixed {p : ℕ} (mu : Fin p → ℂ) (S : Matrix (Fin p) (Fin p) ℝ) :
    checkParams (some (.cplx (.d1 p mu))) (.arr (.real (.d2 p p S))) =
      .ok (.real (.d1 (p + p) (halves mu)),
        .arr (.real (.d2 (p + p) (p + p) (realify (of fun i j => (S i j : ℂ)))))) := by
  simp [checkParams, bind, Except.bind, pure, Except.pure, NDArr.isComplex,
    CovArg.isComplex, NDArr.asComplex, arraytoreal, covariancetoreal, Arr.map]
  rfl

/-- A complex mean with a real covariance: `logpdf` silently uses the real part of the mean (and of
the data) and the real density. -/
theorem C63_complex_mean_discarded {p m : ℕ} {X : NDArr} {Y : Matrix (Fin m) (Fin p) ℝ}
    (hX : RealDataIs X m Y) (mu : Fin p → ℂ) (S : Matrix (Fin p) (Fin p) ℝ) (hS : S.PosDef) :
    CNormal.logpdf X (some (.cplx (.d1 p mu))) (.arr (.real (.d2 p p S))) =
      .ok ⟨m, fun i => normalLogDensity (fun j => (mu j).re) S (Y i)⟩ := by
  have hc : checkParamsArray X (some (.cplx (.d1 p mu))) (.arr (.real (.d2 p p S))) =
      .ok ⟨.real X.realPart, some (.cplx (.d1 p mu)), .arr (.real (.d2 p p S)), false,
        X.isComplex⟩ := by
    cases hX <;> simp [checkParamsArray, checkParams_mixed, bind, Except.bind, CovArg.isComplex,
      NDArr.isComplex, pure, Except.pure, NDArr.realPart]
  have hp : scipyParams (some (.cplx (.d1 p mu))) (.arr (.real (.d2 p p S))) =
      .ok ⟨p, fun j => (mu j).re, S⟩ := scipyParams_ok (fun j => (mu j).re) hS
  simp only [CNormal.logpdf, hc, bind, Except.bind, hp, scipyEval_real hX, scipyNormal_eq]

theorem ofReal_posDef {p : ℕ} {S : Matrix (Fin p) (Fin p) ℝ} (hS : S.PosDef) :
    (of fun i j => (S i j : ℂ) : Matrix (Fin p) (Fin p) ℂ).PosDef := toC_posDef hS

/-- The frozen law keeps the parameters in dimension `2p` and the data in dimension `p`: for
`p >= 2` every evaluation raises. -/
theorem C63_frozen_complex_mean {p m : ℕ} (hp : 2 ≤ p) (Y : Matrix (Fin m) (Fin p) ℝ)
    (mu : Fin p → ℂ) (S : Matrix (Fin p) (Fin p) ℝ) (hS : S.PosDef) :
    CNormal.frozenLogpdf (some (.cplx (.d1 p mu))) (.arr (.real (.d2 p p S))) (.real (.d2 m p Y)) =
      .error .valueError := by
  have h1 : p ≠ p + p := by omega
  have h2 : p ≠ 1 := by omega
  simp only [CNormal.frozenLogpdf, checkParams_mixed, checkParamsArray, bind, Except.bind, pure,
    Except.pure, scipyParams_ok _ ((realify_posDef _).2 (ofReal_posDef hS)), CovArg.isComplex,
    NDArr.isComplex, Bool.false_eq_true, if_false, scipyEval, NDArr.realPart, scipyRows, scipyDev,
    dif_neg h1, dif_neg h2]

/-- For `p = 1` it broadcasts instead and returns the complex density at the point `x + ix`. -/
theorem C63_frozen_complex_mean_scalar {m : ℕ} (Y : Matrix (Fin m) (Fin 1) ℝ)
    (mu : Fin 1 → ℂ) (S : Matrix (Fin 1) (Fin 1) ℝ) (hS : S.PosDef) :
    CNormal.frozenLogpdf (some (.cplx (.d1 1 mu))) (.arr (.real (.d2 1 1 S))) (.real (.d2 m 1 Y)) =
      .ok ⟨m, fun i => cnormalLogDensity mu (of fun i j => (S i j : ℂ))
        fun _ => (Y i 0 : ℂ) + Complex.I * (Y i 0 : ℂ)⟩ := by
  have h1 : (1 : ℕ) ≠ 1 + 1 := by omega
  simp only [CNormal.frozenLogpdf, checkParams_mixed, checkParamsArray, bind, Except.bind, pure,
    Except.pure, scipyParams_ok _ ((realify_posDef _).2 (ofReal_posDef hS)), CovArg.isComplex,
    NDArr.isComplex, scipyEval, NDArr.realPart, scipyRows, scipyDev, dif_neg h1, dif_pos,
    Bool.false_eq_true, if_false]
  congr 2
  funext i
  rw [← scipyNormal_realify (ofReal_posDef hS)]
  congr 1
  funext j
  refine Fin.addCases (fun j' => ?_) (fun j' => ?_) j
  · simp [halves]
  · simp [halves, -Fin.natAdd_eq_addNat]

/-- So the claim fails: same arguments, one call answers and the other raises. -/
theorem C63_violated : ∃ (mean X : NDArr) (cov : CovArg),
    (∃ r, CNormal.logpdf X (some mean) cov = .ok r) ∧
    CNormal.frozenLogpdf (some mean) cov X = .error .valueError := by
  have h1 : (1 : Matrix (Fin 2) (Fin 2) ℝ).PosDef := PosDef.one
  refine ⟨.cplx (.d1 2 fun _ => Complex.I), .real (.d2 1 2 fun _ _ => 0),
    .arr (.real (.d2 2 2 1)), ⟨_, C63_complex_mean_discarded (.real2 _ _) _ _ h1⟩,
    C63_frozen_complex_mean le_rfl _ _ _ h1⟩

/-- What holds: as soon as the covariance is complex, or mean and covariance are both real, both
calls return one value per row for every dtype of the data, and they agree. -/
theorem C63_partial {p m : ℕ} (X : NDArr) (mean : Option NDArr) (cov : CovArg)
    (h : (∃ (S : Matrix (Fin p) (Fin p) ℂ) (mu : Fin p → ℂ) (Z : Matrix (Fin m) (Fin p) ℂ),
        S.PosDef ∧ cov = .arr (.cplx (.d2 p p S)) ∧ MeanIs mean mu ∧ DataIs X m Z) ∨
      (∃ (S : Matrix (Fin p) (Fin p) ℝ) (mu : Fin p → ℝ) (Y : Matrix (Fin m) (Fin p) ℝ),
        S.PosDef ∧ cov = .arr (.real (.d2 p p S)) ∧ RealMeanIs mean mu ∧ RealDataIs X m Y)) :
    ∃ v : Fin m → ℝ, CNormal.logpdf X mean cov = .ok ⟨m, v⟩ ∧
      CNormal.frozenLogpdf mean cov X = .ok ⟨m, v⟩ := by
  rcases h with ⟨S, mu, Z, hS, rfl, hm, hX⟩ | ⟨S, mu, Y, hS, rfl, hm, hX⟩
  · exact ⟨_, C61_logpdf hX hm S hS, C61_frozen hX hm S hS⟩
  · exact ⟨_, C61_real hX hm S hS⟩

/-- A 1-D array of `n >= 2` complex points in dimension one is refused, while real points are
accepted. -/
theorem C63_scalar_points {n : ℕ} (hn : 2 ≤ n) (z : Fin n → ℂ) (y : Fin n → ℝ)
    (S : Matrix (Fin 1) (Fin 1) ℂ) (hS : S.PosDef) (T : Matrix (Fin 1) (Fin 1) ℝ) (hT : T.PosDef) :
    CNormal.logpdf (.cplx (.d1 n z)) none (.arr (.cplx (.d2 1 1 S))) = .error .valueError ∧
    CNormal.logpdf (.real (.d1 n y)) none (.arr (.real (.d2 1 1 T))) =
      .ok ⟨n, fun i => normalLogDensity 0 T fun _ => y i⟩ := by
  constructor
  · have h1 : n + n ≠ 1 + 1 := by omega
    have h2 : n + n ≠ 1 := by omega
    have h3 : (1 : ℕ) + 1 ≠ 1 := by omega
    simp only [CNormal.logpdf, checkParamsArray, checkParams_complex MeanIs.none, bind, Except.bind, pure,
      Except.pure, CovArg.isComplex, NDArr.isComplex, if_true, NDArr.asComplex, arraytoreal,
      scipyParams_ok _ ((realify_posDef S).2 hS), scipyEval, NDArr.realPart, scipyRows, scipyDev,
      if_neg h3, dif_neg h1, dif_neg h2]
  · exact (C61_real (.reals rfl n y) .none T hT).1

/-! ## C90: default arguments -/

/-- Leaving mean and covariance out raises, in every method. -/
theorem C90_defaults_violated (x : NDArr) (df : ℝ) (size : ℕ)
    (sample : (P : MvParams) → Matrix (Fin size) (Fin P.dim) ℝ) :
    CNormal.logpdf x none .one = .error .typeError ∧
    CNormal.pdf x none .one = .error .typeError ∧
    CNormal.frozenLogpdf none .one x = .error .typeError ∧
    CNormal.entropy none .one = .error .typeError ∧
    CT.frozenLogpdf none .one df x = .error .typeError ∧
    rvs size sample none .one = .error .typeError := ⟨rfl, rfl, rfl, rfl, rfl, rfl⟩

/-- Leaving only the covariance out works for a real mean: the identity is used. -/
theorem C90_partial {p m : ℕ} {X : NDArr} {Y : Matrix (Fin m) (Fin p) ℝ} (hX : RealDataIs X m Y)
    (mu : Fin p → ℝ) :
    CNormal.logpdf X (some (.real (.d1 p mu))) .one =
      .ok ⟨m, fun i => normalLogDensity mu 1 (Y i)⟩ ∧
    CNormal.frozenLogpdf (some (.real (.d1 p mu))) .one X =
      .ok ⟨m, fun i => normalLogDensity mu 1 (Y i)⟩ := by
  have hp : scipyParams (some (.real (.d1 p mu))) .one = .ok ⟨p, mu, 1⟩ := by
    simp only [scipyParams, NDArr.realPart, bind, Except.bind]
    exact (if_pos PosDef.one).trans rfl
  have hk : checkParams (some (.real (.d1 p mu))) .one = .ok (.real (.d1 p mu), .one) := by
    simp [checkParams, bind, Except.bind, pure, Except.pure, NDArr.isComplex, CovArg.isComplex]
  have hc : checkParamsArray X (some (.real (.d1 p mu))) .one =
      .ok ⟨.real X.realPart, some (.real (.d1 p mu)), .one, false, X.isComplex⟩ := by
    cases hX <;> simp [checkParamsArray, hk, bind, Except.bind, CovArg.isComplex,
      NDArr.isComplex, pure, Except.pure, NDArr.realPart]
  constructor
  · simp only [CNormal.logpdf, hc, bind, Except.bind, hp, scipyEval_real hX, scipyNormal_eq]
  · simp only [CNormal.frozenLogpdf, hc, hk, bind, Except.bind, hp, scipyEval_real hX, scipyNormal_eq]

/-- With a complex mean it raises. -/
theorem C90_complex_mean {p : ℕ} (x : NDArr) (mu : Fin p → ℂ) :
    CNormal.logpdf x (some (.cplx (.d1 p mu))) .one = .error .attributeError := rfl

/-! ## C89: the t law called directly -/

/-- `df <= 0` is refused by the law called directly too. -/
theorem C89_df_rejected (x : NDArr) {loc : Option NDArr} {shape : CovArg} (df : ℝ) (hdf : df ≤ 0)
    {p : ℕ} {mu : Fin p → ℝ} (_hm : RealMeanIs loc mu) {S : Matrix (Fin p) (Fin p) ℝ}
    (_hS : S.PosDef) (_h : shape = .arr (.real (.d2 p p S))) :
    CT.logpdf x loc shape df = .error .valueError := by
  simp only [CT.logpdf, bind, Except.bind, if_pos hdf]

/-- For real parameters and data `complex_multivariate_t.logpdf` agrees with the frozen law. -/
theorem C89_real_partial {p m : ℕ} (Y : Matrix (Fin m) (Fin p) ℝ) {loc : Option NDArr}
    {mu : Fin p → ℝ} (hm : RealMeanIs loc mu) (S : Matrix (Fin p) (Fin p) ℝ) (hS : S.PosDef) (df : ℝ)
    (hdf : 0 < df) :
    CT.logpdf (.real (.d2 m p Y)) loc (.arr (.real (.d2 p p S))) df =
      .ok ⟨m, fun i => (tLogDensity df mu S (Y i) : ℂ)⟩ := by
  simp only [CT.logpdf, if_neg hdf.not_ge, bind, Except.bind, scipyParams_realMean hm hS,
    NDArr.asComplex, Arr.map, scipyRows, scipyDev, dif_pos, pure, Except.pure]
  congr 2
  funext i
  set d : Fin p → ℝ := Y i - mu with hd
  have hq : ∀ e : Fin p → ℂ, (∀ j, e j = (d j : ℂ)) →
      e ⬝ᵥ (S⁻¹.map Complex.ofReal) *ᵥ e = ((d ⬝ᵥ S⁻¹ *ᵥ d : ℝ) : ℂ) := fun e he => by
    simp [dotProduct, mulVec, he]
  rw [hq _ fun j => by simp [hd]]
  have h0 : 0 ≤ d ⬝ᵥ S⁻¹ *ᵥ d := by
    have := hS.inv.posSemidef.dotProduct_mulVec_nonneg d
    rwa [star_trivial] at this
  have hlog : Complex.log (1 + 1 / (df : ℂ) * ((d ⬝ᵥ S⁻¹ *ᵥ d : ℝ) : ℂ)) =
      ((Real.log (1 + (d ⬝ᵥ S⁻¹ *ᵥ d) / df) : ℝ) : ℂ) := by
    rw [Complex.ofReal_log (by positivity)]
    congr 1; push_cast; ring
  rw [hlog, ← Complex.ofReal_mul, ← Complex.ofReal_sub]
  congr 1
  unfold tLogDensity
  have e1 : 1 / 2 * (df + (p : ℝ)) = (df + p) / 2 := by ring
  have e2 : 1 / 2 * df = df / 2 := by ring
  rw [e1, e2, mul_comm df Real.pi]
  ring

/-- The imaginary parts of location and shape are ignored. -/
theorem C89_imaginary_ignored (x loc shape : NDArr) (df : ℝ) :
    CT.logpdf x (some loc) (.arr shape) df =
      CT.logpdf x (some (.real loc.realPart)) (.arr (.real shape.realPart)) df := by
  cases loc <;> cases shape <;> rfl

/-- So the direct call and the frozen law disagree on complex parameters: for the standard complex
t law in dimension one with `df = 1`, at the point `2i`, the direct call returns a number with a
non-zero imaginary part. -/
theorem C89_violated : ∃ (x loc shape : NDArr) (v : Fin 1 → ℂ) (w : Fin 1 → ℝ),
    CT.logpdf x (some loc) (.arr shape) 1 = .ok ⟨1, v⟩ ∧
    CT.frozenLogpdf (some loc) (.arr shape) 1 x = .ok ⟨1, w⟩ ∧ (v 0).im ≠ 0 ∧ v 0 ≠ (w 0 : ℂ) := by
  have h1 : (1 : Matrix (Fin 1) (Fin 1) ℝ).PosDef := PosDef.one
  have hp : scipyParams (some (.cplx (.d1 1 fun _ => 0))) (.arr (.cplx (.d2 1 1 1))) =
      .ok ⟨1, fun _ => 0, 1⟩ := by
    have e : (of fun i j : Fin 1 => ((1 : Matrix (Fin 1) (Fin 1) ℂ) i j).re) = 1 := by
      ext i j; fin_cases i; fin_cases j; simp
    have := scipyParams_ok (fun _ : Fin 1 => (0 : ℝ)) h1
    rw [← e] at this
    rw [e] at this
    simpa [scipyParams, NDArr.realPart, Arr.map, e] using this
  set C : ℝ := Real.log (Real.Gamma ((1 / 2) * (1 + (1 : ℕ)))) - Real.log (Real.Gamma ((1 / 2) * 1)) -
    ((1 : ℕ) : ℝ) / 2 * Real.log (1 * Real.pi) -
    (1 / 2) * Real.log (1 : Matrix (Fin 1) (Fin 1) ℝ).det with hC
  have hv : CT.logpdf (.cplx (.d2 1 1 fun _ _ => 2 * Complex.I)) (some (.cplx (.d1 1 fun _ => 0)))
      (.arr (.cplx (.d2 1 1 1))) 1 = .ok ⟨1, fun _ => (C : ℂ) - Complex.log (-3)⟩ := by
    simp only [CT.logpdf, if_neg (one_pos (α := ℝ)).not_ge, bind, Except.bind, hp, NDArr.asComplex,
      scipyRows, scipyDev, dif_pos, pure, Except.pure]
    congr 2
    funext i
    rw [hC]
    congr 1
    have hq : ∀ e : Fin 1 → ℂ, e 0 = 2 * Complex.I →
        e ⬝ᵥ ((1 : Matrix (Fin 1) (Fin 1) ℝ)⁻¹.map Complex.ofReal) *ᵥ e = -4 := fun e he => by
      simp [dotProduct, mulVec, he]
      ring_nf
      simp
    rw [hq _ (by simp)]
    norm_num
  have him : ((C : ℂ) - Complex.log (-3)).im = -Real.pi := by
    have : Complex.log (-3) = Real.log 3 + Real.pi * Complex.I := by
      rw [Complex.log]
      have : Complex.arg (-3) = Real.pi := by
        have := Complex.arg_ofReal_of_neg (x := -3) (by norm_num)
        simpa using this
      rw [this]; simp
    rw [this]
    simp only [Complex.sub_im, Complex.add_im, Complex.ofReal_im, Complex.mul_I_im,
      Complex.ofReal_re]
    ring
  refine ⟨_, _, _, _, _, hv, C62_frozen (.cplx2 _ _) (.cplx _) 1 PosDef.one 1 one_pos, ?_, ?_⟩
  · rw [him]; exact neg_ne_zero.2 Real.pi_pos.ne'
  · intro h
    have := congrArg Complex.im h
    rw [him, Complex.ofReal_im] at this
    exact neg_ne_zero.2 Real.pi_pos.ne' this

/-! ## The hypotheses can be met -/

/-- C62: a t law in the plane with four real data rows taken as complex. -/
example : CT.frozenLogpdf none (.arr (.cplx (.d2 2 2 (demoS ℂ)))) 3 (.real (.d2 4 2 (demoX ℝ))) =
    .ok ⟨4, fun i => ctLogDensity 3 0 (demoS ℂ) fun j => (demoX ℝ i j : ℂ)⟩ :=
  C62_frozen (.real2 4 _) .none _ demoS_posDef 3 three_pos

/-- C63: the same for the normal law, frozen or not. -/
example : ∃ v : Fin 4 → ℝ,
    CNormal.logpdf (.cplx (.d2 4 2 (demoX ℂ))) none (.arr (.cplx (.d2 2 2 (demoS ℂ)))) = .ok ⟨4, v⟩ ∧
    CNormal.frozenLogpdf none (.arr (.cplx (.d2 2 2 (demoS ℂ)))) (.cplx (.d2 4 2 (demoX ℂ))) =
      .ok ⟨4, v⟩ :=
  C63_partial _ _ _ (.inl ⟨demoS ℂ, 0, demoX ℂ, demoS_posDef, rfl, .none, .cplx2 4 _⟩)

/-- C89: the real case of the t law. -/
example : CT.logpdf (.real (.d2 4 2 (demoX ℝ))) none (.arr (.real (.d2 2 2 (demoS ℝ)))) 3 =
    .ok ⟨4, fun i => (tLogDensity 3 0 (demoS ℝ) (demoX ℝ i) : ℂ)⟩ :=
  C89_real_partial _ .none _ demoS_posDef 3 three_pos

end RS
