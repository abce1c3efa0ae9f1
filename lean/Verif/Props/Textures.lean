import Verif.Props.GenData
import Mathlib.Probability.Moments.Basic

/-
Properties of the random laws used by `robuststats/utils/generation_data.py` (C98-C100).
-/
set_option autoImplicit false

namespace RS
open Matrix MeasureTheory ProbabilityTheory

/-! ## Moments of the gamma and lognormal laws -/

theorem integrable_of_integral_ne {α : Type*} [MeasurableSpace α] {μ : Measure α} {f : α → ℝ} {c : ℝ}
    (h : ∫ x, f x ∂μ = c) (hc : c ≠ 0) : Integrable f μ := by
  by_contra hf
  exact hc (h ▸ integral_undef hf)

theorem gamma_moment (a r : ℝ) (ha : 0 < a) (hr : 0 < r) (n : ℕ) :
    ∫ x, x ^ n ∂gammaMeasure a r = Real.Gamma (a + n) / (Real.Gamma a * r ^ n) := by
  have hG := Real.Gamma_pos_of_pos ha
  have h1 : ∫ x, x ^ n ∂gammaMeasure a r = ∫ x, gammaPDFReal a r x * x ^ n := by
    unfold gammaMeasure
    rw [integral_withDensity_eq_integral_toReal_smul
      (f := gammaPDF a r) (measurable_gammaPDFReal a r).ennreal_ofReal
      (ae_of_all _ fun x => ENNReal.ofReal_lt_top)]
    refine integral_congr_ae (ae_of_all _ fun x => ?_)
    simp only [gammaPDF, ENNReal.toReal_ofReal (gammaPDFReal_nonneg ha hr x), smul_eq_mul]
  rw [h1, ← setIntegral_eq_integral_of_forall_compl_eq_zero (s := Set.Ici 0), integral_Ici_eq_integral_Ioi]
  · have h2 : ∀ x ∈ Set.Ioi (0 : ℝ), gammaPDFReal a r x * x ^ n =
        r ^ a / Real.Gamma a * (x ^ ((a + n) - 1) * Real.exp (-(r * x))) := fun x hx => by
      have hx : 0 < x := hx
      rw [gammaPDFReal, if_pos hx.le, show a + n - 1 = (a - 1) + n by ring, Real.rpow_add hx,
        Real.rpow_natCast]
      ring
    rw [setIntegral_congr_fun measurableSet_Ioi h2, integral_const_mul,
      Real.integral_rpow_mul_exp_neg_mul_Ioi (by positivity) hr, one_div, Real.inv_rpow hr.le,
      Real.rpow_add hr, Real.rpow_natCast]
    have : r ^ a ≠ 0 := (Real.rpow_pos_of_pos hr a).ne'
    field_simp
  · intro x hx
    rw [gammaPDFReal, if_neg (by simpa using hx), zero_mul]

theorem gamma_mean (a r : ℝ) (ha : 0 < a) (hr : 0 < r) : ∫ x, x ∂gammaMeasure a r = a / r := by
  have h := gamma_moment a r ha hr 1
  simp only [pow_one, Nat.cast_one] at h
  rw [h, Real.Gamma_add_one ha.ne', mul_div_mul_comm]
  have := (Real.Gamma_pos_of_pos ha).ne'
  field_simp

theorem gamma_second (a r : ℝ) (ha : 0 < a) (hr : 0 < r) :
    ∫ x, x ^ 2 ∂gammaMeasure a r = a * (a + 1) / r ^ 2 := by
  rw [gamma_moment a r ha hr 2, show a + ((2 : ℕ) : ℝ) = (a + 1) + 1 by push_cast; ring,
    Real.Gamma_add_one (by positivity), Real.Gamma_add_one ha.ne']
  have := (Real.Gamma_pos_of_pos ha).ne'
  field_simp

theorem gamma_pos (a r : ℝ) : ∀ᵐ x ∂gammaMeasure a r, 0 < x := by
  unfold gammaMeasure
  rw [ae_iff]
  have h : {x : ℝ | ¬0 < x} = Set.Iic 0 := by ext x; simp
  rw [h, withDensity_apply _ measurableSet_Iic, ← setLIntegral_congr (Iio_ae_eq_Iic (a := (0 : ℝ)))]
  rw [setLIntegral_congr_fun measurableSet_Iio fun x (hx : x < 0) => gammaPDF_of_neg hx,
    lintegral_zero]

theorem centred_square {α : Type*} [MeasurableSpace α] {μ : Measure α} [IsProbabilityMeasure μ]
    {f : α → ℝ} {v : ℝ} (hv : v ≠ 0) (h1 : ∫ x, f x ∂μ = 1) (h2 : ∫ x, f x ^ 2 ∂μ = v) :
    ∫ x, (f x - 1) ^ 2 ∂μ = v - 1 := by
  have i1 := integrable_of_integral_ne h1 one_ne_zero
  have i2 := integrable_of_integral_ne h2 hv
  have e : ∀ x, (f x - 1) ^ 2 = f x ^ 2 - 2 * f x + 1 := fun x => by ring
  simp only [e]
  have i3 : Integrable (fun x => f x ^ 2 - 2 * f x) μ := i2.sub (i1.const_mul 2)
  rw [integral_add i3 (integrable_const _), integral_sub i2 (i1.const_mul 2), integral_const_mul,
    h1, h2]
  simp
  ring

theorem exp_moment (t : ℝ) : ∫ z, Real.exp (t * z) ∂gaussianReal 0 1 = Real.exp (t ^ 2 / 2) := by
  have h := congrFun (mgf_fun_id_gaussianReal (μ := 0) (v := 1)) t
  simp only [mgf, zero_mul, zero_add, NNReal.coe_one, one_mul] at h
  exact h

/-! ## C98: gamma textures -/

/-- `generate_textures_gamma_dist(N, nu)`: positive textures with mean 1 and variance `1/nu`. -/
theorem C98_gamma {Ω : Type*} [MeasurableSpace Ω] (P0 : Measure Ω) [IsProbabilityMeasure P0] {N : ℕ}
    (gamma : Ω → ℝ → ℝ → Matrix (Fin N) (Fin 1) ℝ) (hg : GammaOk P0 gamma) (nu : ℝ) (hnu : 0 < nu) :
    ∃ tau : Ω → Matrix (Fin N) (Fin 1) ℝ,
      (∀ ω, generateTexturesGamma (gamma ω) nu = .ok (tau ω)) ∧
      ∀ i, (∀ᵐ ω ∂P0, 0 < tau ω i 0) ∧ ∫ ω, tau ω i 0 ∂P0 = 1 ∧
        ∫ ω, (tau ω i 0 - 1) ^ 2 ∂P0 = 1 / nu := by
  refine ⟨fun ω => gamma ω nu (1 / nu), fun ω => ?_, fun i => ?_⟩
  · unfold generateTexturesGamma
    rw [if_neg (not_le.2 hnu)]
  · obtain ⟨hm, hl⟩ := hg nu (1 / nu) hnu (by positivity) i
    rw [one_div_one_div] at hl
    have h1 : ∫ ω, gamma ω nu (1 / nu) i 0 ∂P0 = 1 := by
      have := integral_map (f := fun x : ℝ => x) hm (by fun_prop)
      rw [← this, hl, gamma_mean nu nu hnu hnu, div_self hnu.ne']
    have h2 : ∫ ω, gamma ω nu (1 / nu) i 0 ^ 2 ∂P0 = nu * (nu + 1) / nu ^ 2 := by
      have := integral_map (f := fun x : ℝ => x ^ 2) hm (by fun_prop)
      rw [← this, hl, gamma_second nu nu hnu hnu]
    refine ⟨?_, h1, ?_⟩
    · have := gamma_pos nu nu
      rw [← hl] at this
      exact ae_of_ae_map hm this
    · rw [centred_square (by positivity) h1 h2]
      field_simp
      ring

/-- A negative or zero `nu` is refused. -/
theorem C98_refuses {N : ℕ} (gamma : ℝ → ℝ → Matrix (Fin N) (Fin 1) ℝ) (nu : ℝ) (hnu : nu ≤ 0) :
    ∃ e, generateTexturesGamma gamma nu = .error e :=
  ⟨_, if_pos hnu⟩

/-- There are draws which meet the hypothesis: independent ones, one for each pair of parameters. -/
example (N : ℕ) : ∃ (Ω : Type) (_ : MeasurableSpace Ω) (P0 : Measure Ω)
    (gamma : Ω → ℝ → ℝ → Matrix (Fin N) (Fin 1) ℝ), IsProbabilityMeasure P0 ∧ GammaOk P0 gamma := by
  classical
  let law : Fin N × ℝ × ℝ → Measure ℝ := fun q =>
    if 0 < q.2.1 ∧ 0 < q.2.2 then gammaMeasure q.2.1 (1 / q.2.2) else Measure.dirac 0
  have hlaw : ∀ q, IsProbabilityMeasure (law q) := fun q => by
    simp only [law]
    split_ifs with h
    · exact isProbabilityMeasure_gammaMeasure h.1 (one_div_pos.2 h.2)
    · infer_instance
  refine ⟨Fin N × ℝ × ℝ → ℝ, inferInstance, Measure.infinitePi law,
    fun ω k θ => Matrix.of fun i _ => ω (i, k, θ), inferInstance, fun k θ hk hθ i => ⟨?_, ?_⟩⟩
  · exact (measurable_pi_apply (i, k, θ)).aemeasurable
  · have h := (measurePreserving_eval_infinitePi law (i, k, θ)).map_eq
    have e : law (i, k, θ) = gammaMeasure k (1 / θ) := if_pos ⟨hk, hθ⟩
    rw [e] at h
    exact h

/-! ## C99: lognormal textures -/

/-- What `generate_textures_lognormal_dist(N, variance)` gives: positive textures with mean 1, but
with variance `exp(variance) - 1`. -/
theorem C99_exact {Ω : Type*} [MeasurableSpace Ω] (P0 : Measure Ω) [IsProbabilityMeasure P0] {N : ℕ}
    (lognorm : Ω → ℝ → ℝ → Matrix (Fin N) (Fin 1) ℝ) (hl : LognormOk P0 lognorm)
    (variance : ℝ) (hv : 0 < variance) :
    ∃ tau : Ω → Matrix (Fin N) (Fin 1) ℝ,
      (∀ ω, generateTexturesLognormal (lognorm ω) variance = .ok (tau ω)) ∧
      ∀ i, (∀ᵐ ω ∂P0, 0 < tau ω i 0) ∧ ∫ ω, tau ω i 0 ∂P0 = 1 ∧
        ∫ ω, (tau ω i 0 - 1) ^ 2 ∂P0 = Real.exp variance - 1 := by
  set s := Real.sqrt variance with hs
  have hs2 : s ^ 2 = variance := Real.sq_sqrt hv.le
  refine ⟨fun ω => lognorm ω (Real.exp (-(s ^ 2) / 2)) s, fun ω => ?_, fun i => ?_⟩
  · unfold generateTexturesLognormal
    rw [if_neg (not_le.2 hv)]
  · obtain ⟨hm, hlaw⟩ := hl (Real.exp (-(s ^ 2) / 2)) s (Real.exp_pos _) (Real.sqrt_pos.2 hv) i
    have hmeas : Measurable fun z : ℝ => Real.exp (-(s ^ 2) / 2) * Real.exp (s * z) := by fun_prop
    have h1 : ∫ ω, lognorm ω (Real.exp (-(s ^ 2) / 2)) s i 0 ∂P0 = 1 := by
      have := integral_map (f := fun x : ℝ => x) hm (by fun_prop)
      rw [← this, hlaw, integral_map hmeas.aemeasurable (by fun_prop), integral_const_mul,
        exp_moment, ← Real.exp_add, show -(s ^ 2) / 2 + s ^ 2 / 2 = 0 by ring, Real.exp_zero]
    have h2 : ∫ ω, lognorm ω (Real.exp (-(s ^ 2) / 2)) s i 0 ^ 2 ∂P0 = Real.exp variance := by
      have := integral_map (f := fun x : ℝ => x ^ 2) hm (by fun_prop)
      rw [← this, hlaw, integral_map hmeas.aemeasurable (by fun_prop)]
      have e : ∀ z : ℝ, (Real.exp (-(s ^ 2) / 2) * Real.exp (s * z)) ^ 2 =
          Real.exp (-(s ^ 2)) * Real.exp ((2 * s) * z) := fun z => by
        rw [mul_pow, ← Real.exp_nat_mul, ← Real.exp_nat_mul]
        congr 2 <;> push_cast <;> ring
      simp only [e]
      rw [integral_const_mul, exp_moment, ← Real.exp_add, ← hs2]
      congr 1
      ring
    refine ⟨?_, h1, centred_square (Real.exp_pos _).ne' h1 h2⟩
    have : ∀ᵐ x ∂P0.map (fun ω => lognorm ω (Real.exp (-(s ^ 2) / 2)) s i 0), 0 < x := by
      rw [hlaw, ae_map_iff hmeas.aemeasurable measurableSet_Ioi]
      exact ae_of_all _ fun z => by positivity
    exact ae_of_ae_map hm this

/-- The claim that the textures have the requested variance fails for every positive argument: it is
always larger. -/
theorem C99_violated {Ω : Type*} [MeasurableSpace Ω] (P0 : Measure Ω) [IsProbabilityMeasure P0]
    {N : ℕ} (lognorm : Ω → ℝ → ℝ → Matrix (Fin N) (Fin 1) ℝ) (hl : LognormOk P0 lognorm)
    (variance : ℝ) (hv : 0 < variance) (i : Fin N) (tau : Ω → Matrix (Fin N) (Fin 1) ℝ)
    (h : ∀ ω, generateTexturesLognormal (lognorm ω) variance = .ok (tau ω)) :
    variance < ∫ ω, (tau ω i 0 - ∫ ω', tau ω' i 0 ∂P0) ^ 2 ∂P0 := by
  obtain ⟨tau', h', hmom⟩ := C99_exact P0 lognorm hl variance hv
  have e : tau = tau' := by
    funext ω
    have := (h ω).symm.trans (h' ω)
    injection this
  subst e
  obtain ⟨-, h1, h2⟩ := hmom i
  rw [h1, h2]
  linarith [Real.add_one_lt_exp hv.ne']

/-- What remains of the claim: positive textures with mean 1. Missing: the variance. -/
theorem C99_partial {Ω : Type*} [MeasurableSpace Ω] (P0 : Measure Ω) [IsProbabilityMeasure P0]
    {N : ℕ} (lognorm : Ω → ℝ → ℝ → Matrix (Fin N) (Fin 1) ℝ) (hl : LognormOk P0 lognorm)
    (variance : ℝ) (hv : 0 < variance) :
    ∃ tau : Ω → Matrix (Fin N) (Fin 1) ℝ,
      (∀ ω, generateTexturesLognormal (lognorm ω) variance = .ok (tau ω)) ∧
      ∀ i, (∀ᵐ ω ∂P0, 0 < tau ω i 0) ∧ ∫ ω, tau ω i 0 ∂P0 = 1 := by
  obtain ⟨tau, h1, h2⟩ := C99_exact P0 lognorm hl variance hv
  exact ⟨tau, h1, fun i => ⟨(h2 i).1, (h2 i).2.1⟩⟩

/-- Functions of independent standard normal variables meet the hypothesis. -/
example (N : ℕ) : LognormOk gaussSeq fun w scale s =>
    (Matrix.of fun i _ => scale * Real.exp (s * w i) : Matrix (Fin N) (Fin 1) ℝ) := by
  intro scale s _ _ i
  refine ⟨Measurable.aemeasurable (by simp only [Matrix.of_apply]; fun_prop), ?_⟩
  rw [← (gaussSeq_eval i).map_eq, Measure.map_map (by fun_prop) (by fun_prop)]
  rfl

/-! ## C100: the eigenvalues of `generate_covariance` -/

theorem eigenvalue_mem {p : ℕ} {S : Matrix (Fin p) (Fin p) ℝ} {l : Fin p → ℝ}
    (h : EigenvaluesAre S l) {v : Fin p → ℝ} (hv : v ≠ 0) {x : ℝ} (hx : S *ᵥ v = x • v) :
    ∃ i, x = l i := by
  have h1 : S.charpoly.eval x = 0 := by
    rw [Matrix.eval_charpoly]
    refine Matrix.exists_mulVec_eq_zero_iff.1 ⟨v, hv, ?_⟩
    rw [Matrix.sub_mulVec, hx]
    simp [Matrix.scalar_apply]
  rw [h, Polynomial.eval_prod, Finset.prod_eq_zero_iff] at h1
  obtain ⟨i, -, hi⟩ := h1
  refine ⟨i, ?_⟩
  simpa [sub_eq_zero] using hi

theorem chiSquareOne_large : 0 < chiSquareOne (Set.Ici 1) := by
  unfold chiSquareOne
  rw [Measure.map_apply (by fun_prop) measurableSet_Ici]
  have h : Set.Ici 1 ⊆ (fun z : ℝ => z ^ 2) ⁻¹' Set.Ici 1 := fun z (hz : 1 ≤ z) => by
    simp only [Set.mem_preimage, Set.mem_Ici]
    nlinarith
  refine lt_of_lt_of_le ?_ (measure_mono h)
  rw [pos_iff_ne_zero]
  intro h0
  have := gaussianReal_absolutelyContinuous' 0 (v := 1) one_ne_zero h0
  simp at this

/-- All eigenvalues of `generate_covariance(p)` lie in `[0, 1)`, for every draw. -/
theorem C100_exact (p : ℕ) (u : Fin p → ℝ) (hu : ∀ i, 0 ≤ u i ∧ u i < 1)
    (Q : Matrix (Fin p) (Fin p) ℝ) (hQ : Qᵀ * Q = 1) (S : Matrix (Fin p) (Fin p) ℝ)
    (hS : generateCovariance p u (.ok Q) false = .ok S) (v : Fin p → ℝ) (hv : v ≠ 0) (x : ℝ)
    (hx : S *ᵥ v = x • v) : 0 ≤ x ∧ x < 1 := by
  obtain ⟨S', h1, -, -, h2, -⟩ := C74_real p u Q hQ
  have e : S = S' := by
    have := hS.symm.trans h1
    injection this
  subst e
  obtain ⟨i, rfl⟩ := eigenvalue_mem h2 hv hx
  obtain ⟨h3, h4⟩ := hu i
  exact ⟨sq_nonneg _, by nlinarith⟩

/-- The comment in the code, "eigenvalues as chi-square(1)", is wrong: whatever the law of the draws,
no eigenvalue of the generated matrix has the chi-square law. -/
theorem C100_violated {Ω : Type*} [MeasurableSpace Ω] (P0 : Measure Ω) (p : ℕ) (u : Ω → Fin p → ℝ)
    (hu : ∀ ω i, 0 ≤ u ω i ∧ u ω i < 1) (Q : Ω → Matrix (Fin p) (Fin p) ℝ)
    (hQ : ∀ ω, (Q ω)ᵀ * Q ω = 1) (S : Ω → Matrix (Fin p) (Fin p) ℝ)
    (hS : ∀ ω, generateCovariance p (u ω) (.ok (Q ω)) false = .ok (S ω))
    (v : Ω → Fin p → ℝ) (hv : ∀ ω, v ω ≠ 0) (x : Ω → ℝ) (hxm : AEMeasurable x P0)
    (hx : ∀ ω, S ω *ᵥ v ω = x ω • v ω) : P0.map x ≠ chiSquareOne := by
  intro h
  have h1 := chiSquareOne_large
  rw [← h, Measure.map_apply_of_aemeasurable hxm measurableSet_Ici] at h1
  have h2 : x ⁻¹' Set.Ici 1 = ∅ := by
    ext ω
    simp only [Set.mem_preimage, Set.mem_Ici, Set.mem_empty_iff_false, iff_false, not_le]
    exact (C100_exact p (u ω) (hu ω) (Q ω) (hQ ω) (S ω) (hS ω) (v ω) (hv ω) (x ω) (hx ω)).2
  rw [h2, measure_empty] at h1
  exact lt_irrefl _ h1

end RS
