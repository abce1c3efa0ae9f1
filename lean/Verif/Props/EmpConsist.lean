import Verif.Props.Consist
import Verif.Props.Base
import Verif.Props.Law

/-
The empirical covariance of complex data and the law of the data (C119).
-/
set_option autoImplicit false

namespace RS
open Matrix ComplexOrder Filter Topology MeasureTheory ProbabilityTheory

section
variable {p : ℕ} {Ω : Type*} [MeasurableSpace Ω] {P : Measure Ω} [IsProbabilityMeasure P]
  {x : ℕ → Ω → Fin p → ℂ} {μ : Measure (Fin p → ℂ)} {m : Fin p → ℂ}
  {S : Matrix (Fin p) (Fin p) ℂ}

/-- The empirical covariance in terms of the centred samples `y = x - m`. -/
theorem npCov_apply {N : ℕ} (hN : 0 < N) (X : Matrix (Fin N) (Fin p) ℂ) (m : Fin p → ℂ) (a b : Fin p) :
    npCov X a b = (N : ℂ)⁻¹ * ∑ i, (X i a - m a) * star (X i b - m b) -
      ((N : ℂ)⁻¹ * ∑ i, (X i a - m a)) * star ((N : ℂ)⁻¹ * ∑ i, (X i b - m b)) := by
  have hN0 : (N : ℂ) ≠ 0 := by exact_mod_cast hN.ne'
  have hs : ∀ j, (N : ℂ)⁻¹ * ∑ i, (X i j - m j) = (∑ i, X i j) / N - m j := fun j => by
    rw [Finset.sum_sub_distrib, Finset.sum_const, Finset.card_univ, Fintype.card_fin, nsmul_eq_mul]
    field_simp
  have hd : ∀ i j, X i j - (∑ k, X k j) / N = (X i j - m j) - (N : ℂ)⁻¹ * ∑ i, (X i j - m j) :=
    fun i j => by rw [hs]; ring
  rw [npCov, Matrix.smul_apply, Matrix.mul_apply, smul_eq_mul]
  simp only [transpose_apply, of_apply, map_apply, hd]
  set u := fun j => (N : ℂ)⁻¹ * ∑ i, (X i j - m j) with hu
  have h1 : ∀ j, ∑ i, (X i j - m j) = N * u j := fun j => by rw [hu]; field_simp
  have h2 : ∑ i, star (X i b - m b) = N * star (u b) := by
    rw [← star_sum, h1, star_mul']; simp
  have e : ∀ i, (X i a - m a - u a) * star (X i b - m b - u b) =
      (X i a - m a) * star (X i b - m b) - (X i a - m a) * star (u b) -
        u a * star (X i b - m b) + u a * star (u b) := fun i => by
    rw [star_sub (X i b - m b)]; ring
  change (N : ℂ)⁻¹ * ∑ i, (X i a - m a - u a) * star (X i b - m b - u b) = _ - u a * star (u b)
  simp only [e, Finset.sum_add_distrib, Finset.sum_sub_distrib, ← Finset.sum_mul, ← Finset.mul_sum,
    h1, h2, Finset.sum_const, Finset.card_univ, Fintype.card_fin, nsmul_eq_mul]
  field_simp
  ring

theorem dotCov_apply {N : ℕ} (X : Matrix (Fin N) (Fin p) ℂ) (a b : Fin p) :
    dotCov X a b = (N : ℂ)⁻¹ * ∑ i, X i a * star (X i b) := by
  simp only [dotCov, Matrix.smul_apply, Matrix.mul_apply, transpose_apply, map_apply, smul_eq_mul]

omit [IsProbabilityMeasure P] in
/-- The law of large numbers for a function of the samples. -/
theorem IIDSamples.average (h : IIDSamples P x μ) {f : (Fin p → ℂ) → ℂ} (hf : Measurable f)
    (hi : Integrable f μ) : ∀ᵐ ω ∂P, Tendsto (fun N : ℕ => (N : ℂ)⁻¹ * ∑ i : Fin N, f (x i ω)) atTop
      (𝓝 (∫ z, f z ∂μ)) := by
  have hident : ∀ i, IdentDistrib (fun ω => f (x i ω)) (fun ω => f (x 0 ω)) P P := fun i =>
    (show IdentDistrib (x i) (x 0) P P from ⟨(h.meas i).aemeasurable, (h.meas 0).aemeasurable,
      (h.law i).trans (h.law 0).symm⟩).comp hf
  have hind : Pairwise (Function.onFun (fun g g' => IndepFun g g' P) fun i ω => f (x i ω)) :=
    fun i j hij => (h.indep.indepFun hij).comp hf hf
  have hint : Integrable (fun ω => f (x 0 ω)) P := by
    have := h.law 0
    rw [← this] at hi
    exact hi.comp_measurable (h.meas 0)
  have hlaw := strong_law_ae (fun i ω => f (x i ω)) hint hind hident
  have hE : ∫ ω, f (x 0 ω) ∂P = ∫ z, f z ∂μ := by
    rw [← h.law 0, integral_map (h.meas 0).aemeasurable hf.aestronglyMeasurable]
  filter_upwards [hlaw] with ω hω
  rw [hE] at hω
  refine hω.congr fun N => ?_
  rw [Finset.sum_range, Complex.real_smul]
  push_cast
  rfl

theorem raw_measurable (a b : Fin p) : Measurable fun z : Fin p → ℂ => z a * star (z b) := by
  have h : Continuous fun z : Fin p → ℂ => z a * star (z b) := by fun_prop
  exact h.measurable

/-- What the population says about the raw moments. -/
theorem MeanCov.raw [IsProbabilityMeasure μ] (h : MeanCov μ m S) (a b : Fin p) :
    Integrable (fun z => z a * star (z b)) μ ∧
      ∫ z, z a * star (z b) ∂μ = S a b + m a * star (m b) := by
  have e : (fun z : Fin p → ℂ => z a * star (z b)) = fun z =>
      (z a - m a) * star (z b - m b) + (m a * star (z b) + (star (m b) * z a - m a * star (m b))) := by
    funext z; rw [star_sub]; ring
  have hsb : Integrable (fun z : Fin p → ℂ => star (z b)) μ := by
    have := (h.mean b).1
    exact (Complex.conjCLE.toContinuousLinearMap.integrable_comp this)
  have hsb' : ∫ z, star (z b) ∂μ = star (m b) := by
    have := integral_conj (μ := μ) (f := fun z : Fin p → ℂ => z b)
    rw [(h.mean b).2] at this
    exact this
  have i1 := (h.cov a b).1
  have i2 : Integrable (fun z : Fin p → ℂ => m a * star (z b)) μ := hsb.const_mul _
  have i3 : Integrable (fun z : Fin p → ℂ => star (m b) * z a) μ := (h.mean a).1.const_mul _
  have i4 : Integrable (fun z : Fin p → ℂ => star (m b) * z a - m a * star (m b)) μ :=
    i3.sub (integrable_const _)
  have i5 : Integrable (fun z : Fin p → ℂ =>
    m a * star (z b) + (star (m b) * z a - m a * star (m b))) μ := i2.add i4
  rw [e]
  refine ⟨i1.add i5, ?_⟩
  rw [integral_add i1 i5, integral_add i2 i4, integral_sub i3 (integrable_const _),
    integral_const_mul, integral_const_mul, hsb', (h.mean a).2, (h.cov a b).2, integral_const,
    probReal_univ, one_smul]
  ring

theorem MeanCov.centred [IsProbabilityMeasure μ] (h : MeanCov μ m S) (a : Fin p) :
    Integrable (fun z => z a - m a) μ ∧ ∫ z, (z a - m a) ∂μ = 0 := by
  refine ⟨(h.mean a).1.sub (integrable_const _), ?_⟩
  rw [integral_sub (h.mean a).1 (integrable_const _), (h.mean a).2, integral_const, probReal_univ,
    one_smul, sub_self]

theorem emp_limit (h : IIDSamples P x μ) (hM : MeanCov μ m S) (centered : Bool) :
    ∀ᵐ ω ∂P, Tendsto (fun N => complexEmpiricalCovariance (firstSamples x ω N) centered) atTop
      (𝓝 (if centered then S + vecMulVec m (star m) else S)) := by
  have := h.prob
  have hm1 : ∀ a : Fin p, Measurable fun z : Fin p → ℂ => z a - m a := fun a =>
    (measurable_pi_apply a).sub_const _
  have hst : Measurable (star : ℂ → ℂ) := continuous_star.measurable
  cases centered with
  | true =>
    have hall : ∀ᵐ ω ∂P, ∀ a b, Tendsto (fun N : ℕ => (N : ℂ)⁻¹ * ∑ i : Fin N, x i ω a * star (x i ω b))
        atTop (𝓝 (∫ z, z a * star (z b) ∂μ)) := by
      rw [ae_all_iff]; intro a; rw [ae_all_iff]; intro b
      have hm2 : Measurable fun z : Fin p → ℂ => z a * star (z b) :=
        raw_measurable a b
      have h3 := h.average hm2 (hM.raw a b).1
      exact h3
    filter_upwards [hall] with ω hω
    refine tendsto_pi_nhds.2 fun a => tendsto_pi_nhds.2 fun b => ?_
    simp only [complexEmpiricalCovariance, if_true, dotCov_apply]
    have := hω a b
    rw [(hM.raw a b).2] at this
    exact this
  | false =>
    have hall : ∀ᵐ ω ∂P, ∀ a b, Tendsto (fun N : ℕ => (N : ℂ)⁻¹ *
        ∑ i : Fin N, (x i ω a - m a) * star (x i ω b - m b)) atTop (𝓝 (S a b)) := by
      rw [ae_all_iff]; intro a; rw [ae_all_iff]; intro b
      rw [← (hM.cov a b).2]
      have hm2 : Measurable fun z : Fin p → ℂ => (z a - m a) * star (z b - m b) :=
        (hm1 a).mul (hst.comp (hm1 b))
      have h3 := h.average hm2 (hM.cov a b).1
      exact h3
    have hmean : ∀ᵐ ω ∂P, ∀ a, Tendsto (fun N : ℕ => (N : ℂ)⁻¹ *
        ∑ i : Fin N, (x i ω a - m a)) atTop (𝓝 0) := by
      rw [ae_all_iff]; intro a
      rw [← (hM.centred a).2]
      have h3 := h.average (hm1 a) (hM.centred a).1
      exact h3
    filter_upwards [hall, hmean] with ω hω hω'
    refine tendsto_pi_nhds.2 fun a => tendsto_pi_nhds.2 fun b => ?_
    have h1 := (hω a b).sub ((hω' a).mul ((continuous_star.tendsto (0 : ℂ)).comp (hω' b)))
    rw [zero_mul, sub_zero] at h1
    refine h1.congr' ?_
    filter_upwards [eventually_gt_atTop 0] with N hN
    have := npCov_apply hN (firstSamples x ω N) m a b
    exact this.symm

/-- `fit` of `ComplexEmpiricalCovariance` on the first `N` of a sequence of independent samples with
mean `m` and covariance `S`: `covariance_` tends to `S` and `location_` to `m` almost surely. -/
theorem C119_consistent (h : IIDSamples P x μ) (hM : MeanCov μ m S) (hp : 0 < p) :
    ∀ᵐ ω ∂P, ∀ ε : ℝ, 0 < ε → ∃ N₀ : ℕ, ∀ N, N₀ ≤ N → ∃ loc C,
      complexEmpCovFit (.cplx (.d2 N p (firstSamples x ω N))) false =
        .ok ⟨⟨p, loc⟩, .cplx (.d2 p p C)⟩ ∧
      frobDist C S < ε ∧ ∀ j, ‖loc j - m j‖ < ε := by
  have := h.prob
  have hmean : ∀ᵐ ω ∂P, ∀ a, Tendsto (fun N : ℕ => (N : ℂ)⁻¹ * ∑ i : Fin N, x i ω a) atTop
      (𝓝 (m a)) := by
    rw [ae_all_iff]; intro a
    rw [← (hM.mean a).2]
    have h3 := h.average (measurable_pi_apply a) (hM.mean a).1
    exact h3
  filter_upwards [emp_limit h hM false, hmean] with ω hω hω' ε hε
  have h1 := (frob_of_tendsto hω).eventually (gt_mem_nhds hε)
  have h2 : ∀ᶠ N : ℕ in atTop, ∀ a, ‖(N : ℂ)⁻¹ * ∑ i : Fin N, x i ω a - m a‖ < ε := by
    rw [eventually_all]; intro a
    have := (hω' a).sub_const (m a)
    rw [sub_self] at this
    have := this.norm
    rw [norm_zero] at this
    exact this.eventually (gt_mem_nhds hε)
  obtain ⟨N₀, hN₀⟩ := eventually_atTop.1 (h1.and (h2.and (eventually_gt_atTop 0)))
  refine ⟨N₀, fun N hN => ?_⟩
  obtain ⟨a1, a2, a3⟩ := hN₀ N hN
  have hN0 : (N : ℂ) ≠ 0 := by exact_mod_cast a3.ne'
  obtain ⟨loc, C, b1, b2, b3⟩ := C27_complex_data N p a3 hp (firstSamples x ω N) false
  have hC : C = complexEmpiricalCovariance (firstSamples x ω N) false := by
    ext a b
    have c1 := b3 a b
    rw [← C25_is_covariance a3 (firstSamples x ω N) false loc b2 a b] at c1
    exact mul_left_cancel₀ hN0 c1
  refine ⟨loc, C, b1, ?_, fun j => ?_⟩
  · rw [hC]; exact a1
  · have c2 : loc j = (N : ℂ)⁻¹ * ∑ i : Fin N, x i ω j := by
      have c3 : (N : ℂ) * loc j = ∑ i : Fin N, x i ω j := b2 j
      rw [← c3]; field_simp
    rw [c2]
    exact a2 j

/-- With `assume_centered` the limit is `S + m m^H`: the covariance only if the mean is zero. -/
theorem C119_centered (h : IIDSamples P x μ) (hM : MeanCov μ m S) (hp : 0 < p) :
    ∀ᵐ ω ∂P, ∀ ε : ℝ, 0 < ε → ∃ N₀ : ℕ, ∀ N, N₀ ≤ N → ∃ C,
      complexEmpCovFit (.cplx (.d2 N p (firstSamples x ω N))) true =
        .ok ⟨⟨p, 0⟩, .cplx (.d2 p p C)⟩ ∧
      frobDist C (S + vecMulVec m (star m)) < ε := by
  filter_upwards [emp_limit h hM true] with ω hω ε hε
  have h1 := (frob_of_tendsto hω).eventually (gt_mem_nhds hε)
  obtain ⟨N₀, hN₀⟩ := eventually_atTop.1 (h1.and (eventually_gt_atTop 0))
  refine ⟨N₀, fun N hN => ?_⟩
  obtain ⟨a1, a3⟩ := hN₀ N hN
  have hN0 : (N : ℂ) ≠ 0 := by exact_mod_cast a3.ne'
  obtain ⟨loc, C, b1, b2, b3⟩ := C27_complex_data N p a3 hp (firstSamples x ω N) true
  have hC : C = complexEmpiricalCovariance (firstSamples x ω N) true := by
    ext a b
    have c1 := b3 a b
    rw [← C25_is_covariance a3 (firstSamples x ω N) true loc b2 a b] at c1
    exact mul_left_cancel₀ hN0 c1
  have hl : loc = 0 := b2
  refine ⟨C, by rw [b1, hl], ?_⟩
  rw [hC]; exact a1

/-- The expectation of `covariance_` for `N` samples: `(1 - 1/N) S` if the mean is estimated,
`S + m m^H` with `assume_centered`. -/
theorem C119_expectation (h : IIDSamples P x μ) (hM : MeanCov μ m S) (hp : 0 < p) (N : ℕ) (hN : 0 < N)
    (centered : Bool) :
    ∃ (loc : Ω → Fin p → ℂ) (C : Ω → Matrix (Fin p) (Fin p) ℂ),
      (∀ ω, complexEmpCovFit (.cplx (.d2 N p (firstSamples x ω N))) centered =
        .ok ⟨⟨p, loc ω⟩, .cplx (.d2 p p (C ω))⟩) ∧
      ∀ a b, Integrable (fun ω => C ω a b) P ∧ ∫ ω, C ω a b ∂P =
        if centered then S a b + m a * star (m b) else (1 - (N : ℂ)⁻¹) * S a b := by
  have := h.prob
  have hN0 : (N : ℂ) ≠ 0 := by exact_mod_cast hN.ne'
  have hm1 : ∀ a : Fin p, Measurable fun z : Fin p → ℂ => z a - m a := fun a =>
    (measurable_pi_apply a).sub_const _
  have hst : Measurable (star : ℂ → ℂ) := continuous_star.measurable
  choose loc C b1 b2 b3 using fun ω => C27_complex_data N p hN hp (firstSamples x ω N) centered
  have hC : ∀ ω, C ω = complexEmpiricalCovariance (firstSamples x ω N) centered := fun ω => by
    ext a b
    have c1 := b3 ω a b
    rw [← C25_is_covariance hN (firstSamples x ω N) centered (loc ω) (b2 ω) a b] at c1
    exact mul_left_cancel₀ hN0 c1
  have tr : ∀ (i : ℕ) {f : (Fin p → ℂ) → ℂ}, Measurable f → Integrable f μ →
      Integrable (fun ω => f (x i ω)) P ∧ ∫ ω, f (x i ω) ∂P = ∫ z, f z ∂μ := fun i f hf hi => by
    rw [← h.law i] at hi ⊢
    exact ⟨hi.comp_measurable (h.meas i),
      (integral_map (h.meas i).aemeasurable hf.aestronglyMeasurable).symm⟩
  refine ⟨loc, C, b1, fun a b => ?_⟩
  cases centered with
  | true =>
    have e : (fun ω => C ω a b) = fun ω => (N : ℂ)⁻¹ * ∑ i : Fin N, x i ω a * star (x i ω b) :=
      funext fun ω => by
        rw [hC]; simp only [complexEmpiricalCovariance, if_true, dotCov_apply]; rfl
    have hm2 : Measurable fun z : Fin p → ℂ => z a * star (z b) :=
      raw_measurable a b
    have hi : ∀ i : ℕ, Integrable (fun ω => x i ω a * star (x i ω b)) P ∧
        ∫ ω, x i ω a * star (x i ω b) ∂P = S a b + m a * star (m b) := fun i => by
      rw [← (hM.raw a b).2]
      have h3 := tr i hm2 (hM.raw a b).1
      exact h3
    have i0 : ∀ i ∈ (Finset.univ : Finset (Fin N)),
        Integrable (fun ω => x i ω a * star (x i ω b)) P := fun i _ => (hi i).1
    have i1 : Integrable (fun ω => ∑ i : Fin N, x i ω a * star (x i ω b)) P :=
      integrable_finsetSum _ i0
    have i2 := i1.const_mul (N : ℂ)⁻¹
    rw [e]
    refine ⟨i2, ?_⟩
    rw [integral_const_mul, integral_finsetSum _ i0]
    simp only [(hi _).2, Finset.sum_const, Finset.card_univ, Fintype.card_fin, nsmul_eq_mul, if_true]
    field_simp
  | false =>
    -- expand into pairs of samples
    have e : (fun ω => C ω a b) = fun ω =>
        (N : ℂ)⁻¹ * ∑ i : Fin N, (x i ω a - m a) * star (x i ω b - m b) -
        ((N : ℂ)⁻¹ * (N : ℂ)⁻¹) * ∑ i : Fin N, ∑ j : Fin N, (x i ω a - m a) * star (x j ω b - m b) :=
      funext fun ω => by
        rw [hC]
        have := npCov_apply hN (firstSamples x ω N) m a b
        refine this.trans ?_
        rw [star_mul', star_sum, mul_mul_mul_comm, Finset.sum_mul_sum]
        simp [firstSamples]
    have hm2 : Measurable fun z : Fin p → ℂ => (z a - m a) * star (z b - m b) :=
      (hm1 a).mul (hst.comp (hm1 b))
    have hm3 : Measurable fun z : Fin p → ℂ => star (z b - m b) := hst.comp (hm1 b)
    have hi := fun i : ℕ => tr i hm2 (hM.cov a b).1
    have hsb : Integrable (fun z : Fin p → ℂ => star (z b - m b)) μ :=
      Complex.conjCLE.toContinuousLinearMap.integrable_comp (hM.centred b).1
    have ha := fun i : ℕ => tr i (hm1 a) (hM.centred a).1
    have hb := fun i : ℕ => tr i hm3 hsb
    have hij : ∀ i j : ℕ, Integrable (fun ω => (x i ω a - m a) * star (x j ω b - m b)) P ∧
        ∫ ω, (x i ω a - m a) * star (x j ω b - m b) ∂P = if i = j then S a b else 0 := fun i j => by
      rcases eq_or_ne i j with rfl | hne
      · rw [if_pos rfl, ← (hM.cov a b).2]
        exact hi i
      · have hind := (h.indep.indepFun hne).comp (hm1 a) hm3
        refine ⟨hind.integrable_mul (ha i).1 (hb j).1, ?_⟩
        rw [if_neg hne]
        have := hind.integral_fun_mul_eq_mul_integral (ha i).1.aestronglyMeasurable
          (hb j).1.aestronglyMeasurable
        refine this.trans ?_
        have h0 := (ha i).2
        rw [(hM.centred a).2] at h0
        change (∫ ω, (x i ω a - m a) ∂P) * _ = 0
        rw [h0, zero_mul]
    have j1 : ∀ i ∈ (Finset.univ : Finset (Fin N)),
        Integrable (fun ω => (x i ω a - m a) * star (x i ω b - m b)) P := fun i _ => (hij i i).1
    have j2 : ∀ i : Fin N, ∀ j ∈ (Finset.univ : Finset (Fin N)),
        Integrable (fun ω => (x i ω a - m a) * star (x j ω b - m b)) P := fun i j _ => (hij i j).1
    have j3 : ∀ i ∈ (Finset.univ : Finset (Fin N)),
        Integrable (fun ω => ∑ j : Fin N, (x i ω a - m a) * star (x j ω b - m b)) P :=
      fun i _ => integrable_finsetSum _ (j2 i)
    have j4 := integrable_finsetSum _ j1
    have j5 := integrable_finsetSum _ j3
    have i1 := j4.const_mul (N : ℂ)⁻¹
    have i2 := j5.const_mul ((N : ℂ)⁻¹ * (N : ℂ)⁻¹)
    rw [e]
    refine ⟨i1.sub i2, ?_⟩
    have v1 : ∫ ω, ∑ i : Fin N, (x i ω a - m a) * star (x i ω b - m b) ∂P = N * S a b := by
      rw [integral_finsetSum _ j1]
      simp only [(hij _ _).2, if_true, Finset.sum_const, Finset.card_univ, Fintype.card_fin,
        nsmul_eq_mul]
    have v2 : ∫ ω, ∑ i : Fin N, ∑ j : Fin N, (x i ω a - m a) * star (x j ω b - m b) ∂P =
        N * S a b := by
      rw [integral_finsetSum _ j3]
      have : ∀ i : Fin N, ∫ ω, ∑ j : Fin N, (x i ω a - m a) * star (x j ω b - m b) ∂P = S a b :=
        fun i => by
          rw [integral_finsetSum _ (j2 i)]
          simp only [(hij _ _).2, Fin.val_inj, Finset.sum_ite_eq, Finset.mem_univ, if_true]
      simp only [this, Finset.sum_const, Finset.card_univ, Fintype.card_fin, nsmul_eq_mul]
    rw [integral_sub i1 i2, integral_const_mul, integral_const_mul, v1, v2]
    simp only [Bool.false_eq_true, if_false]
    field_simp

theorem CplxMoments.meanCov (h : CplxMoments μ m S) : MeanCov μ m S := ⟨h.mean, h.cov⟩

/-- The hypotheses of C119 are met by independent samples of the complex normal law, with the density
that `pdf` computes. -/
example (m : Fin 2 → ℂ) (S : Matrix (Fin 2) (Fin 2) ℂ) (hS : S.PosDef) :
    ∃ (P : Measure (ℕ → Fin 2 → ℂ)), IsProbabilityMeasure P ∧ ∀ᵐ ω ∂P, ∀ ε : ℝ, 0 < ε →
      ∃ N₀ : ℕ, ∀ N, N₀ ≤ N → ∃ loc C,
      complexEmpCovFit (.cplx (.d2 N 2 (firstSamples (fun i (ω : ℕ → Fin 2 → ℂ) => ω i) ω N))) false =
        .ok ⟨⟨2, loc⟩, .cplx (.d2 2 2 C)⟩ ∧ frobDist C S < ε ∧ ∀ j, ‖loc j - m j‖ < ε := by
  obtain ⟨f, -, -, hpr, hmom⟩ := C115_normal (mean := some (.cplx (.d1 2 m))) (mu := m) (.cplx m) S hS
  exact ⟨_, inferInstance, C119_consistent (iid_exists (lawOf f)) hmom.meanCov two_pos⟩

end
end RS
