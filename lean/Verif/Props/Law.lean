import Verif.Lemmas.Law
import Verif.Props.Probability
import Mathlib.Probability.Independence.InfinitePi

/-!
# C115-C118: the laws behind `pdf`, `rvs`, `entropy` and `cdf`
-/
set_option autoImplicit false
namespace RS
open Matrix ComplexOrder MeasureTheory ProbabilityTheory

variable {p : ℕ}

/-! ## C115 -/

/-- `pdf` with a complex covariance, of the module function and of the frozen law, is the density of
a probability law with the given mean, the given covariance and pseudo-covariance zero. -/
theorem C115_normal {mean : Option NDArr} {mu : Fin p → ℂ} (hm : MeanIs mean mu)
    (S : Matrix (Fin p) (Fin p) ℂ) (hS : S.PosDef) :
    ∃ f : (Fin p → ℂ) → ℝ,
      (∀ (X : NDArr) (m : ℕ) (Z : Matrix (Fin m) (Fin p) ℂ), DataIs X m Z →
        CNormal.pdf X mean (.arr (.cplx (.d2 p p S))) = .ok ⟨m, fun i => f (Z i)⟩ ∧
        CNormal.frozenPdf mean (.arr (.cplx (.d2 p p S))) X = .ok ⟨m, fun i => f (Z i)⟩) ∧
      (∀ z, 0 < f z) ∧ IsProbabilityMeasure (lawOf f) ∧ CplxMoments (lawOf f) mu S := by
  have hR := (realify_posDef S).2 hS
  refine ⟨fun z => Real.exp (cnormalLogDensity mu S z), fun X m Z hX => ⟨?_, ?_⟩,
    fun z => Real.exp_pos _, ?_, ?_⟩
  · simp only [CNormal.pdf, C61_logpdf hX hm S hS, bind, Except.bind, pure, Except.pure]
  · simp only [CNormal.frozenPdf, C61_frozen hX hm S hS, bind, Except.bind, pure, Except.pure]
  · apply prob_of_real
    rw [exp_cnormal_zOf mu hS]
    exact ell_prob (gNormal_moments _).toRadialMass hR
  · have := cplxMoments_of_real (f := fun z => Real.exp (cnormalLogDensity mu S z)) (mu := mu)
      (c := 1) (S := S) (by
        rw [exp_cnormal_zOf mu hS]; exact ell_moments (gNormal_moments _) hR)
    simpa using this

/-- The same with a real covariance. -/
theorem C115_normal_real {mean : Option NDArr} {mu : Fin p → ℝ} (hm : RealMeanIs mean mu)
    (S : Matrix (Fin p) (Fin p) ℝ) (hS : S.PosDef) :
    ∃ f : (Fin p → ℝ) → ℝ,
      (∀ (X : NDArr) (m : ℕ) (Y : Matrix (Fin m) (Fin p) ℝ), RealDataIs X m Y →
        CNormal.pdf X mean (.arr (.real (.d2 p p S))) = .ok ⟨m, fun i => f (Y i)⟩ ∧
        CNormal.frozenPdf mean (.arr (.real (.d2 p p S))) X = .ok ⟨m, fun i => f (Y i)⟩) ∧
      (∀ x, 0 < f x) ∧ IsProbabilityMeasure (lawOf f) ∧ RealMoments (lawOf f) mu S := by
  have e : (fun x => Real.exp (normalLogDensity mu S x)) = ell (gNormal p) mu S :=
    funext fun x => exp_normalLogDensity mu hS x
  refine ⟨fun x => Real.exp (normalLogDensity mu S x), fun X m Y hX => ⟨?_, ?_⟩,
    fun z => Real.exp_pos _, ?_, ?_⟩
  · simp only [CNormal.pdf, (C61_real hX hm S hS).1, bind, Except.bind, pure, Except.pure]
  · simp only [CNormal.frozenPdf, (C61_real hX hm S hS).2, bind, Except.bind, pure, Except.pure]
  · rw [e]; exact ell_prob (gNormal_moments _).toRadialMass hS
  · rw [e]; simpa using ell_moments (m := mu) (gNormal_moments p) hS

/-- `pdf` of the frozen complex t law is the density of a probability law; for `df > 2` it has the
given location as mean, `df/(df-2)` times the given shape as covariance, and pseudo-covariance
zero. -/
theorem C115_t {loc : Option NDArr} {mu : Fin p → ℂ} (hm : MeanIs loc mu)
    (S : Matrix (Fin p) (Fin p) ℂ) (hS : S.PosDef) (df : ℝ) (hdf : 0 < df) :
    ∃ f : (Fin p → ℂ) → ℝ,
      (∀ (X : NDArr) (m : ℕ) (Z : Matrix (Fin m) (Fin p) ℂ), DataIs X m Z →
        CT.frozenPdf loc (.arr (.cplx (.d2 p p S))) df X = .ok ⟨m, fun i => f (Z i)⟩) ∧
      (∀ z, 0 < f z) ∧ IsProbabilityMeasure (lawOf f) ∧
      (2 < df → CplxMoments (lawOf f) mu (((df / (df - 2) : ℝ) : ℂ) • S)) := by
  have hR := (realify_posDef S).2 hS
  refine ⟨fun z => Real.exp (ctLogDensity df mu S z), fun X m Z hX => ?_,
    fun z => Real.exp_pos _, ?_, fun h2 => ?_⟩
  · simp only [CT.frozenPdf, C62_frozen hX hm S hS df hdf, bind, Except.bind, pure, Except.pure]
  · apply prob_of_real
    rw [exp_ct_zOf hdf mu hS]
    exact ell_prob (gT_mass hdf _) hR
  · apply cplxMoments_of_real
    rw [exp_ct_zOf hdf mu hS]
    exact ell_moments (gT_moments h2 _) hR

/-- The same with a real shape. -/
theorem C115_t_real {loc : Option NDArr} {mu : Fin p → ℝ} (hm : RealMeanIs loc mu)
    (S : Matrix (Fin p) (Fin p) ℝ) (hS : S.PosDef) (df : ℝ) (hdf : 0 < df) :
    ∃ f : (Fin p → ℝ) → ℝ,
      (∀ (X : NDArr) (m : ℕ) (Y : Matrix (Fin m) (Fin p) ℝ), RealDataIs X m Y →
        CT.frozenPdf loc (.arr (.real (.d2 p p S))) df X = .ok ⟨m, fun i => f (Y i)⟩) ∧
      (∀ x, 0 < f x) ∧ IsProbabilityMeasure (lawOf f) ∧
      (2 < df → RealMoments (lawOf f) mu ((df / (df - 2)) • S)) := by
  have e : (fun x => Real.exp (tLogDensity df mu S x)) = ell (gT df p) mu S :=
    funext fun x => exp_tLogDensity hdf mu hS x
  refine ⟨fun x => Real.exp (tLogDensity df mu S x), fun X m Y hX => ?_,
    fun z => Real.exp_pos _, ?_, fun h2 => ?_⟩
  · simp only [CT.frozenPdf, C62_frozen_real hX hm S hS df hdf, bind, Except.bind, pure,
      Except.pure]
  · rw [e]; exact ell_prob (gT_mass hdf _) hS
  · rw [e]; exact ell_moments (gT_moments h2 _) hS

/-- The hypotheses can be met: two components, `df = 3`, one complex point. -/
example : ∃ f : (Fin 2 → ℂ) → ℝ, CT.frozenPdf none (.arr (.cplx (.d2 2 2 1))) 3
      (.cplx (.d1 2 ![1, Complex.I])) = .ok ⟨1, fun _ => f ![1, Complex.I]⟩ ∧
    CplxMoments (lawOf f) 0 ((3 : ℂ) • 1) := by
  obtain ⟨f, h1, -, -, h2⟩ := C115_t (MeanIs.none (p := 2)) 1 PosDef.one 3 (by norm_num)
  refine ⟨f, h1 _ _ _ (DataIs.cplx1 _), ?_⟩
  have := h2 (by norm_num)
  norm_num at this
  exact this

/-! ## C116 -/

theorem rvs_law {Ω : Type*} [MeasurableSpace Ω] (P0 : Measure Ω) {size : ℕ} (hsize : 0 < size)
    {dens : (P : MvParams) → (Fin P.dim → ℝ) → ℝ}
    {sample : Ω → (P : MvParams) → Matrix (Fin size) (Fin P.dim) ℝ}
    (hs : IIDSampler P0 dens sample) {mean : Option NDArr} {mu : Fin p → ℂ} (hm : MeanIs mean mu)
    (S : Matrix (Fin p) (Fin p) ℂ) (hS : S.PosDef) (f : (Fin p → ℂ) → ℝ)
    (hf : dens ⟨p + p, halves mu, realify S⟩ = fun x => f (zOf x)) :
    ∃ Z : Ω → Matrix (Fin size) (Fin p) ℂ,
      (∀ ω, rvs size (sample ω) mean (.arr (.cplx (.d2 p p S))) = .ok (packDraws (Z ω))) ∧
      (∀ i, P0.map (fun ω => Z ω i) = lawOf f) ∧ iIndepFun (fun i ω => Z ω i) P0 := by
  let P : MvParams := ⟨p + p, halves mu, realify S⟩
  have hPD : P.cov.PosDef := (realify_posDef S).2 hS
  refine ⟨fun ω i => zOf (sample ω P i), fun ω => rvs_complex hsize hm S hS _, fun i => ?_, ?_⟩
  · have h1 := hs.law P hPD i
    rw [hf] at h1
    rw [← lawOf_zOf f, ← h1, Measure.map_map (zOf_preserving p).measurable (hs.meas P hPD i)]
    rfl
  · exact (hs.indep P hPD).comp (fun _ => zOf) fun _ => (zOf_preserving p).measurable

/-- Complex normal draws: if scipy's rows are independent with the real normal density, the rows of
`rvs` are independent and each has the density `pdf` of the same parameters. -/
theorem C116_normal {Ω : Type*} [MeasurableSpace Ω] (P0 : Measure Ω) {size : ℕ} (hsize : 0 < size)
    (sample : Ω → (P : MvParams) → Matrix (Fin size) (Fin P.dim) ℝ)
    (hs : IIDSampler P0 (fun P x => Real.exp (normalLogDensity P.mean P.cov x)) sample)
    {mean : Option NDArr} {mu : Fin p → ℂ} (hm : MeanIs mean mu)
    (S : Matrix (Fin p) (Fin p) ℂ) (hS : S.PosDef) :
    ∃ (f : (Fin p → ℂ) → ℝ) (Z : Ω → Matrix (Fin size) (Fin p) ℂ),
      (∀ (X : NDArr) (m : ℕ) (W : Matrix (Fin m) (Fin p) ℂ), DataIs X m W →
        CNormal.pdf X mean (.arr (.cplx (.d2 p p S))) = .ok ⟨m, fun i => f (W i)⟩) ∧
      (∀ ω, rvs size (sample ω) mean (.arr (.cplx (.d2 p p S))) = .ok (packDraws (Z ω))) ∧
      (∀ i, P0.map (fun ω => Z ω i) = lawOf f) ∧ iIndepFun (fun i ω => Z ω i) P0 := by
  obtain ⟨Z, hZ⟩ := rvs_law P0 hsize hs hm S hS (fun z => Real.exp (cnormalLogDensity mu S z))
    (funext fun x => by
      rw [← scipyNormal_realify hS, halves_zOf, scipyNormal_eq])
  refine ⟨_, Z, fun X m W hX => ?_, hZ⟩
  simp only [CNormal.pdf, C61_logpdf hX hm S hS, bind, Except.bind, pure, Except.pure]

/-- The same for the complex t law. -/
theorem C116_t {Ω : Type*} [MeasurableSpace Ω] (P0 : Measure Ω) {size : ℕ} (hsize : 0 < size)
    (df : ℝ) (hdf : 0 < df)
    (sample : Ω → (P : MvParams) → Matrix (Fin size) (Fin P.dim) ℝ)
    (hs : IIDSampler P0 (fun P x => Real.exp (tLogDensity df P.mean P.cov x)) sample)
    {loc : Option NDArr} {mu : Fin p → ℂ} (hm : MeanIs loc mu)
    (S : Matrix (Fin p) (Fin p) ℂ) (hS : S.PosDef) :
    ∃ (f : (Fin p → ℂ) → ℝ) (Z : Ω → Matrix (Fin size) (Fin p) ℂ),
      (∀ (X : NDArr) (m : ℕ) (W : Matrix (Fin m) (Fin p) ℂ), DataIs X m W →
        CT.frozenPdf loc (.arr (.cplx (.d2 p p S))) df X = .ok ⟨m, fun i => f (W i)⟩) ∧
      (∀ ω, rvs size (sample ω) loc (.arr (.cplx (.d2 p p S))) = .ok (packDraws (Z ω))) ∧
      (∀ i, P0.map (fun ω => Z ω i) = lawOf f) ∧ iIndepFun (fun i ω => Z ω i) P0 := by
  obtain ⟨Z, hZ⟩ := rvs_law P0 hsize hs hm S hS (fun z => Real.exp (ctLogDensity df mu S z))
    (funext fun x => by
      rw [← scipyT_realify hS hdf, halves_zOf, scipyT_eq])
  refine ⟨_, Z, fun X m W hX => ?_, hZ⟩
  simp only [CT.frozenPdf, C62_frozen hX hm S hS df hdf, bind, Except.bind, pure, Except.pure]

open Classical in
/-- Samplers that meet the contract exist, for every family of probability densities. -/
theorem iidSampler_exists (size : ℕ) (dens : (P : MvParams) → (Fin P.dim → ℝ) → ℝ)
    (h : ∀ P : MvParams, P.cov.PosDef → IsProbabilityMeasure (lawOf (dens P))) :
    ∃ (Ω : Type) (_ : MeasurableSpace Ω) (P0 : Measure Ω)
      (sample : Ω → (P : MvParams) → Matrix (Fin size) (Fin P.dim) ℝ),
      IsProbabilityMeasure P0 ∧ IIDSampler P0 dens sample := by
  let μ : (k : MvParams × Fin size) → Measure (Fin k.1.dim → ℝ) := fun k =>
    if k.1.cov.PosDef then lawOf (dens k.1) else Measure.dirac 0
  have hμ : ∀ k, IsProbabilityMeasure (μ k) := fun k => by
    simp only [μ]
    split_ifs with hk
    · exact h k.1 hk
    · infer_instance
  refine ⟨(k : MvParams × Fin size) → Fin k.1.dim → ℝ, inferInstance, Measure.infinitePi μ,
    fun ω P i => ω (P, i), inferInstance, fun P _ i => measurable_pi_apply (P, i),
    fun P hP i => ?_, fun P _ => ?_⟩
  · have := (measurePreserving_eval_infinitePi μ (P, i)).map_eq
    simp only [μ, if_pos hP] at this
    exact this
  · have := iIndepFun_infinitePi (P := μ) (X := fun _ => id) (fun _ => measurable_id)
    exact this.precomp (g := fun i : Fin size => (P, i)) fun i j hij => (Prod.mk.inj hij).2

/-- Both contracts of C116 can be met. -/
example (size : ℕ) (df : ℝ) (hdf : 0 < df) :
    (∃ (Ω : Type) (_ : MeasurableSpace Ω) (P0 : Measure Ω)
      (sample : Ω → (P : MvParams) → Matrix (Fin size) (Fin P.dim) ℝ), IsProbabilityMeasure P0 ∧
      IIDSampler P0 (fun P x => Real.exp (normalLogDensity P.mean P.cov x)) sample) ∧
    ∃ (Ω : Type) (_ : MeasurableSpace Ω) (P0 : Measure Ω)
      (sample : Ω → (P : MvParams) → Matrix (Fin size) (Fin P.dim) ℝ), IsProbabilityMeasure P0 ∧
      IIDSampler P0 (fun P x => Real.exp (tLogDensity df P.mean P.cov x)) sample := by
  refine ⟨iidSampler_exists size _ fun P hP => ?_, iidSampler_exists size _ fun P hP => ?_⟩
  · rw [funext fun x => exp_normalLogDensity P.mean hP x]
    exact ell_prob (gNormal_moments _).toRadialMass hP
  · rw [funext fun x => exp_tLogDensity hdf P.mean hP x]
    exact ell_prob (gT_mass hdf _) hP

/-! ## C117 -/

/-- `entropy` with a complex covariance, of the module function and of the frozen law, is the
differential entropy of the density `pdf`. -/
theorem C117_complex {mean : Option NDArr} {mu : Fin p → ℂ} (hm : MeanIs mean mu)
    (S : Matrix (Fin p) (Fin p) ℂ) (hS : S.PosDef) :
    ∃ f : (Fin p → ℂ) → ℝ,
      (∀ (X : NDArr) (m : ℕ) (Z : Matrix (Fin m) (Fin p) ℂ), DataIs X m Z →
        CNormal.pdf X mean (.arr (.cplx (.d2 p p S))) = .ok ⟨m, fun i => f (Z i)⟩) ∧
      Integrable (fun z => f z * Real.log (f z)) ∧
      CNormal.entropy mean (.arr (.cplx (.d2 p p S))) = .ok (-∫ z, f z * Real.log (f z)) ∧
      CNormal.frozenEntropy mean (.arr (.cplx (.d2 p p S))) =
        .ok (-∫ z, f z * Real.log (f z)) := by
  set f : (Fin p → ℂ) → ℝ := fun z => Real.exp (cnormalLogDensity mu S z) with hf
  have hR := (realify_posDef S).2 hS
  have hprob : IsProbabilityMeasure (lawOf f) := by
    apply prob_of_real
    rw [hf, exp_cnormal_zOf mu hS]
    exact ell_prob (gNormal_moments _).toRadialMass hR
  have hmom : CplxMoments (lawOf f) mu S := by
    have := cplxMoments_of_real (f := f) (mu := mu) (c := 1) (S := S) (by
        rw [hf, exp_cnormal_zOf mu hS]; exact ell_moments (gNormal_moments _) hR)
    simpa using this
  have hmeas : Measurable f := (cnormal_measurable mu S).exp
  obtain ⟨hq, hqv⟩ := quad_mean_cplx hmom hS
  have hlog : (fun z => Real.log (f z)) = fun z => (-p * Real.log Real.pi - Real.log S.det.re) -
      (star (z - mu) ⬝ᵥ S⁻¹ *ᵥ (z - mu)).re := by
    funext z; rw [hf]; simp only [Real.log_exp, cnormalLogDensity]
  have hint : Integrable (fun z => Real.log (f z)) (lawOf f) := by
    rw [hlog]; exact (integrable_const _).sub hq
  have hval : ∫ z, f z * Real.log (f z) =
      -(p * Real.log (Real.pi * Real.exp 1) + Real.log S.det.re) := by
    have h1 := integral_lawOf hmeas (fun z => (Real.exp_pos _).le) fun z => Real.log (f z)
    simp only [smul_eq_mul] at h1
    rw [← h1, hlog, integral_sub (integrable_const _) hq, hqv, integral_const, probReal_univ,
      one_smul, Real.log_mul Real.pi_pos.ne' (Real.exp_pos 1).ne', Real.log_exp]
    ring
  refine ⟨f, fun X m Z hX => ?_, ?_, ?_, ?_⟩
  · simp only [CNormal.pdf, C61_logpdf hX hm S hS, bind, Except.bind, pure, Except.pure, hf]
  · have := (integrable_lawOf hmeas (fun z => (Real.exp_pos _).le) fun z => Real.log (f z)).1 hint
    simpa only [smul_eq_mul] using this
  · rw [C61_entropy hm S hS, hval, neg_neg]
  · simp only [CNormal.frozenEntropy, checkParams_complex hm, bind, Except.bind,
      scipyParams_ok _ hR, pure, Except.pure]
    rw [hval, neg_neg, log_det_realify hS, Real.log_mul Real.pi_pos.ne' (Real.exp_pos 1).ne',
      Real.log_exp, Real.log_mul (by norm_num) Real.pi_pos.ne']
    congr 1
    push_cast; ring

/-- The same with a real covariance. -/
theorem C117_real {mean : Option NDArr} {mu : Fin p → ℝ} (hm : RealMeanIs mean mu)
    (S : Matrix (Fin p) (Fin p) ℝ) (hS : S.PosDef) :
    ∃ f : (Fin p → ℝ) → ℝ,
      (∀ (X : NDArr) (m : ℕ) (Y : Matrix (Fin m) (Fin p) ℝ), RealDataIs X m Y →
        CNormal.pdf X mean (.arr (.real (.d2 p p S))) = .ok ⟨m, fun i => f (Y i)⟩) ∧
      Integrable (fun x => f x * Real.log (f x)) ∧
      CNormal.entropy mean (.arr (.real (.d2 p p S))) = .ok (-∫ x, f x * Real.log (f x)) ∧
      CNormal.frozenEntropy mean (.arr (.real (.d2 p p S))) =
        .ok (-∫ x, f x * Real.log (f x)) := by
  set f : (Fin p → ℝ) → ℝ := fun x => Real.exp (normalLogDensity mu S x) with hf
  have e : f = ell (gNormal p) mu S := funext fun x => exp_normalLogDensity mu hS x
  have hprob : IsProbabilityMeasure (lawOf f) := by
    rw [e]; exact ell_prob (gNormal_moments _).toRadialMass hS
  have hmom : RealMoments (lawOf f) mu S := by
    rw [e]; simpa using ell_moments (m := mu) (gNormal_moments p) hS
  have hmeas : Measurable f := (normal_measurable mu S).exp
  obtain ⟨hq, hqv⟩ := quad_mean_real hmom hS
  have hlog : (fun x => Real.log (f x)) = fun x => (-(p / 2) * Real.log (2 * Real.pi) -
      Real.log S.det / 2) - ((x - mu) ⬝ᵥ S⁻¹ *ᵥ (x - mu)) / 2 := by
    funext z; rw [hf]; simp only [Real.log_exp, normalLogDensity]
  have hint : Integrable (fun x => Real.log (f x)) (lawOf f) := by
    rw [hlog]; exact (integrable_const _).sub (hq.div_const _)
  have hdet : 0 < S.det := hS.det_pos
  have hval : ∫ x, f x * Real.log (f x) =
      -((1 / 2) * (p * (Real.log (2 * Real.pi) + 1) + Real.log S.det)) := by
    have h1 := integral_lawOf hmeas (fun z => (Real.exp_pos _).le) fun z => Real.log (f z)
    simp only [smul_eq_mul] at h1
    rw [← h1, hlog, integral_sub (integrable_const _) (hq.div_const _), integral_div, hqv,
      integral_const, probReal_univ, one_smul]
    ring
  refine ⟨f, fun X m Z hX => ?_, ?_, ?_, ?_⟩
  · simp only [CNormal.pdf, (C61_real hX hm S hS).1, bind, Except.bind, pure, Except.pure, hf]
  · have := (integrable_lawOf hmeas (fun z => (Real.exp_pos _).le) fun z => Real.log (f z)).1 hint
    simpa only [smul_eq_mul] using this
  · simp only [CNormal.entropy, checkParams_real hm, bind, Except.bind, scipyParams_ok _ hS, pure,
      Except.pure]
    rw [hval, neg_neg, det_smul, Fintype.card_fin, Real.log_mul (by positivity) hdet.ne',
      Real.log_pow, Real.log_mul (by positivity) (Real.exp_pos 1).ne', Real.log_exp]
  · simp only [CNormal.frozenEntropy, checkParams_real hm, bind, Except.bind,
      scipyParams_ok _ hS, pure, Except.pure]
    rw [hval, neg_neg]

/-- Dimension 1, variance 2. -/
example : CNormal.entropy none (.arr (.cplx (.d2 1 1 !![2]))) =
    .ok (Real.log (Real.pi * Real.exp 1) + Real.log 2) := by
  have hS : (!![2] : Matrix (Fin 1) (Fin 1) ℂ).PosDef := by
    have : (!![2] : Matrix (Fin 1) (Fin 1) ℂ) = diagonal fun _ => 2 := by
      ext i j; fin_cases i; fin_cases j; simp
    rw [this, posDef_diagonal_iff]
    intro i; simp
  rw [C61_entropy MeanIs.none _ hS]
  simp [Matrix.det_unique]

/-! ## C118 -/

theorem scipyCdf_halves {m : ℕ} (mvn : MvnIntegral) (mu : Fin p → ℂ)
    (C : Matrix (Fin (p + p)) (Fin (p + p)) ℝ) (Z : Matrix (Fin m) (Fin p) ℂ) (x : NDArr)
    (hx : x = .real (.d2 m (p + p) (of fun i => halves (Z i))) ∨
        ∃ h : m = 1, x = .real (.d1 (p + p) (halves (Z ⟨0, by omega⟩)))) :
    scipyCdf mvn ⟨p + p, halves mu, C⟩ x =
      .ok ⟨m, fun i => mvn ⟨p + p, halves mu, C⟩ (halves (Z i))⟩ := by
  rcases hx with rfl | ⟨h, rfl⟩
  · simp only [scipyCdf, NDArr.realPart, scipyRows, bind, Except.bind, dif_pos, pure, Except.pure]
    rfl
  · subst h
    have hd : p + p ≠ 1 := by omega
    simp only [scipyCdf, NDArr.realPart, scipyRows, bind, Except.bind, dif_pos, pure, Except.pure,
      if_neg hd]
    congr 2
    funext i
    obtain rfl : i = 0 := Subsingleton.elim _ _
    rfl

theorem scipyCdf_real {m : ℕ} (mvn : MvnIntegral) {X : NDArr} {Y : Matrix (Fin m) (Fin p) ℝ}
    (hX : RealDataIs X m Y) (mu : Fin p → ℝ) (S : Matrix (Fin p) (Fin p) ℝ) :
    scipyCdf mvn ⟨p, mu, S⟩ (.real X.realPart) = .ok ⟨m, fun i => mvn ⟨p, mu, S⟩ (Y i)⟩ := by
  cases hX with
  | real2 m Y =>
    simp only [scipyCdf, NDArr.realPart, scipyRows, bind, Except.bind, dif_pos, pure, Except.pure]
    rfl
  | cplx2 m Z =>
    simp only [scipyCdf, NDArr.realPart, Arr.map, scipyRows, bind, Except.bind, dif_pos, pure,
      Except.pure]
    rfl
  | real1 hp y =>
    simp only [scipyCdf, NDArr.realPart, scipyRows, bind, Except.bind, dif_pos, pure, Except.pure,
      if_neg hp]
    rfl
  | cplx1 hp z =>
    simp only [scipyCdf, NDArr.realPart, Arr.map, scipyRows, bind, Except.bind, dif_pos, pure,
      Except.pure, if_neg hp]
    rfl
  | reals hp m y =>
    subst hp
    simp only [scipyCdf, NDArr.realPart, scipyRows, bind, Except.bind, dif_pos, pure, Except.pure,
      if_pos]
    rfl
  | cplxs hp m z =>
    subst hp
    simp only [scipyCdf, NDArr.realPart, Arr.map, scipyRows, bind, Except.bind, dif_pos, pure,
      Except.pure, if_pos]
    rfl

/-- The complex vectors whose real and imaginary parts are at most those of `z`. -/
def cBelow (z : Fin p → ℂ) : Set (Fin p → ℂ) :=
  {w | ∀ j, (w j).re ≤ (z j).re ∧ (w j).im ≤ (z j).im}

theorem cBelow_measurable (z : Fin p → ℂ) : MeasurableSet (cBelow z) := by
  have : cBelow z = ⋂ j, {w : Fin p → ℂ | (w j).re ≤ (z j).re} ∩ {w | (w j).im ≤ (z j).im} := by
    ext w; simp [cBelow]
  rw [this]
  refine MeasurableSet.iInter fun j => MeasurableSet.inter ?_ ?_
  · exact measurableSet_le (Complex.measurable_re.comp (measurable_pi_apply j)) measurable_const
  · exact measurableSet_le (Complex.measurable_im.comp (measurable_pi_apply j)) measurable_const

theorem cBelow_preimage (z : Fin p → ℂ) :
    zOf ⁻¹' cBelow z = {y : Fin (p + p) → ℝ | ∀ j, y j ≤ halves z j} := by
  ext y
  simp only [Set.mem_preimage, cBelow, Set.mem_ofPred_eq]
  constructor
  · intro h j
    refine Fin.addCases (fun k => ?_) (fun k => ?_) j
    · simp only [halves, Fin.append_left]; exact (h k).1
    · simp only [halves, Fin.append_right]; exact (h k).2
  · intro h k
    have h1 := h (Fin.castAdd p k)
    have h2 := h (Fin.natAdd p k)
    simp only [halves, Fin.append_left] at h1
    simp only [halves, Fin.append_right] at h2
    exact ⟨h1, h2⟩

theorem cBelow_law {mu : Fin p → ℂ} {S : Matrix (Fin p) (Fin p) ℂ} (hS : S.PosDef)
    (z : Fin p → ℂ) :
    (lawOf fun z => Real.exp (cnormalLogDensity mu S z)).real (cBelow z) =
      (lawOf fun y => Real.exp (normalLogDensity (halves mu) (realify S) y)).real
        {y : Fin (p + p) → ℝ | ∀ j, y j ≤ halves z j} := by
  rw [← lawOf_zOf, map_measureReal_apply (zOf_preserving p).measurable (cBelow_measurable z),
    cBelow_preimage]
  congr 2
  funext x
  rw [← scipyNormal_realify hS, halves_zOf, scipyNormal_eq]

/-- `cdf` with a complex covariance, of the module function and of the frozen law: up to the error
of scipy's integration, the probability under the law of `pdf` that real and imaginary parts are
at most those of the argument. -/
theorem C118_complex (ε : ℝ) (mvn : MvnIntegral) (hmvn : MvnWithin ε mvn) {mean : Option NDArr}
    {mu : Fin p → ℂ} (hm : MeanIs mean mu) (S : Matrix (Fin p) (Fin p) ℂ) (hS : S.PosDef) :
    ∃ f : (Fin p → ℂ) → ℝ,
      (∀ (X : NDArr) (m : ℕ) (Z : Matrix (Fin m) (Fin p) ℂ), DataIs X m Z →
        CNormal.pdf X mean (.arr (.cplx (.d2 p p S))) = .ok ⟨m, fun i => f (Z i)⟩) ∧
      ∀ (X : NDArr) (m : ℕ) (Z : Matrix (Fin m) (Fin p) ℂ), DataIs X m Z →
        ∃ v : Fin m → ℝ,
          CNormal.cdf mvn X mean (.arr (.cplx (.d2 p p S))) = .ok ⟨m, v⟩ ∧
          CNormal.frozenCdf mvn mean (.arr (.cplx (.d2 p p S))) X = .ok ⟨m, v⟩ ∧
          ∀ i, |v i - (lawOf f).real
            {w | ∀ j, (w j).re ≤ (Z i j).re ∧ (w j).im ≤ (Z i j).im}| ≤ ε := by
  have hR := (realify_posDef S).2 hS
  refine ⟨fun z => Real.exp (cnormalLogDensity mu S z), fun X m Z hX => ?_, fun X m Z hX => ?_⟩
  · simp only [CNormal.pdf, C61_logpdf hX hm S hS, bind, Except.bind, pure, Except.pure]
  · obtain ⟨x, hx, hc⟩ := checkParamsArray_complex hX hm S
    refine ⟨fun i => mvn ⟨p + p, halves mu, realify S⟩ (halves (Z i)), ?_, ?_, fun i => ?_⟩
    · simp only [CNormal.cdf, hc, bind, Except.bind, scipyParams_ok _ hR,
        scipyCdf_halves mvn mu _ Z x hx]
    · simp only [CNormal.frozenCdf, checkParams_complex hm, hc, bind, Except.bind,
        scipyParams_ok _ hR, scipyCdf_halves mvn mu _ Z x hx]
    · have h1 := hmvn ⟨p + p, halves mu, realify S⟩ hR (halves (Z i))
      rw [← cBelow_law hS] at h1
      exact h1

/-- The same with a real covariance: the distribution function. -/
theorem C118_real (ε : ℝ) (mvn : MvnIntegral) (hmvn : MvnWithin ε mvn) {mean : Option NDArr}
    {mu : Fin p → ℝ} (hm : RealMeanIs mean mu) (S : Matrix (Fin p) (Fin p) ℝ) (hS : S.PosDef) :
    ∃ f : (Fin p → ℝ) → ℝ,
      (∀ (X : NDArr) (m : ℕ) (Y : Matrix (Fin m) (Fin p) ℝ), RealDataIs X m Y →
        CNormal.pdf X mean (.arr (.real (.d2 p p S))) = .ok ⟨m, fun i => f (Y i)⟩) ∧
      ∀ (X : NDArr) (m : ℕ) (Y : Matrix (Fin m) (Fin p) ℝ), RealDataIs X m Y →
        ∃ v : Fin m → ℝ,
          CNormal.cdf mvn X mean (.arr (.real (.d2 p p S))) = .ok ⟨m, v⟩ ∧
          CNormal.frozenCdf mvn mean (.arr (.real (.d2 p p S))) X = .ok ⟨m, v⟩ ∧
          ∀ i, |v i - (lawOf f).real {w | ∀ j, w j ≤ Y i j}| ≤ ε := by
  refine ⟨fun z => Real.exp (normalLogDensity mu S z), fun X m Z hX => ?_, fun X m Y hX => ?_⟩
  · simp only [CNormal.pdf, (C61_real hX hm S hS).1, bind, Except.bind, pure, Except.pure]
  · refine ⟨fun i => mvn ⟨p, mu, S⟩ (Y i), ?_, ?_, fun i => hmvn ⟨p, mu, S⟩ hS (Y i)⟩
    · simp only [CNormal.cdf, checkParamsArray_real hX hm, bind, Except.bind,
        scipyParams_realMean hm hS, scipyCdf_real mvn hX]
    · simp only [CNormal.frozenCdf, checkParams_real hm, checkParamsArray_real hX hm, bind,
        Except.bind, scipyParams_ok _ hS, scipyCdf_real mvn hX]

theorem cBelow_pos {mu : Fin p → ℂ} {S : Matrix (Fin p) (Fin p) ℂ} (hS : S.PosDef)
    (z : Fin p → ℂ) :
    0 < (lawOf fun z => Real.exp (cnormalLogDensity mu S z)).real (cBelow z) := by
  have hR := (realify_posDef S).2 hS
  have hprob : IsProbabilityMeasure (lawOf fun z => Real.exp (cnormalLogDensity mu S z)) := by
    apply prob_of_real
    rw [exp_cnormal_zOf mu hS]
    exact ell_prob (gNormal_moments _).toRadialMass hR
  rw [measureReal_def, ENNReal.toReal_pos_iff]
  refine ⟨?_, measure_lt_top _ _⟩
  rw [pos_iff_ne_zero, lawOf, ne_eq, withDensity_apply_eq_zero]
  · have : {x : Fin p → ℂ | ENNReal.ofReal (Real.exp (cnormalLogDensity mu S x)) ≠ 0} ∩ cBelow z =
        cBelow z := by
      ext w; simp [Real.exp_pos]
    rw [this]
    intro h0
    have hsub : {w : Fin p → ℂ | ∀ j, (w j).re < (z j).re ∧ (w j).im < (z j).im} ⊆ cBelow z :=
      fun w hw j => ⟨(hw j).1.le, (hw j).2.le⟩
    have hopen : IsOpen {w : Fin p → ℂ | ∀ j, (w j).re < (z j).re ∧ (w j).im < (z j).im} := by
      simp only [Set.ofPred_forall]
      refine isOpen_iInter_of_finite fun j => IsOpen.and ?_ ?_
      · exact isOpen_lt (Complex.continuous_re.comp (continuous_apply j)) continuous_const
      · exact isOpen_lt (Complex.continuous_im.comp (continuous_apply j)) continuous_const
    refine (hopen.measure_pos volume ⟨fun j => ⟨(z j).re - 1, (z j).im - 1⟩, fun j => ?_⟩).ne'
      (measure_mono_null hsub h0)
    exact ⟨by simp, by simp⟩
  · exact (cnormal_measurable mu S).exp.ennreal_ofReal

/-- With exact integration `logcdf`, of the module function and of the frozen law, is the logarithm
of the same (positive) probability. -/
theorem C118_logcdf (mvn : MvnIntegral) (hmvn : MvnWithin 0 mvn) {mean : Option NDArr}
    {mu : Fin p → ℂ} (hm : MeanIs mean mu) (S : Matrix (Fin p) (Fin p) ℂ) (hS : S.PosDef) :
    ∃ f : (Fin p → ℂ) → ℝ,
      (∀ (X : NDArr) (m : ℕ) (Z : Matrix (Fin m) (Fin p) ℂ), DataIs X m Z →
        CNormal.pdf X mean (.arr (.cplx (.d2 p p S))) = .ok ⟨m, fun i => f (Z i)⟩) ∧
      (∀ z : Fin p → ℂ, 0 < (lawOf f).real {w | ∀ j, (w j).re ≤ (z j).re ∧ (w j).im ≤ (z j).im}) ∧
      ∀ (X : NDArr) (m : ℕ) (Z : Matrix (Fin m) (Fin p) ℂ), DataIs X m Z →
        CNormal.logcdf mvn X mean (.arr (.cplx (.d2 p p S))) = .ok ⟨m, fun i =>
          (Real.log ((lawOf f).real
            {w | ∀ j, (w j).re ≤ (Z i j).re ∧ (w j).im ≤ (Z i j).im}) : EReal)⟩ ∧
        CNormal.frozenLogcdf mvn mean (.arr (.cplx (.d2 p p S))) X = .ok ⟨m, fun i =>
          (Real.log ((lawOf f).real
            {w | ∀ j, (w j).re ≤ (Z i j).re ∧ (w j).im ≤ (Z i j).im}) : EReal)⟩ := by
  have hR := (realify_posDef S).2 hS
  refine ⟨fun z => Real.exp (cnormalLogDensity mu S z), fun X m Z hX => ?_, cBelow_pos hS,
    fun X m Z hX => ?_⟩
  · simp only [CNormal.pdf, C61_logpdf hX hm S hS, bind, Except.bind, pure, Except.pure]
  · obtain ⟨x, hx, hc⟩ := checkParamsArray_complex hX hm S
    have hv : ∀ i, npLog (mvn ⟨p + p, halves mu, realify S⟩ (halves (Z i))) =
        (Real.log ((lawOf fun z => Real.exp (cnormalLogDensity mu S z)).real (cBelow (Z i))) :
          EReal) := fun i => by
      have h1 := hmvn ⟨p + p, halves mu, realify S⟩ hR (halves (Z i))
      rw [← cBelow_law hS] at h1
      have h2 := sub_eq_zero.1 (abs_nonpos_iff.1 h1)
      rw [h2, npLog, if_neg (cBelow_pos hS (Z i)).not_ge]
    constructor
    · simp only [CNormal.logcdf, CNormal.cdf, hc, bind, Except.bind, scipyParams_ok _ hR,
        scipyCdf_halves mvn mu _ Z x hx, pure, Except.pure, hv]
      rfl
    · simp only [CNormal.frozenLogcdf, CNormal.frozenCdf, checkParams_complex hm, hc, bind,
        Except.bind, scipyParams_ok _ hR, scipyCdf_halves mvn mu _ Z x hx, pure, Except.pure, hv]
      rfl

/-- The exact routine meets the contract. -/
example : MvnWithin 0 fun P x => (lawOf fun y => Real.exp (normalLogDensity P.mean P.cov y)).real
    {y | ∀ j, y j ≤ x j} := fun P _ x => by simp

end RS
