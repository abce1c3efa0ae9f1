import Verif.Lemmas.OnlineFit
import Verif.Lemmas.OnlineProb
import Verif.Lemmas.HuberHeavy

/-
C168: the online estimator with the gradient of the Gaussian model and a step size which decreases
with the inverse of the iteration.
-/
set_option autoImplicit false

namespace RS
open Matrix ComplexOrder Filter Topology MeasureTheory ProbabilityTheory

section
variable {p : ℕ}
  {rgrad : NDArr → Matrix (Fin p) (Fin p) ℂ → Py (Matrix (Fin p) (Fin p) ℂ)}

/-- `lambda x, S: S - x.T @ x.conj()` for a `1 × p` array `x`. -/
noncomputable def gaussRgrad (p : ℕ) (r : NDArr) (e : Matrix (Fin p) (Fin p) ℂ) :
    Py (Matrix (Fin p) (Fin p) ℂ) :=
  match r with
  | .cplx (.d2 1 q X) => if h : q = p then
      .ok (e - Matrix.of fun a b => X 0 (Fin.cast h.symm a) * star (X 0 (Fin.cast h.symm b)))
    else .error .valueError
  | .real (.d2 1 q X) => if h : q = p then
      .ok (e - Matrix.of fun a b => ((X 0 (Fin.cast h.symm a) * X 0 (Fin.cast h.symm b) : ℝ) : ℂ))
    else .error .valueError
  | _ => .error .valueError

/-- The Riemannian gradient of the Gaussian cost of a sample `z` at `S` is `S - z z^H`, whatever
function computes it. -/
theorem C168_gradient (hg : GaussGrad rgrad) (r : NDArr) (z : Fin p → ℂ) (hr : RowOf r z)
    (e : Matrix (Fin p) (Fin p) ℂ) (he : e.PosDef) :
    rgrad r e = .ok (e - Matrix.of fun a b => z a * star (z b)) := hg.apply hr he

/-- There is such a function. -/
theorem C168_gradient_exists : GaussGrad (gaussRgrad p) := by
  intro r z hr
  refine ⟨_, gaussNegLog_egrad z, fun e he => ?_⟩
  rw [gaussNegLog_rgrad z he (gaussNegLog_egrad z)]
  cases hr with
  | cplx => simp only [gaussRgrad, dite_true]; rfl
  | real z =>
    simp only [gaussRgrad, dite_true]
    congr 2
    ext a b
    simp [outer, vecMulVec_apply]

theorem leaves_cplx (hp : 0 < p) (hg : GaussGrad rgrad) (s : Online (Matrix (Fin p) (Fin p) ℂ))
    {e₀ : Matrix (Fin p) (Fin p) ℂ} (h₀ : e₀.PosDef) (lr : String) (z : ℕ → Fin p → ℂ) (n : ℕ) :
    FitLeaves (onlineHPD p rgrad none) s (.cplx (.d2 n p (Matrix.of fun i : Fin n => z i))) e₀ lr
      (gaussPath (fun k => currentLr s.lrate lr (s.iteration + k)) e₀ z n) := by
  have := gauss_fit hp hg s h₀ (RowsOf.cplx n p (Matrix.of fun i : Fin n => z i)) lr (z := z)
    fun i hi => by
      rw [List.getElem_ofFn]
      exact RowOf.cplx (z i)
  rwa [List.length_ofFn] at this

theorem leaves_real (hp : 0 < p) (hg : GaussGrad rgrad) (s : Online (Matrix (Fin p) (Fin p) ℂ))
    {e₀ : Matrix (Fin p) (Fin p) ℂ} (h₀ : e₀.PosDef) (lr : String) (z : ℕ → Fin p → ℝ) (n : ℕ) :
    FitLeaves (onlineHPD p rgrad none) s (.real (.d2 n p (Matrix.of fun i : Fin n => z i))) e₀ lr
      (gaussPath (fun k => currentLr s.lrate lr (s.iteration + k)) e₀ (fun k j => (z k j : ℂ)) n) := by
  have := gauss_fit hp hg s h₀ (RowsOf.real n p (Matrix.of fun i : Fin n => z i)) lr
    (z := fun k j => (z k j : ℂ)) fun i hi => by
      rw [List.getElem_ofFn]
      exact RowOf.real (z i)
  rwa [List.length_ofFn] at this

theorem inverse_steps (lrate : ℝ) (m : ℕ) :
    (fun k => currentLr lrate "inverse iteration" (m + k)) =
      fun k : ℕ => -(-lrate) / ((m : ℝ) + k + 1) := by
  funext k
  simp [currentLr]

theorem dotCov_scatter {n : ℕ} (z : ℕ → Fin p → ℂ) :
    dotCov (Matrix.of fun i : Fin n => z i) = (n : ℂ)⁻¹ • scatterSum z n := by
  ext a b
  rw [dotCov_apply, scatterSum, Matrix.smul_apply, Matrix.sum_apply, Finset.sum_range, smul_eq_mul]
  rfl

/-- The claim for one sequence of samples and negative learning rates: if the sample covariances of
the first `n` samples have a positive definite limit, and the norms do not grow too fast, then the
estimates have the same limit. Missing for the full claim: positive learning rates, for which it is
false (`C168_violated`). -/
theorem C168_sequence_partial (hp : 0 < p) (hg : GaussGrad rgrad)
    (s : Online (Matrix (Fin p) (Fin p) ℂ)) (hs : s.lrate < 0) (e₀ : Matrix (Fin p) (Fin p) ℂ)
    (h₀ : e₀.PosDef) (z : ℕ → Fin p → ℂ) (S : Matrix (Fin p) (Fin p) ℂ) (hS : S.PosDef)
    (hlim : Tendsto (fun n => complexEmpiricalCovariance (Matrix.of fun i : Fin n => z i) true) atTop
      (𝓝 S))
    (hsum : Summable fun k : ℕ => (∑ j, ‖z k j‖ ^ 2) ^ 2 / ((k : ℝ) + 1) ^ 2) :
    ∃ est : ℕ → Matrix (Fin p) (Fin p) ℂ,
      (∀ n, FitLeaves (onlineHPD p rgrad none) s (.cplx (.d2 n p (Matrix.of fun i : Fin n => z i))) e₀
        "inverse iteration" (est n)) ∧ Tendsto est atTop (𝓝 S) := by
  refine ⟨_, fun n => leaves_cplx hp hg s h₀ _ z n, ?_⟩
  rw [inverse_steps]
  refine gaussPath_tendsto (by linarith) s.iteration h₀ z hS ?_ hsum
  exact hlim.congr fun n => by rw [complexEmpiricalCovariance, if_pos rfl, dotCov_scatter]

/-- With a positive learning rate, constant or decreasing, the estimates leave every bounded set
whenever the first one is above the samples. -/
theorem C168_growth (hp : 0 < p) (hg : GaussGrad rgrad)
    (s : Online (Matrix (Fin p) (Fin p) ℂ)) (hs : 0 < s.lrate) (lr : String)
    (e₀ : Matrix (Fin p) (Fin p) ℂ) (R c : ℝ) (hc : 0 < c)
    (h₀ : e₀.PosDef) (hR : (e₀ - ((R + c : ℝ) : ℂ) • 1).PosSemidef) (z : ℕ → Fin p → ℂ)
    (hz : ∀ k, ∑ j, ‖z k j‖ ^ 2 ≤ R) :
    ∃ est : ℕ → Matrix (Fin p) (Fin p) ℂ,
      (∀ n, FitLeaves (onlineHPD p rgrad none) s (.cplx (.d2 n p (Matrix.of fun i : Fin n => z i))) e₀
        lr (est n)) ∧
      ∀ B : ℝ, ∃ n₀, ∀ n ≥ n₀, (est n - (B : ℂ) • 1).PosSemidef := by
  refine ⟨_, fun n => leaves_cplx hp hg s h₀ lr z n, ?_⟩
  set t : ℕ → ℝ := fun k => currentLr s.lrate lr (s.iteration + k) with ht
  have htpos : ∀ k : ℕ, s.lrate / ((k : ℝ) + s.iteration + 1) ≤ t k := fun k => by
    simp only [ht, currentLr]
    split_ifs
    · apply le_of_eq; push_cast; congr 1; ring
    · refine div_le_self hs.le ?_
      have := Nat.cast_nonneg (α := ℝ) k
      have := Nat.cast_nonneg (α := ℝ) s.iteration
      linarith
  have ht0 : ∀ k, 0 ≤ t k := fun k => le_trans (by positivity) (htpos k)
  have key := gaussPath_diverges ht0 h₀ z hc.le hz hR
  intro B
  have hdiv := harmonic_diverges hs s.iteration
  obtain ⟨n₀, hn₀⟩ := eventually_atTop.1 (hdiv.eventually_ge_atTop ((B - R) / c))
  refine ⟨n₀, fun n hn => ?_⟩
  have h1 := (hn₀ n hn).trans (Finset.sum_le_sum fun k _ => htpos k)
  rw [div_le_iff₀ hc] at h1
  have h2 : B ≤ R + c * (1 + ∑ k ∈ Finset.range n, t k) := by linarith
  exact (loewner_smul_le (𝕜 := ℂ) PosSemidef.one h2).trans (key n)

/-- The full claim is false: for every positive learning rate there are samples whose sample
covariances have a positive definite limit, and a positive definite first estimate, from which the
estimates do not converge to that limit. -/
theorem C168_violated (s : Online (Matrix (Fin 1) (Fin 1) ℂ)) (hs : 0 < s.lrate) :
    ∃ (rgrad : NDArr → Matrix (Fin 1) (Fin 1) ℂ → Py (Matrix (Fin 1) (Fin 1) ℂ))
      (e₀ : Matrix (Fin 1) (Fin 1) ℂ) (z : ℕ → Fin 1 → ℂ) (S : Matrix (Fin 1) (Fin 1) ℂ)
      (est : ℕ → Matrix (Fin 1) (Fin 1) ℂ),
      GaussGrad rgrad ∧ e₀.PosDef ∧ S.PosDef ∧
      Tendsto (fun n => complexEmpiricalCovariance (Matrix.of fun i : Fin n => z i) true) atTop (𝓝 S) ∧
      (Summable fun k : ℕ => (∑ j, ‖z k j‖ ^ 2) ^ 2 / ((k : ℝ) + 1) ^ 2) ∧
      (∀ n, FitLeaves (onlineHPD 1 rgrad none) s (.cplx (.d2 n 1 (Matrix.of fun i : Fin n => z i))) e₀
        "inverse iteration" (est n)) ∧ ¬ Tendsto est atTop (𝓝 S) := by
  have h2 : ((2 : ℝ) : ℂ) • (1 : Matrix (Fin 1) (Fin 1) ℂ) |>.PosDef :=
    PosDef.one.smul (by norm_num : (0 : ℂ) < ((2 : ℝ) : ℂ))
  obtain ⟨est, h1, hB⟩ := C168_growth (rgrad := gaussRgrad 1) one_pos C168_gradient_exists s hs
    "inverse iteration" (((2 : ℝ) : ℂ) • 1) 1 1 one_pos h2
    (by rw [show (1 : ℝ) + 1 = 2 by norm_num, sub_self]; exact PosSemidef.zero) (fun _ _ => 1)
    (fun k => by simp)
  refine ⟨_, _, fun _ _ => 1, 1, est, C168_gradient_exists, h2, PosDef.one, ?_, ?_, h1, fun hcon => ?_⟩
  · refine tendsto_const_nhds.congr' ?_
    filter_upwards [eventually_ge_atTop 1] with n hn
    have hn0 : (n : ℂ) ≠ 0 := by exact_mod_cast (by omega : n ≠ 0)
    rw [complexEmpiricalCovariance, if_pos rfl]
    ext a b
    rw [dotCov_apply, Subsingleton.elim a 0, Subsingleton.elim b 0]
    simp [hn0]
  · have := (summable_nat_add_iff 1).2 (Real.summable_one_div_nat_pow.2 (show 1 < 2 by norm_num))
    simpa using this
  · have h3 : Tendsto (fun n => (est n 0 0).re) atTop (𝓝 1) := by
      have hc : Continuous fun A : Matrix (Fin 1) (Fin 1) ℂ => (A 0 0).re := by fun_prop
      have := (hc.tendsto 1).comp hcon
      simpa [Function.comp_def] using this
    obtain ⟨n₀, hn₀⟩ := hB 3
    have h4 : ∀ᶠ n in atTop, 3 ≤ (est n 0 0).re := by
      filter_upwards [eventually_ge_atTop n₀] with n hn
      have := (hn₀ n hn).diag_nonneg (i := 0)
      have := (Complex.le_def.1 this).1
      simp at this
      linarith
    have := ge_of_tendsto h3 h4
    norm_num at this

end

section
variable {p : ℕ} {Ω : Type*} [MeasurableSpace Ω] {P : Measure Ω} [IsProbabilityMeasure P]
  {rgrad : NDArr → Matrix (Fin p) (Fin p) ℂ → Py (Matrix (Fin p) (Fin p) ℂ)}

/-- The claim for negative learning rates and complex data: with independent samples of any law with
`E[x x^H] = S` positive definite, the estimates converge to `S` almost surely, from every first
estimate, for every negative learning rate, and whatever the object was used for before. Missing for
the full claim: positive learning rates (`C168_violated`). -/
theorem C168_consistent_partial {x : ℕ → Ω → Fin p → ℂ} {μ : Measure (Fin p → ℂ)}
    {S : Matrix (Fin p) (Fin p) ℂ} (hp : 0 < p) (hg : GaussGrad rgrad) (h : IIDSamples P x μ)
    (hm : SecondMoment μ S) (hS : S.PosDef) (s : Online (Matrix (Fin p) (Fin p) ℂ))
    (hs : s.lrate < 0) (e₀ : Matrix (Fin p) (Fin p) ℂ) (h₀ : e₀.PosDef) :
    ∀ᵐ ω ∂P, ∃ est : ℕ → Matrix (Fin p) (Fin p) ℂ,
      (∀ n, FitLeaves (onlineHPD p rgrad none) s (.cplx (.d2 n p (firstSamples x ω n))) e₀
        "inverse iteration" (est n)) ∧ Tendsto est atTop (𝓝 S) := by
  filter_upwards [h.scatter hm, h.summable fun a b => (hm a b).1] with ω h1 h2
  refine ⟨_, fun n => leaves_cplx hp hg s h₀ _ (fun k => x k ω) n, ?_⟩
  rw [inverse_steps]
  exact gaussPath_tendsto (by linarith) s.iteration h₀ _ hS h1 h2

omit [IsProbabilityMeasure P] in
/-- The samples as complex vectors. -/
theorem IIDSamples.complex {x : ℕ → Ω → Fin p → ℝ} {μ : Measure (Fin p → ℝ)}
    (h : IIDSamples P x μ) :
    IIDSamples P (fun k ω j => (x k ω j : ℂ)) (μ.map fun z j => (z j : ℂ)) := by
  have hc : Measurable fun (z : Fin p → ℝ) (j : Fin p) => (z j : ℂ) := by
    have : Continuous fun (z : Fin p → ℝ) (j : Fin p) => (z j : ℂ) := by fun_prop
    exact this.measurable
  refine ⟨fun i => hc.comp (h.meas i), fun i => ?_, h.indep.comp (fun _ z j => (z j : ℂ)) fun _ => hc⟩
  rw [← h.law i, Measure.map_map hc (h.meas i)]
  rfl

theorem SecondMoment.complex {μ : Measure (Fin p → ℝ)} {S : Matrix (Fin p) (Fin p) ℝ}
    (h : SecondMoment μ S) :
    SecondMoment (μ.map fun z j => (z j : ℂ)) (S.map fun r => (r : ℂ)) := by
  have hc : Measurable fun (z : Fin p → ℝ) (j : Fin p) => (z j : ℂ) := by
    have : Continuous fun (z : Fin p → ℝ) (j : Fin p) => (z j : ℂ) := by fun_prop
    exact this.measurable
  intro a b
  have hm := (raw_measurable (p := p) a b).aestronglyMeasurable (μ := μ.map fun z j => (z j : ℂ))
  have e : ((fun z : Fin p → ℂ => z a * star (z b)) ∘ fun (z : Fin p → ℝ) j => (z j : ℂ)) =
      fun z => ((z a * star (z b) : ℝ) : ℂ) := by
    funext z
    simp
  constructor
  · rw [integrable_map_measure hm hc.aemeasurable, e]
    exact (h a b).1.ofReal
  · rw [integral_map hc.aemeasurable hm]
    have := integral_ofReal (𝕜 := ℂ) (f := fun z : Fin p → ℝ => z a * star (z b)) (μ := μ)
    rw [(h a b).2] at this
    refine Eq.trans ?_ this
    exact congrArg (fun f => ∫ z, f z ∂μ) e

theorem posDef_complex {S : Matrix (Fin p) (Fin p) ℝ} (h : S.PosDef) :
    (S.map fun r => (r : ℂ)).PosDef := by
  obtain ⟨G, B, -, hBH, -, -, hBB, -⟩ := exists_whiten h
  have hB : S = Bᴴ * B := by rw [hBH, hBB]
  have e : S.map (fun r => (r : ℂ)) = (B.map fun r => (r : ℂ))ᴴ * B.map fun r => (r : ℂ) := by
    rw [hB]
    ext i j
    simp [Matrix.mul_apply]
  have hps : (S.map fun r => (r : ℂ)).PosSemidef := by
    rw [e]; exact posSemidef_conjTranspose_mul_self _
  rw [hps.posDef_iff_isUnit, isUnit_iff_isUnit_det]
  have hd : (S.map fun r => (r : ℂ)).det = ((S.det : ℝ) : ℂ) := (RingHom.map_det Complex.ofRealHom S).symm
  rw [hd, isUnit_iff_ne_zero]
  exact_mod_cast h.det_pos.ne'

/-- The same for real data. -/
theorem C168_consistent_real_partial {x : ℕ → Ω → Fin p → ℝ} {μ : Measure (Fin p → ℝ)}
    {S : Matrix (Fin p) (Fin p) ℝ} (hp : 0 < p) (hg : GaussGrad rgrad) (h : IIDSamples P x μ)
    (hm : SecondMoment μ S) (hS : S.PosDef) (s : Online (Matrix (Fin p) (Fin p) ℂ))
    (hs : s.lrate < 0) (e₀ : Matrix (Fin p) (Fin p) ℂ) (h₀ : e₀.PosDef) :
    ∀ᵐ ω ∂P, ∃ est : ℕ → Matrix (Fin p) (Fin p) ℂ,
      (∀ n, FitLeaves (onlineHPD p rgrad none) s (.real (.d2 n p (firstSamples x ω n))) e₀
        "inverse iteration" (est n)) ∧ Tendsto est atTop (𝓝 (S.map fun r => (r : ℂ))) := by
  filter_upwards [h.complex.scatter hm.complex, h.complex.summable fun a b => (hm.complex a b).1]
    with ω h1 h2
  refine ⟨_, fun n => leaves_real hp hg s h₀ _ (fun k => x k ω) n, ?_⟩
  rw [inverse_steps]
  exact gaussPath_tendsto (by linarith) s.iteration h₀ _ (posDef_complex hS) h1 h2

omit [IsProbabilityMeasure P] in
/-- How fast, for the learning rate `-1` and a new object, if the law has a finite fourth moment: the
estimate is within `C (1 + log n) / n` of the empirical covariance of the same samples. -/
theorem C168_rate_partial {x : ℕ → Ω → Fin p → ℂ} {μ : Measure (Fin p → ℂ)}
    {S : Matrix (Fin p) (Fin p) ℂ} (hp : 0 < p) (hg : GaussGrad rgrad) (h : IIDSamples P x μ)
    (hm : SecondMoment μ S) (hS : S.PosDef) (h4 : FourthMoment μ)
    (e₀ : Matrix (Fin p) (Fin p) ℂ) (h₀ : e₀.PosDef) :
    ∀ᵐ ω ∂P, ∃ (C : ℝ) (est : ℕ → Matrix (Fin p) (Fin p) ℂ), ∀ n,
      FitLeaves (onlineHPD p rgrad none) (Online.new (-1)) (.cplx (.d2 n p (firstSamples x ω n))) e₀
        "inverse iteration" (est n) ∧
      (1 ≤ n → frobDist (est n) (complexEmpiricalCovariance (firstSamples x ω n) true) ≤
        C * (1 + Real.log n) / n) := by
  filter_upwards [h.scatter hm, h.fourth h4] with ω h1 h2
  obtain ⟨F, hF⟩ := h2
  obtain ⟨C, -, hC⟩ := gaussPath_rate h₀ (fun k => x k ω) hS h1 hF
  refine ⟨C, _, fun n => ⟨leaves_cplx hp hg _ h₀ _ (fun k => x k ω) n, fun hn => ?_⟩⟩
  have e : (fun k => currentLr (Online.new (E := Matrix (Fin p) (Fin p) ℂ) (-1)).lrate
      "inverse iteration" ((Online.new (E := Matrix (Fin p) (Fin p) ℂ) (-1)).iteration + k)) = invStep := by
    funext k
    simp [currentLr, Online.new, invStep]
  rw [e, frobDist_eq, complexEmpiricalCovariance, if_pos rfl]
  have := hC n hn
  rw [← dotCov_scatter] at this
  exact this

/-- Samples of the complex normal law with any positive definite covariance: with learning rate `-1`
and `-1/2`, from the identity matrix, the estimates tend to the covariance; with the first one, they
are within `C (1 + log n) / n` of the empirical covariance. -/
example (S : Matrix (Fin 2) (Fin 2) ℂ) (hS : S.PosDef) :
    ∃ P : Measure (ℕ → Fin 2 → ℂ), IsProbabilityMeasure P ∧ (∀ r ∈ ({-1, -1 / 2} : Set ℝ), ∀ᵐ ω ∂P,
      ∃ est : ℕ → Matrix (Fin 2) (Fin 2) ℂ,
        (∀ n, FitLeaves (onlineHPD 2 (gaussRgrad 2) none) (Online.new r)
          (.cplx (.d2 n 2 (firstSamples (fun i (ω : ℕ → Fin 2 → ℂ) => ω i) ω n))) 1
          "inverse iteration" (est n)) ∧ Tendsto est atTop (𝓝 S)) ∧
      ∀ᵐ ω ∂P, ∃ (C : ℝ) (est : ℕ → Matrix (Fin 2) (Fin 2) ℂ), ∀ n,
        FitLeaves (onlineHPD 2 (gaussRgrad 2) none) (Online.new (-1))
          (.cplx (.d2 n 2 (firstSamples (fun i (ω : ℕ → Fin 2 → ℂ) => ω i) ω n))) 1
          "inverse iteration" (est n) ∧
        (1 ≤ n → frobDist (est n) (complexEmpiricalCovariance
          (firstSamples (fun i (ω : ℕ → Fin 2 → ℂ) => ω i) ω n) true) ≤ C * (1 + Real.log n) / n) := by
  have hpr : IsProbabilityMeasure (lawOf fun x => Real.exp (cnormalLogDensity 0 S x)) := by
    apply prob_of_real
    rw [exp_cnormal_zOf 0 hS]
    exact ell_prob (gNormal_moments _).toRadialMass ((realify_posDef _).2 hS)
  have hmom : MeanCov (lawOf fun x => Real.exp (cnormalLogDensity 0 S x)) 0 S := by
    have := cplxMoments_of_real (f := fun z => Real.exp (cnormalLogDensity 0 S z)) (mu := 0)
      (c := 1) (S := S) (by
        rw [exp_cnormal_zOf 0 hS]; exact ell_moments (gNormal_moments _) ((realify_posDef _).2 hS))
    rw [Complex.ofReal_one, one_smul] at this
    exact this.meanCov
  have hsec : SecondMoment (lawOf fun x => Real.exp (cnormalLogDensity 0 S x)) S := fun a b => by
    have := hmom.raw a b
    simpa using this
  have h := iid_exists (lawOf fun x => Real.exp (cnormalLogDensity 0 S x))
  refine ⟨_, inferInstance, fun r hr => ?_, C168_rate_partial two_pos C168_gradient_exists h hsec hS
    (cplxN_fourth two_pos hS) 1 PosDef.one⟩
  refine C168_consistent_partial two_pos C168_gradient_exists h hsec hS (Online.new r) ?_ 1 PosDef.one
  simp only [Set.mem_insert_iff, Set.mem_singleton_iff] at hr
  rcases hr with rfl | rfl
  · norm_num [Online.new]
  · norm_num [Online.new]

end
end RS
