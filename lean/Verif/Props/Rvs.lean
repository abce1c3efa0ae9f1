import Verif.Lemmas.GaussSampler
import Verif.Lemmas.Rvs

/-!
# C64: the draws of the complex laws
-/
set_option autoImplicit false
namespace RS
open Matrix ComplexOrder MeasureTheory

/-- Complex draws have the requested mean, `c` times the requested covariance, and are circular. -/
theorem C64_moments {Ω : Type*} [MeasurableSpace Ω] (P0 : Measure Ω) (c : ℝ) {p size : ℕ}
    (hsize : 0 < size) (sample : Ω → (P : MvParams) → Matrix (Fin size) (Fin P.dim) ℝ)
    (hs : SamplerOk P0 c sample) {mean : Option NDArr} {mu : Fin p → ℂ} (hm : MeanIs mean mu)
    (S : Matrix (Fin p) (Fin p) ℂ) (hS : S.PosDef) :
    ∃ Z : Ω → Matrix (Fin size) (Fin p) ℂ,
      (∀ ω, rvs size (sample ω) mean (.arr (.cplx (.d2 p p S))) = .ok (packDraws (Z ω))) ∧
      (∀ i a, ∫ ω, Z ω i a ∂P0 = mu a) ∧
      (∀ i a b, ∫ ω, (Z ω i a - mu a) * star (Z ω i b - mu b) ∂P0 = c * S a b) ∧
      (∀ i a b, ∫ ω, (Z ω i a - mu a) * (Z ω i b - mu b) ∂P0 = 0) := by
  let P : MvParams := ⟨p + p, halves mu, realify S⟩
  have hPD : P.cov.PosDef := (realify_posDef S).2 hS
  have key := fun i => moments_zOf P0 c (fun ω => sample ω P i) mu S (hs.mean P hPD i)
    (hs.cov P hPD i)
  exact ⟨fun ω i => zOf (sample ω P i), fun ω => rvs_complex hsize hm S hS _,
    fun i => (key i).1, fun i => (key i).2.1, fun i => (key i).2.2⟩

/-- If scipy's real draws are normal, the complex draws are circular complex normal with the
requested mean and covariance. -/
theorem C64_law {Ω : Type*} [MeasurableSpace Ω] (P0 : Measure Ω) {p size : ℕ}
    (hsize : 0 < size) (sample : Ω → (P : MvParams) → Matrix (Fin size) (Fin P.dim) ℝ)
    (hs : ∀ P : MvParams, P.cov.PosDef → ∀ i, NormalRow P0 (fun ω => sample ω P i) P.mean P.cov)
    {mean : Option NDArr} {mu : Fin p → ℂ} (hm : MeanIs mean mu)
    (S : Matrix (Fin p) (Fin p) ℂ) (hS : S.PosDef) :
    ∃ Z : Ω → Matrix (Fin size) (Fin p) ℂ,
      (∀ ω, rvs size (sample ω) mean (.arr (.cplx (.d2 p p S))) = .ok (packDraws (Z ω))) ∧
      ∀ i, CNormalRow P0 (fun ω => Z ω i) mu S := by
  let P : MvParams := ⟨p + p, halves mu, realify S⟩
  have hPD : P.cov.PosDef := (realify_posDef S).2 hS
  exact ⟨fun ω i => zOf (sample ω P i), fun ω => rvs_complex hsize hm S hS _,
    fun i => law_zOf P0 _ mu S (hs P hPD i)⟩

/-- With a real covariance and a real mean the draws are scipy's own, whatever the sampler does. -/
theorem C64_real {p size : ℕ} {mean : Option NDArr} {mu : Fin p → ℝ} (hm : RealMeanIs mean mu)
    (S : Matrix (Fin p) (Fin p) ℝ) (hS : S.PosDef)
    (sample : (P : MvParams) → Matrix (Fin size) (Fin P.dim) ℝ) :
    rvs size sample mean (.arr (.real (.d2 p p S))) =
      .ok (.real (squeezeDraws (sample ⟨p, mu, S⟩))) := by
  simp only [rvs, checkParams_real hm, bind, Except.bind, scipyParams_ok _ hS]
  cases hm <;> rfl

/-- A complex mean makes the draws complex: a real covariance array is then treated as the complex
array with the same entries. -/
theorem C64_complex_mean {p size : ℕ} (m : Fin p → ℂ) (a : Arr ℝ)
    (sample : (P : MvParams) → Matrix (Fin size) (Fin P.dim) ℝ) :
    rvs size sample (some (.cplx (.d1 p m))) (.arr (.real a)) =
      rvs size sample (some (.cplx (.d1 p m))) (.arr (.cplx (a.map Complex.ofReal))) := by
  have e : checkParams (some (.cplx (.d1 p m))) (.arr (.real a)) =
      checkParams (some (.cplx (.d1 p m))) (.arr (.cplx (a.map Complex.ofReal))) := rfl
  unfold rvs
  rw [e]
  rfl

/-- Independent standard normal variables shaped by a root of the covariance meet the hypotheses
of both theorems. -/
example : SamplerOk gaussSeq 1 (gaussSampler 5) ∧ (∀ P : MvParams, P.cov.PosDef →
    ∀ i, NormalRow gaussSeq (fun ω => gaussSampler 5 ω P i) P.mean P.cov) :=
  ⟨gaussSampler_ok 5, gaussSampler_normal 5⟩

end RS
