import Verif.Lemmas.TylerLaw
import Verif.Spec.Delta

/-! Functions of matrices, to first order. -/
set_option autoImplicit false

namespace RS
open Matrix ComplexOrder Filter Topology MeasureTheory ProbabilityTheory

section
variable {𝕜 : Type} [RCLike 𝕜] {p : ℕ} {S H : Matrix (Fin p) (Fin p) 𝕜}
  {g : Matrix (Fin p) (Fin p) 𝕜 → ℝ}

theorem norm_le_en (A : Matrix (Fin p) (Fin p) 𝕜) : ‖fun i j => A i j‖ ≤ en A :=
  (pi_norm_le_iff_of_nonneg (en_nonneg A)).2 fun i =>
    (pi_norm_le_iff_of_nonneg (en_nonneg A)).2 fun j => entry_le_en A i j

theorem HasGrad.small (hg : HasGrad g S H) (hH : H.IsHermitian) (hS : S.IsHermitian)
    {A : ℕ → Matrix (Fin p) (Fin p) 𝕜} (hA : Tendsto A atTop (𝓝 S))
    (hh : ∀ᶠ N in atTop, (A N).IsHermitian) {ε : ℝ} (hε : 0 < ε) :
    ∀ᶠ N in atTop, |g (A N) - g S - mip H (A N - S)| ≤ ε * en (A N - S) := by
  obtain ⟨L, h1, h2⟩ := hg
  have h3 := (hasFDerivAt_iff_isLittleO.1 h1).def hε
  have h4 : Tendsto (fun N => (fun i j => A N i j : Fin p → Fin p → 𝕜)) atTop
      (𝓝 (fun i j => S i j)) := hA
  filter_upwards [h4.eventually h3, hh] with N hN hN2
  have e : (fun i j => A N i j : Fin p → Fin p → 𝕜) - (fun i j => S i j) = fun i j => (A N - S) i j := rfl
  rw [e, h2 _ (hN2.sub hS), Real.norm_eq_abs] at hN
  rw [mip, hH.eq]
  exact hN.trans (mul_le_mul_of_nonneg_left (norm_le_en _) hε.le)

variable {Ω : Type*} [MeasurableSpace Ω] {P : Measure Ω}

theorem parts (z : 𝕜) : z = ((RCLike.re z : ℝ) : 𝕜) + ((RCLike.re (star (RCLike.I : 𝕜) * z) : ℝ) : 𝕜) *
    RCLike.I := by
  rcases RCLike.I_eq_zero_or_im_I_eq_one (K := 𝕜) with h | h
  · rw [h, mul_zero, add_zero]
    exact RCLike.ext_iff.2 ⟨by simp, by rw [RCLike.ofReal_im, RCLike.im_eq_zero h]⟩
  · refine RCLike.ext_iff.2 ⟨by simp, ?_⟩
    simp [h]

theorem entry_mip (A : Matrix (Fin p) (Fin p) 𝕜) (a b : Fin p) :
    A a b = ((mip (single a b (1 : 𝕜)) A : ℝ) : 𝕜) + ((mip (single a b (RCLike.I : 𝕜)) A : ℝ) : 𝕜) * RCLike.I := by
  have e : ∀ c : 𝕜, mip (single a b c) A = RCLike.re (star c * A a b) := fun c => by
    rw [mip, conjTranspose_single, trace_single_mul, smul_eq_mul]
  rw [e, e, star_one, one_mul]
  exact parts _

theorem aemeasurable_of_mip [MeasurableSpace 𝕜] [BorelSpace 𝕜] {A : Ω → Matrix (Fin p) (Fin p) 𝕜}
    (h : ∀ H, AEMeasurable (fun ω => mip H (A ω)) P) :
    AEMeasurable (fun ω => (fun i j => A ω i j : Fin p → Fin p → 𝕜)) P := by
  refine aemeasurable_pi_lambda _ fun a => aemeasurable_pi_lambda _ fun b => ?_
  simp only [entry_mip (A _) a b]
  have hm : Measurable ((↑) : ℝ → 𝕜) := RCLike.continuous_ofReal.measurable
  exact (hm.comp_aemeasurable (h _)).add ((hm.comp_aemeasurable (h _)).mul_const _)

end
end RS
