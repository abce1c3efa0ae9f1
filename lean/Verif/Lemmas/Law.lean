import Verif.Lemmas.Elliptical
import Verif.Lemmas.Rvs

/-! Laws on `ℂ^p` obtained from laws on `ℝ^(2p)`. -/
set_option autoImplicit false
namespace RS
open Matrix ComplexOrder MeasureTheory

variable {p : ℕ}

theorem zOf_preserving (p : ℕ) : MeasurePreserving (zOf (n := p)) volume volume := by
  have h1 := (volume_measurePreserving_piCongrLeft (fun _ : Fin (p + p) => ℝ)
    (finSumFinEquiv : Fin p ⊕ Fin p ≃ Fin (p + p))).symm
  have h2 := volume_measurePreserving_sumPiEquivProdPi (fun _ : Fin p ⊕ Fin p => ℝ)
  have h3 := (volume_measurePreserving_arrowProdEquivProdArrow ℝ ℝ (Fin p)).symm
  have h4 := volume_preserving_pi (fun _ : Fin p =>
    Complex.volume_preserving_equiv_real_prod.symm)
  have h := h4.comp (h3.comp (h2.comp h1))
  have e : zOf (n := p) = (fun a i => Complex.measurableEquivRealProd.symm (a i)) ∘
      (MeasurableEquiv.arrowProdEquivProdArrow ℝ ℝ (Fin p)).symm ∘
        (MeasurableEquiv.sumPiEquivProdPi fun _ => ℝ) ∘
          (MeasurableEquiv.piCongrLeft (fun _ => ℝ) finSumFinEquiv).symm := by
    funext x i
    apply Complex.ext <;> rfl
  rw [e]
  exact h

/-- Complex vectors as real vectors of twice the length, as measurable spaces. -/
noncomputable def zEquiv (p : ℕ) : (Fin (p + p) → ℝ) ≃ᵐ (Fin p → ℂ) where
  toFun := zOf
  invFun := halves
  left_inv := halves_zOf
  right_inv := zOf_halves
  measurable_toFun := (zOf_preserving p).measurable
  measurable_invFun := by
    refine measurable_pi_lambda _ fun i => ?_
    refine Fin.addCases (fun j => ?_) (fun j => ?_) i
    · simp only [Equiv.coe_fn_symm_mk, halves, Fin.append_left]
      exact Complex.measurable_re.comp (measurable_pi_apply j)
    · simp only [Equiv.coe_fn_symm_mk, halves, Fin.append_right]
      exact Complex.measurable_im.comp (measurable_pi_apply j)

theorem zEquiv_preserving (p : ℕ) : MeasurePreserving (zEquiv p) volume volume := zOf_preserving p

theorem lawOf_zOf (f : (Fin p → ℂ) → ℝ) :
    (lawOf fun x => f (zOf x)).map zOf = lawOf f := by
  ext s hs
  rw [Measure.map_apply (zOf_preserving p).measurable hs, lawOf, lawOf,
    withDensity_apply _ hs, withDensity_apply _ ((zOf_preserving p).measurable hs)]
  exact (zEquiv_preserving p).setLIntegral_comp_preimage_emb (zEquiv p).measurableEmbedding
    (fun z => ENNReal.ofReal (f z)) s

theorem integrable_of_re_im {Ω : Type*} [MeasurableSpace Ω] {μ : Measure Ω} {F : Ω → ℂ}
    (h1 : Integrable (fun ω => (F ω).re) μ) (h2 : Integrable (fun ω => (F ω).im) μ) :
    Integrable F μ := by
  have : F = fun ω => (((F ω).re : ℝ) : ℂ) + (((F ω).im : ℝ) : ℂ) * Complex.I := by
    funext ω; exact (Complex.re_add_im _).symm
  rw [this]
  exact h1.ofReal.add (h2.ofReal.mul_const _)

/-- Moments of a law on `ℂ^p` from those of the law of the stacked real and imaginary parts. -/
theorem cplxMoments_of_real {f : (Fin p → ℂ) → ℝ} {mu : Fin p → ℂ} {c : ℝ}
    {S : Matrix (Fin p) (Fin p) ℂ}
    (h : RealMoments (lawOf fun x : Fin (p + p) → ℝ => f (zOf x)) (halves mu) (c • realify S)) :
    CplxMoments (lawOf f) mu ((c : ℂ) • S) := by
  have hm := moments_zOf (lawOf fun x : Fin (p + p) → ℝ => f (zOf x)) c id mu S
    h.mean (fun a b => ⟨(h.cov a b).1, (h.cov a b).2⟩)
  have hre : ∀ (x : Fin (p + p) → ℝ) a, (zOf x a - mu a).re =
      x (Fin.castAdd p a) - halves mu (Fin.castAdd p a) := fun x a => by simp [zOf, halves]
  have him : ∀ (x : Fin (p + p) → ℝ) a, (zOf x a - mu a).im =
      x (Fin.natAdd p a) - halves mu (Fin.natAdd p a) := fun x a => by
    simp [zOf, halves, -Fin.natAdd_eq_addNat]
  have hi : ∀ G : (Fin p → ℂ) → ℂ,
      Integrable (fun x => G (zOf x)) (lawOf fun x : Fin (p + p) → ℝ => f (zOf x)) →
      Integrable G (lawOf f) := fun G hG => by
    rw [← lawOf_zOf f]
    exact ((zEquiv p).measurableEmbedding.integrable_map_iff (g := G)).2 hG
  have he : ∀ G : (Fin p → ℂ) → ℂ,
      ∫ z, G z ∂(lawOf f) = ∫ x, G (zOf x) ∂(lawOf fun x : Fin (p + p) → ℝ => f (zOf x)) :=
    fun G => by
    rw [← lawOf_zOf f]
    exact (zEquiv p).measurableEmbedding.integral_map G
  refine ⟨fun a => ⟨hi _ ?_, ?_⟩, fun a b => ⟨hi _ ?_, ?_⟩, fun a b => ⟨hi _ ?_, ?_⟩⟩
  · exact integrable_of_re_im (h.mean (Fin.castAdd p a)).1 (h.mean (Fin.natAdd p a)).1
  · rw [he]; exact hm.1 a
  · refine integrable_of_re_im ?_ ?_
    · have := (h.cov (Fin.castAdd p a) (Fin.castAdd p b)).1.add
        (h.cov (Fin.natAdd p a) (Fin.natAdd p b)).1
      refine this.congr (Filter.Eventually.of_forall fun x => ?_)
      simp only [Complex.mul_re, Complex.star_def, Complex.conj_re, Complex.conj_im, hre, him,
        Pi.add_apply]
      ring
    · have := (h.cov (Fin.natAdd p a) (Fin.castAdd p b)).1.sub
        (h.cov (Fin.castAdd p a) (Fin.natAdd p b)).1
      refine this.congr (Filter.Eventually.of_forall fun x => ?_)
      simp only [Complex.mul_im, Complex.star_def, Complex.conj_re, Complex.conj_im, hre, him,
        Pi.sub_apply]
      ring
  · rw [he]; exact hm.2.1 a b
  · refine integrable_of_re_im ?_ ?_
    · have := (h.cov (Fin.castAdd p a) (Fin.castAdd p b)).1.sub
        (h.cov (Fin.natAdd p a) (Fin.natAdd p b)).1
      refine this.congr (Filter.Eventually.of_forall fun x => ?_)
      simp only [Complex.mul_re, hre, him, Pi.sub_apply]
    · have := (h.cov (Fin.natAdd p a) (Fin.castAdd p b)).1.add
        (h.cov (Fin.castAdd p a) (Fin.natAdd p b)).1
      refine this.congr (Filter.Eventually.of_forall fun x => ?_)
      simp only [Complex.mul_im, hre, him, Pi.add_apply]
      ring
  · rw [he]; exact hm.2.2 a b

theorem prob_of_real {f : (Fin p → ℂ) → ℝ}
    (h : IsProbabilityMeasure (lawOf fun x : Fin (p + p) → ℝ => f (zOf x))) :
    IsProbabilityMeasure (lawOf f) := by
  rw [← lawOf_zOf f]
  exact Measure.isProbabilityMeasure_map (zOf_preserving p).measurable.aemeasurable

/-! ## The two families -/

theorem exp_cnormal_zOf (mu : Fin p → ℂ) {S : Matrix (Fin p) (Fin p) ℂ} (hS : S.PosDef) :
    (fun x : Fin (p + p) → ℝ => Real.exp (cnormalLogDensity mu S (zOf x))) =
      ell (gNormal (p + p)) (halves mu) (realify S) := by
  funext x
  rw [← scipyNormal_realify hS, halves_zOf, scipyNormal_eq,
    exp_normalLogDensity _ ((realify_posDef S).2 hS)]

theorem exp_ct_zOf {df : ℝ} (hdf : 0 < df) (mu : Fin p → ℂ) {S : Matrix (Fin p) (Fin p) ℂ}
    (hS : S.PosDef) :
    (fun x : Fin (p + p) → ℝ => Real.exp (ctLogDensity df mu S (zOf x))) =
      ell (gT df (p + p)) (halves mu) (realify S) := by
  funext x
  rw [← scipyT_realify hS hdf, halves_zOf, scipyT_eq,
    exp_tLogDensity hdf _ ((realify_posDef S).2 hS)]

/-! ## Mean of the quadratic form -/

theorem quad_mean_real {μ : Measure (Fin p → ℝ)} {m : Fin p → ℝ} {S : Matrix (Fin p) (Fin p) ℝ}
    (h : RealMoments μ m S) (hS : S.PosDef) :
    Integrable (fun x => (x - m) ⬝ᵥ S⁻¹ *ᵥ (x - m)) μ ∧
      ∫ x, (x - m) ⬝ᵥ S⁻¹ *ᵥ (x - m) ∂μ = p := by
  have e : (fun x : Fin p → ℝ => (x - m) ⬝ᵥ S⁻¹ *ᵥ (x - m)) =
      fun x => ∑ a, ∑ b, S⁻¹ a b * ((x b - m b) * (x a - m a)) := by
    funext x
    simp only [dotProduct, mulVec, Finset.mul_sum, Pi.sub_apply]
    exact Finset.sum_congr rfl fun a _ => Finset.sum_congr rfl fun b _ => by ring
  have hi : ∀ a b, Integrable (fun x : Fin p → ℝ => S⁻¹ a b * ((x b - m b) * (x a - m a))) μ :=
    fun a b => (h.cov b a).1.const_mul _
  rw [e]
  refine ⟨integrable_finsetSum _ fun a _ => integrable_finsetSum _ fun b _ => hi a b, ?_⟩
  rw [integral_finsetSum _ fun a _ => integrable_finsetSum _ fun b _ => hi a b]
  simp only [integral_finsetSum _ fun b _ => hi _ b, integral_const_mul, (h.cov _ _).2]
  have : (S⁻¹ * S).trace = p := by
    rw [nonsing_inv_mul _ ((isUnit_iff_isUnit_det _).1 hS.isUnit), trace_one, Fintype.card_fin]
  rw [← this]
  simp only [trace, diag, mul_apply]

theorem quad_mean_cplx {μ : Measure (Fin p → ℂ)} {m : Fin p → ℂ} {S : Matrix (Fin p) (Fin p) ℂ}
    (h : CplxMoments μ m S) (hS : S.PosDef) :
    Integrable (fun z => (star (z - m) ⬝ᵥ S⁻¹ *ᵥ (z - m)).re) μ ∧
      ∫ z, (star (z - m) ⬝ᵥ S⁻¹ *ᵥ (z - m)).re ∂μ = p := by
  have e : (fun z : Fin p → ℂ => star (z - m) ⬝ᵥ S⁻¹ *ᵥ (z - m)) =
      fun z => ∑ a, ∑ b, S⁻¹ a b * ((z b - m b) * star (z a - m a)) := by
    funext x
    simp only [dotProduct, mulVec, Finset.mul_sum, Pi.sub_apply, Pi.star_apply]
    exact Finset.sum_congr rfl fun a _ => Finset.sum_congr rfl fun b _ => by ring
  have hi : ∀ a b, Integrable (fun z : Fin p → ℂ =>
      S⁻¹ a b * ((z b - m b) * star (z a - m a))) μ := fun a b => (h.cov b a).1.const_mul _
  have hI : Integrable (fun z : Fin p → ℂ => star (z - m) ⬝ᵥ S⁻¹ *ᵥ (z - m)) μ := by
    rw [e]
    exact integrable_finsetSum _ fun a _ => integrable_finsetSum _ fun b _ => hi a b
  have hv : ∫ z, star (z - m) ⬝ᵥ S⁻¹ *ᵥ (z - m) ∂μ = (p : ℂ) := by
    rw [e, integral_finsetSum _ fun a _ => integrable_finsetSum _ fun b _ => hi a b]
    simp only [integral_finsetSum _ fun b _ => hi _ b, integral_const_mul, (h.cov _ _).2]
    have : (S⁻¹ * S).trace = (p : ℂ) := by
      rw [nonsing_inv_mul _ ((isUnit_iff_isUnit_det _).1 hS.isUnit), trace_one, Fintype.card_fin]
    rw [← this]
    simp only [trace, diag, mul_apply]
  refine ⟨hI.re, ?_⟩
  have := integral_re hI
  simp only [RCLike.re_eq_complex_re] at this
  rw [this, hv, Complex.natCast_re]

theorem cnormal_measurable (mu : Fin p → ℂ) (S : Matrix (Fin p) (Fin p) ℂ) :
    Measurable (cnormalLogDensity mu S) := by
  unfold cnormalLogDensity
  simp only [dotProduct, mulVec, Pi.sub_apply, Pi.star_apply]
  refine Measurable.sub measurable_const (Complex.measurable_re.comp ?_)
  refine Finset.measurable_fun_sum _ fun i _ => ?_
  refine Measurable.mul ?_ (Finset.measurable_fun_sum _ fun j _ => ?_)
  · exact (continuous_star.measurable).comp ((measurable_pi_apply i).sub_const _)
  · exact ((measurable_pi_apply j).sub_const _).const_mul _

theorem normal_measurable (mu : Fin p → ℝ) (S : Matrix (Fin p) (Fin p) ℝ) :
    Measurable (normalLogDensity mu S) := by
  unfold normalLogDensity
  simp only [dotProduct, mulVec, Pi.sub_apply]
  fun_prop

end RS
