import Verif.Spec.Rvs
import Verif.Lemmas.Probability
import Verif.Props.Mappings
import Mathlib.MeasureTheory.Integral.Bochner.ContinuousLinearMap

/-! Lemmas about the samplers. -/
set_option autoImplicit false
namespace RS
open Matrix ComplexOrder MeasureTheory

theorem halves_zOf {n : ℕ} (x : Fin (n + n) → ℝ) : halves (zOf x) = x := by
  funext i
  refine Fin.addCases (fun j => ?_) (fun j => ?_) i
  · simp only [halves, Fin.append_left, zOf]
  · simp only [halves, Fin.append_right, zOf]

/-- `rvs` with a complex covariance returns one complex row per real row drawn by scipy. -/
theorem rvs_complex {p size : ℕ} (hsize : 0 < size) {mean : Option NDArr} {mu : Fin p → ℂ}
    (hm : MeanIs mean mu) (S : Matrix (Fin p) (Fin p) ℂ) (hS : S.PosDef)
    (sample : (P : MvParams) → Matrix (Fin size) (Fin P.dim) ℝ) :
    rvs size sample mean (.arr (.cplx (.d2 p p S))) =
      .ok (packDraws fun i => zOf (sample ⟨p + p, halves mu, realify S⟩ i)) := by
  have hor : ∀ b : Bool, (b || (CovArg.arr (.cplx (.d2 p p S))).isComplex) = true := fun b => by
    simp [CovArg.isComplex, NDArr.isComplex]
  simp only [rvs, hor, checkParams_complex hm, bind, Except.bind, if_true,
    scipyParams_ok _ ((realify_posDef S).2 hS)]
  set a := sample ⟨p + p, halves mu, realify S⟩ with ha
  have hd : p + p ≠ 1 := by omega
  unfold squeezeDraws packDraws
  by_cases h : size = 1
  · rw [dif_pos h, dif_neg hd, dif_pos h]
    have := C01_complex_real_complex_1d p (zOf (a ⟨0, hsize⟩))
    simp only [arraytoreal, bind, Except.bind] at this
    have e : (Fin.append (fun i => (zOf (a ⟨0, hsize⟩) i).re) fun i => (zOf (a ⟨0, hsize⟩) i).im)
      = a ⟨0, hsize⟩ := halves_zOf _
    rw [e] at this
    exact this
  · rw [dif_neg h, dif_neg hd, dif_neg h]
    have := C01_complex_real_complex_2d size p hsize fun i => zOf (a i)
    simp only [arraytoreal, bind, Except.bind] at this
    rw [show (fun i => Fin.append (fun j => (zOf (a i) j).re) fun j => (zOf (a i) j).im)
      = a from funext fun i => halves_zOf _] at this
    exact this

theorem integral_mk {Ω : Type*} [MeasurableSpace Ω] {P0 : Measure Ω} {f g : Ω → ℝ}
    (hf : Integrable f P0) (hg : Integrable g P0) {F : Ω → ℂ}
    (hF : ∀ ω, (F ω).re = f ω ∧ (F ω).im = g ω) :
    ∫ ω, F ω ∂P0 = ⟨∫ ω, f ω ∂P0, ∫ ω, g ω ∂P0⟩ := by
  have e : F = fun ω => ((f ω : ℝ) : ℂ) + ((g ω : ℝ) : ℂ) * Complex.I := by
    funext ω
    apply Complex.ext
    · simp [(hF ω).1]
    · simp [(hF ω).2]
  rw [e, integral_add hf.ofReal (hg.ofReal.mul_const _), integral_mul_const]
  have e1 : ∫ ω, ((f ω : ℝ) : ℂ) ∂P0 = ((∫ ω, f ω ∂P0 : ℝ) : ℂ) := integral_complex_ofReal
  have e2 : ∫ ω, ((g ω : ℝ) : ℂ) ∂P0 = ((∫ ω, g ω ∂P0 : ℝ) : ℂ) := integral_complex_ofReal
  have e1' : ∫ ω, (RCLike.ofReal (f ω) : ℂ) ∂P0 = ((∫ ω, f ω ∂P0 : ℝ) : ℂ) := e1
  have e2' : ∫ ω, (RCLike.ofReal (g ω) : ℂ) ∂P0 = ((∫ ω, g ω ∂P0 : ℝ) : ℂ) := e2
  rw [e1, e2]
  apply Complex.ext <;> simp


theorem moments_zOf {Ω : Type*} [MeasurableSpace Ω] (P0 : Measure Ω) (c : ℝ) {p : ℕ}
    (x : Ω → Fin (p + p) → ℝ) (mu : Fin p → ℂ) (S : Matrix (Fin p) (Fin p) ℂ)
    (hmean : ∀ a, Integrable (fun ω => x ω a) P0 ∧ ∫ ω, x ω a ∂P0 = halves mu a)
    (hcov : ∀ a b, Integrable (fun ω => (x ω a - halves mu a) * (x ω b - halves mu b)) P0 ∧
      ∫ ω, (x ω a - halves mu a) * (x ω b - halves mu b) ∂P0 = c * realify S a b) :
    (∀ a, ∫ ω, zOf (x ω) a ∂P0 = mu a) ∧
    (∀ a b, ∫ ω, (zOf (x ω) a - mu a) * star (zOf (x ω) b - mu b) ∂P0 = c * S a b) ∧
    (∀ a b, ∫ ω, (zOf (x ω) a - mu a) * (zOf (x ω) b - mu b) ∂P0 = 0) := by
  have hre : ∀ ω a, x ω (Fin.castAdd p a) - halves mu (Fin.castAdd p a) =
      (zOf (x ω) a - mu a).re := fun ω a => by
    simp [zOf, halves]
  have him : ∀ ω a, x ω (Fin.natAdd p a) - halves mu (Fin.natAdd p a) =
      (zOf (x ω) a - mu a).im := fun ω a => by
    simp [zOf, halves, -Fin.natAdd_eq_addNat]
  refine ⟨?_, ?_, ?_⟩
  · intro a
    obtain ⟨i1, m1⟩ := hmean (Fin.castAdd p a)
    obtain ⟨i2, m2⟩ := hmean (Fin.natAdd p a)
    rw [integral_mk i1 i2 fun ω => ⟨rfl, rfl⟩, m1, m2]
    exact congrFun (zOf_halves mu) a
  · intro a b
    obtain ⟨i1, m1⟩ := hcov (Fin.castAdd p a) (Fin.castAdd p b)
    obtain ⟨i2, m2⟩ := hcov (Fin.natAdd p a) (Fin.natAdd p b)
    obtain ⟨i3, m3⟩ := hcov (Fin.natAdd p a) (Fin.castAdd p b)
    obtain ⟨i4, m4⟩ := hcov (Fin.castAdd p a) (Fin.natAdd p b)
    rw [integral_mk (i1.add i2) (i3.sub i4) fun ω => ⟨?_, ?_⟩]
    · simp only [Pi.add_apply, Pi.sub_apply]
      rw [integral_add i1 i2, integral_sub i3 i4, m1, m2, m3, m4]
      simp only [realify_castAdd_castAdd, realify_natAdd_natAdd, realify_natAdd_castAdd,
        realify_castAdd_natAdd]
      apply Complex.ext <;> simp <;> ring
    · simp only [Pi.add_apply]
      rw [hre ω a, hre ω b, him ω a, him ω b]
      simp only [Complex.mul_re, Complex.star_def, Complex.conj_re, Complex.conj_im]
      ring
    · simp only [Pi.sub_apply]
      rw [hre ω a, hre ω b, him ω a, him ω b]
      simp only [Complex.mul_im, Complex.star_def, Complex.conj_re, Complex.conj_im]
      ring
  · intro a b
    obtain ⟨i1, m1⟩ := hcov (Fin.castAdd p a) (Fin.castAdd p b)
    obtain ⟨i2, m2⟩ := hcov (Fin.natAdd p a) (Fin.natAdd p b)
    obtain ⟨i3, m3⟩ := hcov (Fin.natAdd p a) (Fin.castAdd p b)
    obtain ⟨i4, m4⟩ := hcov (Fin.castAdd p a) (Fin.natAdd p b)
    rw [integral_mk (i1.sub i2) (i3.add i4) fun ω => ⟨?_, ?_⟩]
    · simp only [Pi.add_apply, Pi.sub_apply]
      rw [integral_sub i1 i2, integral_add i3 i4, m1, m2, m3, m4]
      simp only [realify_castAdd_castAdd, realify_natAdd_natAdd, realify_natAdd_castAdd,
        realify_castAdd_natAdd]
      apply Complex.ext <;> simp
    · simp only [Pi.sub_apply]
      rw [hre ω a, hre ω b, him ω a, him ω b]
      simp only [Complex.mul_re]
    · simp only [Pi.add_apply]
      rw [hre ω a, hre ω b, him ω a, him ω b]
      simp only [Complex.mul_im]
      ring

theorem law_zOf {Ω : Type*} [MeasurableSpace Ω] (P0 : Measure Ω) {p : ℕ}
    (x : Ω → Fin (p + p) → ℝ) (mu : Fin p → ℂ) (S : Matrix (Fin p) (Fin p) ℂ)
    (h : NormalRow P0 x (halves mu) (realify S)) : CNormalRow P0 (fun ω => zOf (x ω)) mu S := by
  intro s
  have := h (halves s)
  simp only [dotProduct_zOf (halves s), zOf_halves] at this
  have h2 : (star s ⬝ᵥ zOf (realify S *ᵥ halves s)).re = (star s ⬝ᵥ S *ᵥ s).re / 2 := by
    have := quad_realify S (halves s)
    rw [dotProduct_zOf, zOf_halves] at this
    rw [this]; ring
  rw [h2] at this
  rw [this]
  congr 3
  ring

end RS
