import Verif.Spec.GenData
import Verif.Lemmas.GaussSampler
import Mathlib.MeasureTheory.Integral.Gamma

/-
Lemmas for the generators of synthetic data.
-/
set_option autoImplicit false

namespace RS
open Matrix MeasureTheory ProbabilityTheory

/-! ## Linear functions of independent standard normal variables -/

theorem gauss_char {K : Type*} [Fintype K] (pos : K → ℕ) (hpos : Function.Injective pos)
    (c : K → ℝ) :
    ∫ w : ℕ → ℝ, Complex.exp (Complex.I * ((∑ k, c k * w (pos k) : ℝ) : ℂ)) ∂gaussSeq =
      Complex.exp (-((∑ k, c k ^ 2) / 2 : ℝ)) := by
  have e2 : ∀ w : ℕ → ℝ, Complex.exp (Complex.I * ((∑ k, c k * w (pos k) : ℝ) : ℂ)) =
        ∏ k, Complex.exp ((c k : ℂ) * (w (pos k) : ℂ) * Complex.I) := fun w => by
    rw [← Complex.exp_sum]
    congr 1
    push_cast
    rw [Finset.mul_sum]
    exact Finset.sum_congr rfl fun k _ => by ring
  simp only [e2]
  have hind : iIndepFun (fun (k : K) (w : ℕ → ℝ) => w (pos k)) gaussSeq :=
    gaussSeq_indep.precomp hpos
  have := hind.integral_fun_prod_comp
    (f := fun k (x : ℝ) => Complex.exp ((c k : ℂ) * (x : ℂ) * Complex.I))
    (fun k => (gaussSeq_eval _).measurable.aemeasurable)
    (fun k => (by fun_prop : Continuous fun x : ℝ =>
      Complex.exp ((c k : ℂ) * (x : ℂ) * Complex.I)).aestronglyMeasurable)
  rw [this]
  have hk : ∀ k, ∫ w : ℕ → ℝ, Complex.exp ((c k : ℂ) * (w (pos k) : ℂ) * Complex.I)
      ∂gaussSeq = Complex.exp (-((c k ^ 2 / 2 : ℝ) : ℂ)) := fun k => by
    have h1 := charFun_gaussianReal (μ := 0) (v := 1) (c k)
    rw [charFun_apply_real, ← (gaussSeq_eval (pos k)).map_eq, integral_map
      (gaussSeq_eval _).measurable.aemeasurable (by fun_prop)] at h1
    rw [h1]
    congr 1
    push_cast
    simp
  simp only [hk]
  rw [← Complex.exp_sum]
  congr 1
  push_cast
  rw [Finset.sum_div, Finset.sum_neg_distrib]

/-- A linear function of standard normal variables is normal. -/
theorem gauss_linear {d : ℕ} {K : Type*} [Fintype K] (pos : K → ℕ)
    (hpos : Function.Injective pos) (A : Matrix (Fin d) K ℝ) :
    NormalRow gaussSeq (fun w => A *ᵥ fun k => w (pos k)) 0 (A * Aᵀ) := by
  intro t
  have e : ∀ w : ℕ → ℝ, t ⬝ᵥ (A *ᵥ fun k => w (pos k)) = ∑ k, (Aᵀ *ᵥ t) k * w (pos k) := fun w => by
    rw [dotProduct_mulVec, ← mulVec_transpose]
    rfl
  simp only [e]
  rw [gauss_char pos hpos, dotProduct_zero, ← mulVec_mulVec, dotProduct_mulVec, ← mulVec_transpose]
  simp [dotProduct, sq]

/-- A complex linear function of pairs of standard normal variables, taken as real and imaginary
parts, is circular complex normal. -/
theorem gauss_clinear {p : ℕ} {K : Type*} [Fintype K] (pos : K ⊕ K → ℕ)
    (hpos : Function.Injective pos) (A : Matrix (Fin p) K ℂ) :
    CNormalRow gaussSeq (fun w => A *ᵥ fun k => ((1 / Real.sqrt 2 : ℝ) : ℂ) *
      ((w (pos (.inl k)) : ℂ) + Complex.I * (w (pos (.inr k)) : ℂ))) 0 (A * Aᴴ) := by
  intro s
  let b : K → ℂ := star s ᵥ* A
  let c : K ⊕ K → ℝ := Sum.elim (fun k => 1 / Real.sqrt 2 * (b k).re)
    fun k => -(1 / Real.sqrt 2 * (b k).im)
  have e : ∀ w : ℕ → ℝ, (star s ⬝ᵥ (A *ᵥ fun k => ((1 / Real.sqrt 2 : ℝ) : ℂ) *
      ((w (pos (.inl k)) : ℂ) + Complex.I * (w (pos (.inr k)) : ℂ)))).re =
        ∑ k, c k * w (pos k) := fun w => by
    rw [dotProduct_mulVec, Fintype.sum_sum_type, ← Finset.sum_add_distrib]
    simp only [dotProduct, Complex.re_sum]
    refine Finset.sum_congr rfl fun k _ => ?_
    simp only [c, Sum.elim_inl, Sum.elim_inr, b]
    simp only [Complex.mul_re, Complex.mul_im, Complex.add_re, Complex.add_im, Complex.ofReal_re,
      Complex.ofReal_im, Complex.I_re, Complex.I_im]
    ring
  have hq : (star s ⬝ᵥ ((A * Aᴴ) *ᵥ s)).re = 2 * ∑ k, c k ^ 2 := by
    have h1 : Aᴴ *ᵥ s = star b := by
      simp only [b, star_vecMul, star_star]
    rw [← mulVec_mulVec, dotProduct_mulVec, h1, Fintype.sum_sum_type, ← Finset.sum_add_distrib,
      Finset.mul_sum]
    simp only [dotProduct, Complex.re_sum]
    refine Finset.sum_congr rfl fun k _ => ?_
    have h2 : (1 / Real.sqrt 2) ^ 2 = 1 / 2 := by
      rw [div_pow, Real.sq_sqrt (by norm_num)]; norm_num
    simp only [c, Sum.elim_inl, Sum.elim_inr, neg_sq, mul_pow, h2, Pi.star_apply,
      Complex.mul_re, Complex.star_def, Complex.conj_re, Complex.conj_im]
    simp only [b]
    ring
  simp only [e]
  rw [gauss_char pos hpos, hq, dotProduct_zero]
  congr 1
  push_cast
  simp
  ring

/-- Disjoint blocks of the stream are independent. -/
theorem gauss_blocks {J K : Type*} (pos : J → K → ℕ)
    (hpos : Function.Injective fun q : J × K => pos q.1 q.2) :
    iIndepFun (fun (j : J) (w : ℕ → ℝ) (k : K) => w (pos j k)) gaussSeq := by
  rw [iIndepFun_iff_map_fun_eq_infinitePi_map (by fun_prop)]
  have h1 : (fun (w : ℕ → ℝ) (j : J) (k : K) => w (pos j k)) =
      MeasurableEquiv.curry J K ℝ ∘ fun (w : ℕ → ℝ) (q : J × K) => w (pos q.1 q.2) := by
    funext w j k
    rfl
  have h2 : ∀ j, gaussSeq.map (fun (w : ℕ → ℝ) (k : K) => w (pos j k)) =
      Measure.infinitePi fun _ : K => gaussianReal 0 1 := fun j =>
    Measure.map_infinitePi_infinitePi_of_inj (P := fun _ : ℕ => gaussianReal 0 1)
      fun k l h => by simpa using hpos (a₁ := (j, k)) (a₂ := (j, l)) h
  simp only [h2]
  rw [h1, ← Measure.map_map (by fun_prop) (by fun_prop)]
  have h3 : gaussSeq.map (fun (w : ℕ → ℝ) (q : J × K) => w (pos q.1 q.2)) =
      Measure.infinitePi fun _ : J × K => gaussianReal 0 1 :=
    Measure.map_infinitePi_infinitePi_of_inj (P := fun _ : ℕ => gaussianReal 0 1) hpos
  rw [h3]
  exact Measure.infinitePi_map_curry fun (_ : J) (_ : K) => gaussianReal 0 1

end RS
