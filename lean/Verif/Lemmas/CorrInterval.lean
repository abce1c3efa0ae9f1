import Verif.Lemmas.Corr
import Mathlib.Analysis.SpecialFunctions.Artanh

/-! Fisher's transformation of correlations and coherences. -/
set_option autoImplicit false

namespace RS
open Matrix ComplexOrder Filter Topology

section
variable {p : ℕ}

theorem HasGrad.comp {𝕜 : Type} [RCLike 𝕜] {g : Matrix (Fin p) (Fin p) 𝕜 → ℝ} {S H : Matrix (Fin p) (Fin p) 𝕜}
    (hg : HasGrad g S H) {φ : ℝ → ℝ} {c : ℝ} (hφ : HasDerivAt φ c (g S)) :
    HasGrad (fun T => φ (g T)) S ((c : 𝕜) • H) := by
  obtain ⟨L, h1, h2⟩ := hg
  refine ⟨c • L, HasDerivAt.comp_hasFDerivAt (f := fun a => g (of a)) _ hφ h1, fun D hD => ?_⟩
  rw [Matrix.smul_mul, trace_smul, smul_eq_mul, RCLike.re_ofReal_mul, ← h2 D hD]
  rfl

theorem artanh_deriv {x : ℝ} (hx : |x| < 1) : HasDerivAt Real.artanh (1 / (1 - x ^ 2)) x := by
  obtain ⟨h1, h2⟩ := abs_lt.1 hx
  have e : (fun y => (Real.log (1 + y) - Real.log (1 - y)) / 2) =ᶠ[𝓝 x] Real.artanh := by
    filter_upwards [Ioo_mem_nhds h1 h2] with y hy
    rw [Real.artanh_eq_half_log (Set.Ioo_subset_Icc_self hy), Real.log_div (by linarith [hy.1])
      (by linarith [hy.2])]
    ring
  have d1 : HasDerivAt (fun y : ℝ => 1 + y) 1 x := (hasDerivAt_id x).const_add 1
  have d2 : HasDerivAt (fun y : ℝ => 1 - y) (-1) x := (hasDerivAt_id x).const_sub 1
  have d3 := ((d1.log (by linarith)).sub (d2.log (by linarith))).div_const 2
  refine (d3.congr_of_eventuallyEq e.symm).congr_deriv ?_
  have a1 : 1 + x ≠ 0 := by linarith
  have a2 : 1 - x ≠ 0 := by linarith
  have a3 : 1 - x ^ 2 ≠ 0 := by
    rw [show 1 - x ^ 2 = (1 + x) * (1 - x) by ring]
    exact mul_ne_zero a1 a2
  field_simp
  ring

theorem artanh_measurable : Measurable Real.artanh := by
  unfold Real.artanh
  fun_prop

/-- The interval of the transformed value. -/
theorem tanh_between {x y d : ℝ} (hy : |y| < 1) :
    Real.tanh (x - d) ≤ y ∧ y ≤ Real.tanh (x + d) ↔ |x - Real.artanh y| ≤ d := by
  have hy' : y ∈ Set.Ioo (-1 : ℝ) 1 := abs_lt.1 hy
  have ht : ∀ z, Real.tanh z ∈ Set.Ioo (-1 : ℝ) 1 := fun z => ⟨Real.neg_one_lt_tanh z, Real.tanh_lt_one z⟩
  rw [← Real.artanh_le_artanh_iff (ht _) hy', ← Real.artanh_le_artanh_iff hy' (ht _), Real.artanh_tanh,
    Real.artanh_tanh, abs_le]
  constructor
  · rintro ⟨h1, h2⟩
    constructor <;> linarith
  · rintro ⟨h1, h2⟩
    constructor <;> linarith

theorem minor_pos {𝕜 : Type} [RCLike 𝕜] {S : Matrix (Fin p) (Fin p) 𝕜} (hS : S.PosDef) {i j : Fin p} (h : i ≠ j) :
    0 < S i i * S j j - S i j * S j i := by
  have hinj : Function.Injective ![i, j] := by
    intro a b hab
    fin_cases a <;> fin_cases b <;> simp_all [h.symm]
  have := (hS.submatrix hinj).det_pos
  rw [det_fin_two] at this
  simpa using this

theorem correlation_lt {S : Matrix (Fin p) (Fin p) ℝ} (hS : S.PosDef) {i j : Fin p} (h : i ≠ j) :
    |correlation i j S| < 1 := by
  have ha : 0 < S i i := hS.diag_pos
  have hb : 0 < S j j := hS.diag_pos
  have hm := minor_pos hS h
  have hr : 0 < √(S i i * S j j) := Real.sqrt_pos.2 (mul_pos ha hb)
  have hs : S j i = S i j := by simpa using hS.isHermitian.apply i j
  rw [correlation, abs_div, abs_of_pos hr, div_lt_one hr]
  refine Real.lt_sqrt_of_sq_lt ?_
  rw [sq_abs]
  rw [hs] at hm
  nlinarith

theorem coherence2_lt {S : Matrix (Fin p) (Fin p) ℂ} (hS : S.PosDef) {i j : Fin p} (h : i ≠ j) :
    coherence2 i j S < 1 := by
  have hh := hS.isHermitian
  have ha : 0 < (S i i).re := (Complex.pos_iff.1 hS.diag_pos).1
  have hb : 0 < (S j j).re := (Complex.pos_iff.1 hS.diag_pos).1
  have hca : S i i = ((S i i).re : ℂ) := (hh.coe_re_apply_self i).symm
  have hcb : S j j = ((S j j).re : ℂ) := (hh.coe_re_apply_self j).symm
  have hm := (Complex.pos_iff.1 (minor_pos hS h)).1
  rw [← hh.apply j i, hca, hcb, RCLike.star_def, Complex.mul_conj', ← Complex.ofReal_pow, ← Complex.ofReal_mul,
    Complex.sub_re, Complex.ofReal_re, Complex.ofReal_re] at hm
  rw [coherence2, div_lt_one (mul_pos ha hb)]
  linarith

theorem coherence2_pos {S : Matrix (Fin p) (Fin p) ℂ} (hS : S.PosDef) {i j : Fin p} (h : S i j ≠ 0) :
    0 < coherence2 i j S :=
  div_pos (pow_pos (norm_pos_iff.2 h) 2) (mul_pos (Complex.pos_iff.1 hS.diag_pos).1
    (Complex.pos_iff.1 hS.diag_pos).1)

theorem artanh_sqrt_deriv {u : ℝ} (h0 : 0 < u) (h1 : u < 1) :
    HasDerivAt (fun u => Real.artanh √u) (1 / (2 * √u * (1 - u))) u := by
  have hs : |√u| < 1 := by
    rw [abs_of_nonneg (Real.sqrt_nonneg u), Real.sqrt_lt' one_pos, one_pow]
    exact h1
  have d := (artanh_deriv hs).comp u (Real.hasDerivAt_sqrt h0.ne')
  refine d.congr_deriv ?_
  rw [Real.sq_sqrt h0.le]
  have := (Real.sqrt_pos.2 h0).ne'
  have : 1 - u ≠ 0 := by linarith
  field_simp

end
end RS
