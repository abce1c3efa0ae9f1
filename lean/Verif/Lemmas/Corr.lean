import Verif.Lemmas.Delta
import Mathlib.Analysis.SpecialFunctions.Sqrt

/-! Gradients of the correlation and of the coherence. -/
set_option autoImplicit false

namespace RS
open Matrix ComplexOrder Filter Topology

section
variable {p : ℕ}

theorem trace_four {R : Type} [CommRing R] (i j k l : Fin p) (x y : R) (S : Matrix (Fin p) (Fin p) R) :
    (single i j x * S * (single k l y * S)).trace = x * S j k * y * S l i := by
  rw [Matrix.mul_assoc, trace_single_mul, smul_eq_mul, Matrix.mul_apply, Finset.sum_eq_single k]
  · rw [Matrix.mul_apply, Finset.sum_eq_single l]
    · rw [single_apply_same]
      ring
    · intro m _ hm
      rw [single_apply_of_col_ne _ _ hm.symm, zero_mul]
    · simp
  · intro m _ hm
    rw [Matrix.mul_apply, Finset.sum_eq_zero, mul_zero]
    intro n _
    rw [single_apply_of_row_ne hm.symm, zero_mul]
  · simp

theorem fderiv_inv' {E : Type*} [NormedAddCommGroup E] [NormedSpace ℝ E] {f : E → ℝ} {f' : E →L[ℝ] ℝ} {x : E}
    (hf : HasFDerivAt f f' x) (hx : f x ≠ 0) : HasFDerivAt (fun y => (f y)⁻¹) (-(f x ^ 2)⁻¹ • f') x :=
  (hasDerivAt_inv hx).comp_hasFDerivAt x hf

/-- The gradient of the correlation. -/
noncomputable def corrGrad (i j : Fin p) (S : Matrix (Fin p) (Fin p) ℝ) : Matrix (Fin p) (Fin p) ℝ :=
  single i j (1 / (2 * √(S i i * S j j))) + single j i (1 / (2 * √(S i i * S j j))) -
    single i i (correlation i j S / (2 * S i i)) - single j j (correlation i j S / (2 * S j j))

theorem corrGrad_herm (i j : Fin p) (S : Matrix (Fin p) (Fin p) ℝ) : (corrGrad i j S).IsHermitian := by
  rw [IsHermitian, corrGrad, conjTranspose_sub, conjTranspose_sub, conjTranspose_add]
  simp only [conjTranspose_single, star_trivial]
  rw [add_comm (single j i _)]

theorem corr_hasGrad (i j : Fin p) {S : Matrix (Fin p) (Fin p) ℝ} (hS : S.PosDef) :
    HasGrad (correlation i j) S (corrGrad i j S) := by
  have ha : 0 < S i i := hS.diag_pos
  have hb : 0 < S j j := hS.diag_pos
  have hr : 0 < √(S i i * S j j) := Real.sqrt_pos.2 (mul_pos ha hb)
  let e : Fin p → Fin p → (Fin p → Fin p → ℝ) →L[ℝ] ℝ := fun k l =>
    (ContinuousLinearMap.proj (R := ℝ) (φ := fun _ : Fin p => ℝ) l).comp
      (ContinuousLinearMap.proj (R := ℝ) (φ := fun _ : Fin p => Fin p → ℝ) k)
  have he : ∀ k l, HasFDerivAt (fun a : Fin p → Fin p → ℝ => a k l) (e k l) (fun i j => S i j) := fun k l =>
    (e k l).hasFDerivAt
  have h1 := (((he i i).mul (he j j)).sqrt (mul_pos ha hb).ne')
  have h2 := fderiv_inv' h1 hr.ne'
  have h3 := (he i j).mul h2
  refine ⟨_, h3.congr_of_eventuallyEq (Eventually.of_forall fun a => ?_), fun D hD => ?_⟩
  · simp only [correlation, of_apply, div_eq_mul_inv, Pi.mul_apply]
  · have hD' : D j i = D i j := by simpa using hD.apply i j
    simp only [corrGrad, Matrix.sub_mul, Matrix.add_mul, trace_sub, trace_add, trace_single_mul,
      smul_eq_mul, hD', RCLike.re_to_real, correlation]
    simp [e]
    set r := √(S i i * S j j) with hrd
    have hr2 : r ^ 2 = S i i * S j j := Real.sq_sqrt (mul_pos ha hb).le
    have hb' : S j j = r ^ 2 / S i i := by rw [hr2]; field_simp
    rw [hb']
    field_simp
    ring

theorem corrGrad_trace (i j : Fin p) {S : Matrix (Fin p) (Fin p) ℝ} (hS : S.PosDef) :
    (corrGrad i j S * S).trace = 0 ∧
    (corrGrad i j S * S * (corrGrad i j S * S)).trace = (1 - correlation i j S ^ 2) ^ 2 / 2 := by
  have ha : 0 < S i i := hS.diag_pos
  have hb : 0 < S j j := hS.diag_pos
  have hr : 0 < √(S i i * S j j) := Real.sqrt_pos.2 (mul_pos ha hb)
  have hD' : S j i = S i j := by simpa using hS.isHermitian.apply i j
  simp only [corrGrad, Matrix.sub_mul, Matrix.add_mul, Matrix.mul_sub, Matrix.mul_add, trace_sub, trace_add,
    trace_four, trace_single_mul, smul_eq_mul, hD', correlation]
  set r := √(S i i * S j j) with hrd
  have hr2 : r ^ 2 = S i i * S j j := Real.sq_sqrt (mul_pos ha hb).le
  have hb' : S j j = r ^ 2 / S i i := by rw [hr2]; field_simp
  clear_value r
  rw [hb']
  constructor <;> (field_simp; ring)

/-- The gradient of the squared coherence. -/
noncomputable def cohGrad (i j : Fin p) (S : Matrix (Fin p) (Fin p) ℂ) : Matrix (Fin p) (Fin p) ℂ :=
  single i j (S i j / (S i i * S j j)) + single j i (S j i / (S i i * S j j)) -
    single i i (S i j * S j i / (S i i ^ 2 * S j j)) - single j j (S i j * S j i / (S i i * S j j ^ 2))

theorem cohGrad_herm (i j : Fin p) {S : Matrix (Fin p) (Fin p) ℂ} (hS : S.PosDef) :
    (cohGrad i j S).IsHermitian := by
  have h := hS.isHermitian
  rw [IsHermitian, cohGrad, conjTranspose_sub, conjTranspose_sub, conjTranspose_add]
  simp only [conjTranspose_single, star_div₀, star_mul', star_pow, h.apply]
  rw [add_comm (single j i _), mul_comm (S j i) (S i j)]

theorem coh_hasGrad (i j : Fin p) {S : Matrix (Fin p) (Fin p) ℂ} (hS : S.PosDef) :
    HasGrad (coherence2 i j) S (cohGrad i j S) := by
  have h := hS.isHermitian
  have ha : 0 < (S i i).re := (Complex.pos_iff.1 hS.diag_pos).1
  have hb : 0 < (S j j).re := (Complex.pos_iff.1 hS.diag_pos).1
  have hS' : S j i = star (S i j) := (h.apply j i).symm
  have hca : S i i = ((S i i).re : ℂ) := (h.coe_re_apply_self i).symm
  have hcb : S j j = ((S j j).re : ℂ) := (h.coe_re_apply_self j).symm
  let e : Fin p → Fin p → (Fin p → Fin p → ℂ) →L[ℝ] ℂ := fun k l =>
    (ContinuousLinearMap.proj (R := ℝ) (φ := fun _ : Fin p => ℂ) l).comp
      (ContinuousLinearMap.proj (R := ℝ) (φ := fun _ : Fin p => Fin p → ℂ) k)
  have her : ∀ k l, HasFDerivAt (fun a : Fin p → Fin p → ℂ => (a k l).re) (Complex.reCLM.comp (e k l))
    (fun i j => S i j) := fun k l => (Complex.reCLM.comp (e k l)).hasFDerivAt
  have hei : ∀ k l, HasFDerivAt (fun a : Fin p → Fin p → ℂ => (a k l).im) (Complex.imCLM.comp (e k l))
    (fun i j => S i j) := fun k l => (Complex.imCLM.comp (e k l)).hasFDerivAt
  have h1 := ((her i j).mul (her i j)).add ((hei i j).mul (hei i j))
  have h2 := fderiv_inv' ((her i i).mul (her j j)) (mul_pos ha hb).ne'
  have h3 := h1.mul h2
  refine ⟨_, h3.congr_of_eventuallyEq (Eventually.of_forall fun a => ?_), fun D hD => ?_⟩
  · simp only [coherence2, of_apply, div_eq_mul_inv, Pi.mul_apply, Pi.add_apply, Complex.sq_norm,
      Complex.normSq_apply]
  · have hD' : D j i = star (D i j) := (hD.apply j i).symm
    simp only [cohGrad, Matrix.sub_mul, Matrix.add_mul, trace_sub, trace_add, trace_single_mul,
      smul_eq_mul, hD', hS']
    rw [hca, hcb]
    simp [e, ← Complex.ofReal_pow, ← Complex.ofReal_mul, Complex.div_ofReal_re, Complex.div_ofReal_im]
    field_simp
    ring

theorem cohGrad_trace (i j : Fin p) {S : Matrix (Fin p) (Fin p) ℂ} (hS : S.PosDef) :
    (cohGrad i j S * S).trace.re = 0 ∧
    (cohGrad i j S * S * (cohGrad i j S * S)).trace.re =
      2 * coherence2 i j S * (1 - coherence2 i j S) ^ 2 := by
  have h := hS.isHermitian
  have ha : 0 < (S i i).re := (Complex.pos_iff.1 hS.diag_pos).1
  have hb : 0 < (S j j).re := (Complex.pos_iff.1 hS.diag_pos).1
  have hca : S i i = ((S i i).re : ℂ) := (h.coe_re_apply_self i).symm
  have hcb : S j j = ((S j j).re : ℂ) := (h.coe_re_apply_self j).symm
  have ha' : S i i ≠ 0 := by rw [hca]; exact_mod_cast ha.ne'
  have hb' : S j j ≠ 0 := by rw [hcb]; exact_mod_cast hb.ne'
  have hg : ((coherence2 i j S : ℝ) : ℂ) = S i j * S j i / (S i i * S j j) := by
    rw [coherence2, Complex.ofReal_div, Complex.ofReal_mul, ← hca, ← hcb, Complex.ofReal_pow,
      ← Complex.mul_conj', ← h.apply j i]
    rfl
  have e1 : (cohGrad i j S * S).trace = 0 := by
    simp only [cohGrad, Matrix.sub_mul, Matrix.add_mul, trace_sub, trace_add, trace_single_mul, smul_eq_mul]
    field_simp
    ring
  have e2 : (cohGrad i j S * S * (cohGrad i j S * S)).trace =
      ((2 * coherence2 i j S * (1 - coherence2 i j S) ^ 2 : ℝ) : ℂ) := by
    push_cast
    rw [hg]
    simp only [cohGrad, Matrix.sub_mul, Matrix.add_mul, Matrix.mul_sub, Matrix.mul_add, trace_sub, trace_add,
      trace_four]
    field_simp
    ring
  rw [e1, e2]
  exact ⟨rfl, Complex.ofReal_re _⟩

end
end RS
