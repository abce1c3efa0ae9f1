import Verif.Lemmas.ConsistHuber
import Verif.Lemmas.ConsistLaw
import Verif.Lemmas.MatDeriv

/-! Weighted second and fourth moments of laws which no unitary matrix changes, and the score of the
complex t law. -/
set_option autoImplicit false

namespace RS
open Matrix ComplexOrder Filter Topology MeasureTheory ProbabilityTheory

theorem integral_add3 {E : Type*} [MeasurableSpace E] {μ : Measure E} {f g k : E → ℝ}
    (hf : Integrable f μ) (hg : Integrable g μ) (hk : Integrable k μ) :
    ∫ x, (f x + g x + k x) ∂μ = ∫ x, f x ∂μ + ∫ x, g x ∂μ + ∫ x, k x ∂μ := by
  have := integral_add (hf.add hg) hk
  simp only [Pi.add_apply] at this
  rw [this, integral_add hf hg]

/-! ## Laws invariant under unitary matrices -/
section Unitary
variable {p : ℕ} {ν : Measure (Fin p → ℂ)}

/-- `∑_j |y_j|²` -/
noncomputable def sqn (y : Fin p → ℂ) : ℝ := ∑ j, ‖y j‖ ^ 2

theorem sqn_eq (y : Fin p → ℂ) : sqn y = qf (1 : Matrix (Fin p) (Fin p) ℂ) y := (qf_one y).symm

theorem sqn_nonneg (y : Fin p → ℂ) : 0 ≤ sqn y := Finset.sum_nonneg fun _ _ => sq_nonneg _

theorem coord_le_sqn (y : Fin p → ℂ) (i : Fin p) : ‖y i‖ ^ 2 ≤ sqn y :=
  Finset.single_le_sum (f := fun j => ‖y j‖ ^ 2) (fun _ _ => sq_nonneg _) (Finset.mem_univ i)

theorem sqn_measurable : Measurable (sqn (p := p)) := by
  unfold sqn; fun_prop

theorem unitary_integral (hE : EllipticalLaw ν (1 : Matrix (Fin p) (Fin p) ℂ)) {w : ℝ → ℝ}
    (hw : Measurable w) {F : (Fin p → ℂ) → ℝ} (hF : Continuous F) {V : Matrix (Fin p) (Fin p) ℂ}
    (hV : V * Vᴴ = 1) :
    ∫ y, w (sqn y) * F (V *ᵥ y) ∂ν = ∫ y, w (sqn y) * F y ∂ν := by
  have h1 : V * 1 * Vᴴ = (1 : Matrix (Fin p) (Fin p) ℂ) := by rw [Matrix.mul_one, hV]
  have hm : Measurable fun x : Fin p → ℂ => V *ᵥ x :=
    (Continuous.matrix_mulVec continuous_const continuous_id).measurable
  have h2 := integral_map (μ := ν) hm.aemeasurable (f := fun y => w (sqn y) * F y)
    ((hw.comp sqn_measurable).mul hF.measurable).aestronglyMeasurable
  rw [hE V h1] at h2
  rw [h2]
  refine integral_congr_ae (Eventually.of_forall fun y => ?_)
  simp only [sqn_eq, fixing_qf PosDef.one h1]

/-- A unitary matrix whose `i`-th row is `-(3/5) e_i - (4/5) conj(ω) e_j`. -/
theorem exists_reflection {i j : Fin p} (hij : i ≠ j) {om : ℂ} (hom : ‖om‖ = 1) :
    ∃ V : Matrix (Fin p) (Fin p) ℂ, V * Vᴴ = 1 ∧
      ∀ y : Fin p → ℂ, (V *ᵥ y) i = -(3 / 5) * y i - 4 / 5 * (star om * y j) := by
  set u : Fin p → ℂ := Pi.single i 2 + Pi.single j om with hu
  have hui : u i = 2 := by simp [hu, hij]
  have hdot : ∀ y : Fin p → ℂ, star u ⬝ᵥ y = 2 * y i + star om * y j := fun y => by
    rw [hu, star_add, add_dotProduct]
    have h1 : star (Pi.single i (2 : ℂ) : Fin p → ℂ) = Pi.single i 2 := by
      ext k; by_cases h : k = i
      · subst h; simp
      · simp [h]
    have h2 : star (Pi.single j om : Fin p → ℂ) = Pi.single j (star om) := by
      ext k; by_cases h : k = j
      · subst h; simp
      · simp [h]
    rw [h1, h2, single_dotProduct, single_dotProduct]
  have huj : u j = om := by simp [hu, hij.symm]
  have hnorm : star u ⬝ᵥ u = 5 := by
    rw [hdot, hui, huj]
    have : star om * om = 1 := by
      have h := Complex.conj_mul' om
      rw [hom] at h
      simpa using h
    rw [this]; norm_num
  set K := vecMulVec u (star u) with hK
  have hKK : K * K = (5 : ℂ) • K := by
    rw [hK, vecMulVec_mul_vecMulVec, hnorm]
    ext a b
    simp [vecMulVec_apply]; ring
  have hKh : Kᴴ = K := by
    ext a b
    simp [hK, conjTranspose_apply, vecMulVec_apply, mul_comm]
  refine ⟨1 - (2 / 5 : ℂ) • K, ?_, fun y => ?_⟩
  · have hs : star (2 / 5 : ℂ) = 2 / 5 := by
      rw [show (2 / 5 : ℂ) = ((2 / 5 : ℝ) : ℂ) by push_cast; rfl]; simp
    rw [conjTranspose_sub, conjTranspose_one, conjTranspose_smul, hKh, hs, Matrix.sub_mul,
      Matrix.one_mul, Matrix.mul_sub, Matrix.mul_one, Matrix.smul_mul, Matrix.mul_smul, hKK]
    module
  · rw [Matrix.sub_mulVec, one_mulVec, Matrix.smul_mulVec, hK, vecMulVec_mulVec]
    simp only [Pi.sub_apply, Pi.smul_apply, MulOpposite.smul_eq_mul_unop, MulOpposite.unop_op,
      smul_eq_mul, hui, hdot]
    ring

theorem reflected_sq (a b om : ℂ) (hom : ‖om‖ = 1) :
    ‖-(3 / 5) * a - 4 / 5 * (star om * b)‖ ^ 2 =
      9 / 25 * ‖a‖ ^ 2 + 16 / 25 * ‖b‖ ^ 2 + 24 / 25 * (om * (a * star b)).re := by
  have h1 : om.re * om.re + om.im * om.im = 1 := by
    have := Complex.sq_norm om
    rw [hom, Complex.normSq_apply] at this
    linarith
  have e : ∀ z : ℂ, ‖z‖ ^ 2 = z.re * z.re + z.im * z.im := fun z => by
    rw [Complex.sq_norm, Complex.normSq_apply]
  have e3 : (-(3 / 5 : ℂ)) = ((-(3 / 5) : ℝ) : ℂ) := by push_cast; rfl
  have e4 : (4 / 5 : ℂ) = ((4 / 5 : ℝ) : ℂ) := by push_cast; rfl
  rw [e, e, e, e3, e4]
  simp only [Complex.sub_re, Complex.sub_im, Complex.ofReal_re, Complex.ofReal_im,
    Complex.mul_re, Complex.mul_im, Complex.star_def, Complex.conj_re, Complex.conj_im]
  linear_combination (16 / 25 * (b.re * b.re + b.im * b.im)) * h1

variable (hE : EllipticalLaw ν (1 : Matrix (Fin p) (Fin p) ℂ)) {w : ℝ → ℝ} (hw : Measurable w)
include hE hw

theorem unitary_second (hi : Integrable (fun y => w (sqn y) * sqn y) ν) :
    (∀ i, Integrable (fun y => w (sqn y) * ‖y i‖ ^ 2) ν) ∧
    ∀ i, (p : ℝ) * ∫ y, w (sqn y) * ‖y i‖ ^ 2 ∂ν = ∫ y, w (sqn y) * sqn y ∂ν := by
  have hI : ∀ i, Integrable (fun y => w (sqn y) * ‖y i‖ ^ 2) ν := fun i => by
    refine hi.norm.mono' ((hw.comp sqn_measurable).mul (by fun_prop)).aestronglyMeasurable
      (Eventually.of_forall fun y => ?_)
    rw [norm_mul, norm_mul, Real.norm_of_nonneg (sq_nonneg ‖y i‖), Real.norm_of_nonneg (sqn_nonneg y)]
    exact mul_le_mul_of_nonneg_left (coord_le_sqn y i) (norm_nonneg _)
  refine ⟨hI, fun i => ?_⟩
  have heq : ∀ j, ∫ y, w (sqn y) * ‖y j‖ ^ 2 ∂ν = ∫ y, w (sqn y) * ‖y i‖ ^ 2 ∂ν := by
    intro j
    by_cases hij : i = j
    · rw [hij]
    have hr : ∀ om : ℂ, ‖om‖ = 1 → ∫ y, w (sqn y) * (9 / 25 * ‖y i‖ ^ 2 + 16 / 25 * ‖y j‖ ^ 2 +
        24 / 25 * (om * (y i * star (y j))).re) ∂ν = ∫ y, w (sqn y) * ‖y i‖ ^ 2 ∂ν := by
      intro om hom
      obtain ⟨V, hV, hVi⟩ := exists_reflection hij hom
      rw [← unitary_integral hE hw (F := fun y => ‖y i‖ ^ 2) (by fun_prop) hV]
      simp only [hVi, reflected_sq _ _ _ hom]
    have hIr : ∀ om : ℂ, Integrable (fun y => w (sqn y) * (om * (y i * star (y j))).re) ν := by
      intro om
      refine (hi.norm.const_mul ‖om‖).mono' ((hw.comp sqn_measurable).mul
        (Continuous.measurable (by fun_prop))).aestronglyMeasurable
        (Eventually.of_forall fun y => ?_)
      have h1 : |(om * (y i * star (y j))).re| ≤ ‖om‖ * sqn y := by
        refine (Complex.abs_re_le_norm _).trans ?_
        rw [norm_mul, norm_mul, norm_star]
        refine mul_le_mul_of_nonneg_left ?_ (norm_nonneg _)
        have := coord_le_sqn y i
        have := coord_le_sqn y j
        nlinarith [sq_nonneg (‖y i‖ - ‖y j‖)]
      rw [norm_mul, norm_mul, Real.norm_of_nonneg (sqn_nonneg y), Real.norm_eq_abs (_ : ℂ).re]
      calc ‖w (sqn y)‖ * |(om * (y i * star (y j))).re| ≤ ‖w (sqn y)‖ * (‖om‖ * sqn y) :=
            mul_le_mul_of_nonneg_left h1 (norm_nonneg _)
        _ = _ := by ring
    have hlin : ∀ om : ℂ, ∫ y, w (sqn y) * (9 / 25 * ‖y i‖ ^ 2 + 16 / 25 * ‖y j‖ ^ 2 +
        24 / 25 * (om * (y i * star (y j))).re) ∂ν =
        9 / 25 * ∫ y, w (sqn y) * ‖y i‖ ^ 2 ∂ν + 16 / 25 * ∫ y, w (sqn y) * ‖y j‖ ^ 2 ∂ν +
        24 / 25 * ∫ y, w (sqn y) * (om * (y i * star (y j))).re ∂ν := fun om => by
      rw [← integral_const_mul, ← integral_const_mul, ← integral_const_mul,
        ← integral_add3 ((hI i).const_mul _) ((hI j).const_mul _) ((hIr om).const_mul _)]
      exact integral_congr_ae (Eventually.of_forall fun y => by ring)
    have h1 := hr 1 (by simp)
    have h2 := hr (-1) (by simp)
    rw [hlin] at h1 h2
    have h3 : ∫ y, w (sqn y) * ((-1 : ℂ) * (y i * star (y j))).re ∂ν =
        -∫ y, w (sqn y) * ((1 : ℂ) * (y i * star (y j))).re ∂ν := by
      rw [← integral_neg]
      exact integral_congr_ae (Eventually.of_forall fun y => by
        simp only [neg_mul, one_mul, Complex.neg_re]; ring)
    rw [h3] at h2
    linarith
  have hsum : ∫ y, w (sqn y) * sqn y ∂ν = ∑ j, ∫ y, w (sqn y) * ‖y j‖ ^ 2 ∂ν := by
    rw [← integral_finsetSum _ fun j _ => hI j]
    exact integral_congr_ae (Eventually.of_forall fun y => by
      simp only [sqn, Finset.mul_sum])
  rw [hsum, Finset.sum_congr rfl fun j _ => heq j, Finset.sum_const, Finset.card_univ,
    Fintype.card_fin, nsmul_eq_mul]

omit hE in
theorem unitary_fourth_int {G : (Fin p → ℂ) → ℝ} (hG : Continuous G) {C : ℝ}
    (hb : ∀ y, |G y| ≤ C * sqn y ^ 2) (hi : Integrable (fun y => w (sqn y) * sqn y ^ 2) ν) :
    Integrable (fun y => w (sqn y) * G y) ν := by
  refine (hi.norm.const_mul C).mono' ((hw.comp sqn_measurable).mul hG.measurable).aestronglyMeasurable
    (Eventually.of_forall fun y => ?_)
  rw [norm_mul, norm_mul, Real.norm_of_nonneg (sq_nonneg (sqn y)), Real.norm_eq_abs (G y)]
  calc ‖w (sqn y)‖ * |G y| ≤ ‖w (sqn y)‖ * (C * sqn y ^ 2) :=
        mul_le_mul_of_nonneg_left (hb y) (norm_nonneg _)
    _ = _ := by ring

omit hE hw in
/-- The average of `|(3/5) a + (4/5) ω b|⁴` over `ω ∈ {1, -1, i, -i}`. -/
theorem reflected_fourth (x y : ℝ) (c : ℂ) :
    (9 / 25 * x + 16 / 25 * y + 24 / 25 * ((1 : ℂ) * c).re) ^ 2 +
    (9 / 25 * x + 16 / 25 * y + 24 / 25 * ((-1 : ℂ) * c).re) ^ 2 +
    (9 / 25 * x + 16 / 25 * y + 24 / 25 * (Complex.I * c).re) ^ 2 +
    (9 / 25 * x + 16 / 25 * y + 24 / 25 * (-Complex.I * c).re) ^ 2 =
    4 * (9 / 25 * x + 16 / 25 * y) ^ 2 + 2 * (24 / 25) ^ 2 * ‖c‖ ^ 2 := by
  rw [Complex.sq_norm, Complex.normSq_apply]
  simp only [Complex.mul_re, Complex.one_re, Complex.one_im, Complex.neg_re, Complex.neg_im,
    Complex.I_re, Complex.I_im]
  ring

/-- The weighted fourth moments: those with twice the same coordinate are all equal, and twice the
others. -/
theorem unitary_fourth (hi : Integrable (fun y => w (sqn y) * sqn y ^ 2) ν) :
    (∀ i j, Integrable (fun y => w (sqn y) * (‖y i‖ ^ 2 * ‖y j‖ ^ 2)) ν) ∧
    ∀ i j k, i ≠ j → ∫ y, w (sqn y) * (‖y k‖ ^ 2 * ‖y k‖ ^ 2) ∂ν =
      2 * ∫ y, w (sqn y) * (‖y i‖ ^ 2 * ‖y j‖ ^ 2) ∂ν := by
  have hI : ∀ i j, Integrable (fun y => w (sqn y) * (‖y i‖ ^ 2 * ‖y j‖ ^ 2)) ν := fun i j =>
    unitary_fourth_int hw (C := 1) (by fun_prop) (fun y => by
      rw [abs_of_nonneg (by positivity), one_mul, sq (sqn y)]
      exact mul_le_mul (coord_le_sqn y i) (coord_le_sqn y j) (sq_nonneg _) (sqn_nonneg y)) hi
  refine ⟨hI, ?_⟩
  set m : Fin p → Fin p → ℝ := fun i j => ∫ y, w (sqn y) * (‖y i‖ ^ 2 * ‖y j‖ ^ 2) ∂ν with hm
  have hsym : ∀ i j, m i j = m j i := fun i j => by
    simp only [hm, mul_comm (‖(_ : Fin p → ℂ) i‖ ^ 2)]
  have hrel : ∀ i j, i ≠ j → (25 ^ 2 - 9 ^ 2) * m i i = 16 ^ 2 * m j j + 4 * (9 * 16) * m i j := by
    intro i j hij
    let G : ℂ → (Fin p → ℂ) → ℝ := fun om y =>
      (9 / 25 * ‖y i‖ ^ 2 + 16 / 25 * ‖y j‖ ^ 2 + 24 / 25 * (om * (y i * star (y j))).re) ^ 2
    have hGI : ∀ om : ℂ, ‖om‖ = 1 → Integrable (fun y => w (sqn y) * G om y) ν ∧
        ∫ y, w (sqn y) * G om y ∂ν = m i i := by
      intro om hom
      obtain ⟨V, hV, hVi⟩ := exists_reflection hij hom
      have hG : ∀ y, G om y = ‖(V *ᵥ y) i‖ ^ 2 * ‖(V *ᵥ y) i‖ ^ 2 := fun y => by
        simp only [G, hVi, reflected_sq _ _ _ hom]; ring
      refine ⟨unitary_fourth_int hw (C := 1) (by fun_prop) (fun y => ?_) hi, ?_⟩
      · have h1 : V * 1 * Vᴴ = (1 : Matrix (Fin p) (Fin p) ℂ) := by rw [Matrix.mul_one, hV]
        have h2 : sqn (V *ᵥ y) = sqn y := by simp only [sqn_eq, fixing_qf PosDef.one h1]
        rw [hG, abs_of_nonneg (by positivity), one_mul, sq (sqn y), ← h2]
        exact mul_le_mul (coord_le_sqn _ i) (coord_le_sqn _ i) (sq_nonneg _) (sqn_nonneg _)
      · simp only [hG]
        exact unitary_integral hE hw (F := fun y => ‖y i‖ ^ 2 * ‖y i‖ ^ 2) (by fun_prop) hV
    have g1 := hGI 1 (by simp)
    have g2 := hGI (-1) (by simp)
    have g3 := hGI Complex.I (by simp)
    have g4 := hGI (-Complex.I) (by simp)
    have hsum : ∫ y, w (sqn y) * G 1 y ∂ν + ∫ y, w (sqn y) * G (-1) y ∂ν +
        ∫ y, w (sqn y) * G Complex.I y ∂ν + ∫ y, w (sqn y) * G (-Complex.I) y ∂ν =
        4 * (9 / 25) ^ 2 * m i i + 4 * (16 / 25) ^ 2 * m j j +
          (8 * (9 / 25) * (16 / 25) + 2 * (24 / 25) ^ 2) * m i j := by
      simp only [hm]
      rw [← integral_add' g1.1 g2.1, ← integral_add3 (g1.1.add g2.1) g3.1 g4.1,
        ← integral_const_mul, ← integral_const_mul, ← integral_const_mul,
        ← integral_add3 ((hI i i).const_mul _) ((hI j j).const_mul _) ((hI i j).const_mul _)]
      refine integral_congr_ae (Eventually.of_forall fun y => ?_)
      have := reflected_fourth (‖y i‖ ^ 2) (‖y j‖ ^ 2) (y i * star (y j))
      rw [norm_mul, norm_star] at this
      simp only [Pi.add_apply, G]
      rw [← mul_add, ← mul_add, ← mul_add, this]
      ring
    rw [g1.2, g2.2, g3.2, g4.2] at hsum
    linarith
  have hpair : ∀ i j, i ≠ j → m i i = m j j ∧ m i i = 2 * m i j := fun i j hij => by
    have h1 := hrel i j hij
    have h2 := hrel j i hij.symm
    rw [hsym j i] at h2
    constructor <;> linarith
  intro i j k hij
  change m k k = 2 * m i j
  by_cases hki : k = i
  · rw [hki]; exact (hpair i j hij).2
  · rw [(hpair k i hki).1]; exact (hpair i j hij).2

omit hE hw in
/-- Hermitian forms in a basis of eigenvectors. -/
theorem herm_basis {H : Matrix (Fin p) (Fin p) ℂ} (hH : H.IsHermitian) :
    ∃ (V : Matrix (Fin p) (Fin p) ℂ) (l : Fin p → ℝ), V * Vᴴ = 1 ∧
      (∀ y : Fin p → ℂ, (star y ⬝ᵥ H *ᵥ y).re = ∑ j, l j * ‖(V *ᵥ y) j‖ ^ 2) ∧
      H.trace.re = ∑ j, l j ∧ (H * H).trace.re = ∑ j, l j ^ 2 := by
  obtain ⟨U, l, hU, hsp⟩ : ∃ (U : Matrix (Fin p) (Fin p) ℂ) (l : Fin p → ℝ), Uᴴ * U = 1 ∧
      H = U * diagonal (fun j => (l j : ℂ)) * Uᴴ :=
    ⟨hH.eigenvectorUnitary, hH.eigenvalues,
      (Matrix.mem_unitaryGroup_iff').1 hH.eigenvectorUnitary.2, hH.spectral_theorem⟩
  refine ⟨Uᴴ, l, by rw [conjTranspose_conjTranspose, hU], fun y => ?_, ?_, ?_⟩
  · have h1 : star y ⬝ᵥ H *ᵥ y = star (Uᴴ *ᵥ y) ⬝ᵥ diagonal (fun j => (l j : ℂ)) *ᵥ (Uᴴ *ᵥ y) := by
      rw [hsp, ← mulVec_mulVec, ← mulVec_mulVec, dotProduct_mulVec (star y) U, star_mulVec,
        conjTranspose_conjTranspose]
    rw [h1]
    simp only [dotProduct, mulVec_diagonal, Pi.star_apply, Complex.re_sum]
    refine Finset.sum_congr rfl fun j _ => ?_
    generalize (Uᴴ *ᵥ y) j = a
    rw [show star a * ((l j : ℂ) * a) = (l j : ℂ) * (star a * a) by ring, Complex.re_ofReal_mul]
    have := Complex.conj_mul' a
    rw [Complex.star_def, this]
    norm_cast
  · rw [hsp, Matrix.mul_assoc, trace_mul_comm, Matrix.mul_assoc, hU, Matrix.mul_one, trace_diagonal,
      Complex.re_sum]
    rfl
  · have : H * H = U * (diagonal (fun j => (l j : ℂ)) * diagonal (fun j => (l j : ℂ)) * Uᴴ) := by
      rw [hsp]
      calc U * diagonal (fun j => (l j : ℂ)) * Uᴴ * (U * diagonal (fun j => (l j : ℂ)) * Uᴴ)
          = U * diagonal (fun j => (l j : ℂ)) * (Uᴴ * U) * diagonal (fun j => (l j : ℂ)) * Uᴴ := by
            simp only [Matrix.mul_assoc]
        _ = _ := by rw [hU, Matrix.mul_one]; simp only [Matrix.mul_assoc]
    rw [this, trace_mul_comm, Matrix.mul_assoc, hU, Matrix.mul_one, diagonal_mul_diagonal,
      trace_diagonal, Complex.re_sum]
    refine Finset.sum_congr rfl fun j _ => ?_
    rw [← Complex.ofReal_mul, Complex.ofReal_re, sq]

omit hE hw in
theorem herm_form_le (H : Matrix (Fin p) (Fin p) ℂ) (hH : H.IsHermitian) :
    ∃ C : ℝ, 0 ≤ C ∧ ∀ y : Fin p → ℂ, |(star y ⬝ᵥ H *ᵥ y).re| ≤ C * sqn y := by
  obtain ⟨V, l, hV, hf, -, -⟩ := herm_basis hH
  have h1 : V * 1 * Vᴴ = (1 : Matrix (Fin p) (Fin p) ℂ) := by rw [Matrix.mul_one, hV]
  refine ⟨∑ j, |l j|, Finset.sum_nonneg fun _ _ => abs_nonneg _, fun y => ?_⟩
  have h2 : sqn (V *ᵥ y) = sqn y := by simp only [sqn_eq, fixing_qf PosDef.one h1]
  rw [hf, ← h2, Finset.sum_mul]
  refine (Finset.abs_sum_le_sum_abs _ _).trans (Finset.sum_le_sum fun j _ => ?_)
  rw [abs_mul, abs_of_nonneg (sq_nonneg ‖(V *ᵥ y) j‖)]
  exact mul_le_mul_of_nonneg_left (coord_le_sqn _ j) (abs_nonneg _)

/-- Weighted means of Hermitian forms. -/
theorem unitary_forms {H : Matrix (Fin p) (Fin p) ℂ} (hH : H.IsHermitian)
    (hi : Integrable (fun y => w (sqn y) * sqn y) ν) :
    (p : ℝ) * ∫ y, w (sqn y) * (star y ⬝ᵥ H *ᵥ y).re ∂ν =
      H.trace.re * ∫ y, w (sqn y) * sqn y ∂ν := by
  obtain ⟨V, l, hV, hf, ht, -⟩ := herm_basis hH
  obtain ⟨h1, h2⟩ := unitary_second hE hw hi
  simp only [hf]
  rw [unitary_integral hE hw (F := fun y => ∑ j, l j * ‖y j‖ ^ 2) (by fun_prop) hV]
  have e : ∀ y : Fin p → ℂ, w (sqn y) * ∑ j, l j * ‖y j‖ ^ 2 =
      ∑ j, l j * (w (sqn y) * ‖y j‖ ^ 2) := fun y => by
    rw [Finset.mul_sum]; exact Finset.sum_congr rfl fun j _ => by ring
  simp only [e]
  rw [integral_finsetSum _ fun j _ => (h1 j).const_mul _, ht, Finset.sum_mul, Finset.mul_sum]
  refine Finset.sum_congr rfl fun j _ => ?_
  rw [integral_const_mul, ← h2 j]; ring

/-- Weighted mean squares of Hermitian forms. -/
theorem unitary_forms_sq {H : Matrix (Fin p) (Fin p) ℂ} (hH : H.IsHermitian)
    (hi : Integrable (fun y => w (sqn y) * sqn y ^ 2) ν) :
    (p : ℝ) * (p + 1) * ∫ y, w (sqn y) * (star y ⬝ᵥ H *ᵥ y).re ^ 2 ∂ν =
      ((H * H).trace.re + H.trace.re ^ 2) * ∫ y, w (sqn y) * sqn y ^ 2 ∂ν := by
  classical
  obtain ⟨V, l, hV, hf, ht, ht2⟩ := herm_basis hH
  obtain ⟨h1, h2⟩ := unitary_fourth hE hw hi
  set m : Fin p → Fin p → ℝ := fun i j => ∫ y, w (sqn y) * (‖y i‖ ^ 2 * ‖y j‖ ^ 2) ∂ν with hm
  have hexp : ∀ c : Fin p → ℝ, ∫ y, w (sqn y) * (∑ j, c j * ‖y j‖ ^ 2) ^ 2 ∂ν =
      ∑ i, ∑ j, c i * c j * m i j := fun c => by
    have e : ∀ y : Fin p → ℂ, w (sqn y) * (∑ j, c j * ‖y j‖ ^ 2) ^ 2 =
        ∑ i, ∑ j, c i * c j * (w (sqn y) * (‖y i‖ ^ 2 * ‖y j‖ ^ 2)) := fun y => by
      rw [sq, Finset.sum_mul_sum, Finset.mul_sum]
      refine Finset.sum_congr rfl fun i _ => ?_
      rw [Finset.mul_sum]
      exact Finset.sum_congr rfl fun j _ => by ring
    simp only [e]
    rw [integral_finsetSum _ fun i _ => integrable_finsetSum _ fun j _ => (h1 i j).const_mul _]
    refine Finset.sum_congr rfl fun i _ => ?_
    rw [integral_finsetSum _ fun j _ => (h1 i j).const_mul _]
    exact Finset.sum_congr rfl fun j _ => integral_const_mul _ _
  simp only [hf]
  rw [unitary_integral hE hw (F := fun y => (∑ j, l j * ‖y j‖ ^ 2) ^ 2) (by fun_prop) hV, hexp]
  have hone := hexp fun _ => 1
  simp only [one_mul] at hone
  have hone' : ∫ y, w (sqn y) * sqn y ^ 2 ∂ν = ∑ i, ∑ j, m i j := hone
  rw [hone', ht, ht2]
  rcases Nat.eq_zero_or_pos p with rfl | hp
  · simp
  obtain ⟨A, hA⟩ : ∃ A : ℝ, ∀ i j, m i j = A * (1 + if i = j then 1 else 0) := by
    refine ⟨m ⟨0, hp⟩ ⟨0, hp⟩ / 2, fun i j => ?_⟩
    by_cases hij : i = j
    · subst hij
      rw [if_pos rfl]
      by_cases h0 : i = ⟨0, hp⟩
      · rw [h0]; ring
      · have a1 := h2 i ⟨0, hp⟩ i h0
        have a2 := h2 i ⟨0, hp⟩ ⟨0, hp⟩ h0
        change m i i = 2 * m i ⟨0, hp⟩ at a1
        change m ⟨0, hp⟩ ⟨0, hp⟩ = 2 * m i ⟨0, hp⟩ at a2
        rw [a1, a2]; ring
    · rw [if_neg hij]
      have a2 := h2 i j ⟨0, hp⟩ hij
      change m ⟨0, hp⟩ ⟨0, hp⟩ = 2 * m i j at a2
      rw [a2]; ring
  have hsum : ∀ c : Fin p → ℝ, ∑ i, ∑ j, c i * c j * m i j =
      A * ((∑ i, c i) ^ 2 + ∑ i, c i ^ 2) := fun c => by
    simp only [hA]
    rw [sq, Finset.sum_mul_sum, mul_add, Finset.mul_sum, Finset.mul_sum, ← Finset.sum_add_distrib]
    refine Finset.sum_congr rfl fun i _ => ?_
    have : ∀ j, c i * c j * (A * (1 + if i = j then 1 else 0)) =
        A * (c i * c j) + if i = j then A * (c i * c j) else 0 := fun j => by
      split_ifs <;> ring
    simp only [this]
    rw [Finset.sum_add_distrib, Finset.sum_ite_eq, if_pos (Finset.mem_univ _), Finset.mul_sum, sq]
  have h3 := hsum fun _ => 1
  simp only [one_mul, Finset.sum_const, Finset.card_univ, Fintype.card_fin, nsmul_eq_mul, one_pow,
    mul_one] at h3
  rw [hsum, h3]
  ring

end Unitary

/-! ## Elliptical laws -/
section Elliptical
variable {p : ℕ} {μ : Measure (Fin p → ℂ)} {S : Matrix (Fin p) (Fin p) ℂ}

/-- Weighted means and mean squares of Hermitian forms under elliptical laws. -/
theorem elliptical_forms (hS : S.PosDef) (hE : EllipticalLaw μ S) {w : ℝ → ℝ} (hw : Measurable w)
    {D : Matrix (Fin p) (Fin p) ℂ} (hD : D.IsHermitian) :
    (∃ C : ℝ, 0 ≤ C ∧ ∀ x, |(star x ⬝ᵥ (S⁻¹ * D * S⁻¹) *ᵥ x).re| ≤ C * qf S x) ∧
    (Integrable (fun x => w (qf S x) * qf S x) μ →
      (p : ℝ) * ∫ x, w (qf S x) * (star x ⬝ᵥ (S⁻¹ * D * S⁻¹) *ᵥ x).re ∂μ =
        (S⁻¹ * D).trace.re * ∫ x, w (qf S x) * qf S x ∂μ) ∧
    (Integrable (fun x => w (qf S x) * qf S x ^ 2) μ →
      (p : ℝ) * (p + 1) * ∫ x, w (qf S x) * (star x ⬝ᵥ (S⁻¹ * D * S⁻¹) *ᵥ x).re ^ 2 ∂μ =
        ((S⁻¹ * D * (S⁻¹ * D)).trace.re + (S⁻¹ * D).trace.re ^ 2) *
          ∫ x, w (qf S x) * qf S x ^ 2 ∂μ) := by
  obtain ⟨R, hR, rfl⟩ := root_exists hS
  have hRd := (Matrix.isUnit_iff_isUnit_det R).1 hR
  have hi1 : R⁻¹ * R = 1 := Matrix.nonsing_inv_mul R hRd
  have hi2 : R * R⁻¹ = 1 := Matrix.mul_nonsing_inv R hRd
  have hi3 : Rᴴ * R⁻¹ᴴ = 1 := by rw [← conjTranspose_mul, hi1, conjTranspose_one]
  have hSi : (R * Rᴴ)⁻¹ = R⁻¹ᴴ * R⁻¹ := by
    rw [Matrix.mul_inv_rev, conjTranspose_nonsing_inv]
  set H := R⁻¹ * D * R⁻¹ᴴ with hH
  have hHh : H.IsHermitian := by
    rw [IsHermitian, hH]
    simp only [conjTranspose_mul, conjTranspose_conjTranspose, hD.eq, Matrix.mul_assoc]
  have hform : ∀ x : Fin p → ℂ, star x ⬝ᵥ ((R * Rᴴ)⁻¹ * D * (R * Rᴴ)⁻¹) *ᵥ x =
      star (R⁻¹ *ᵥ x) ⬝ᵥ H *ᵥ (R⁻¹ *ᵥ x) := fun x => by
    rw [star_mulVec, ← dotProduct_mulVec, mulVec_mulVec, mulVec_mulVec, hSi, hH]
    congr 2
    simp only [Matrix.mul_assoc]
  have htr : ((R * Rᴴ)⁻¹ * D).trace = H.trace := by
    rw [hSi, hH, Matrix.mul_assoc, trace_mul_comm]
  have htr2 : ((R * Rᴴ)⁻¹ * D * ((R * Rᴴ)⁻¹ * D)).trace = (H * H).trace := by
    rw [hSi, hH]
    have e1 : R⁻¹ᴴ * R⁻¹ * D * (R⁻¹ᴴ * R⁻¹ * D) = R⁻¹ᴴ * (R⁻¹ * D * (R⁻¹ᴴ * R⁻¹ * D)) := by
      simp only [Matrix.mul_assoc]
    rw [e1, trace_mul_comm]
    simp only [Matrix.mul_assoc]
  have hq : ∀ x, qf (R * Rᴴ) x = sqn (R⁻¹ *ᵥ x) := fun x => qf_factor hR x
  have hm : Measurable fun x : Fin p → ℂ => R⁻¹ *ᵥ x :=
    (Continuous.matrix_mulVec continuous_const continuous_id).measurable
  set ν := μ.map fun x => R⁻¹ *ᵥ x with hν
  have hEν : EllipticalLaw ν (1 : Matrix (Fin p) (Fin p) ℂ) := by
    intro V hV
    rw [Matrix.mul_one] at hV
    have hmV : Measurable fun x : Fin p → ℂ => V *ᵥ x :=
      (Continuous.matrix_mulVec continuous_const continuous_id).measurable
    have hmT : Measurable fun x : Fin p → ℂ => (R * V * R⁻¹) *ᵥ x :=
      (Continuous.matrix_mulVec continuous_const continuous_id).measurable
    have hT := hE (R * V * R⁻¹) (by
      rw [conjTranspose_mul, conjTranspose_mul]
      calc R * V * R⁻¹ * (R * Rᴴ) * (R⁻¹ᴴ * (Vᴴ * Rᴴ))
          = R * V * (R⁻¹ * R) * (Rᴴ * R⁻¹ᴴ) * (Vᴴ * Rᴴ) := by simp only [Matrix.mul_assoc]
        _ = R * (V * Vᴴ) * Rᴴ := by
          rw [hi1, hi3, Matrix.mul_one, Matrix.mul_one]; simp only [Matrix.mul_assoc]
        _ = R * Rᴴ := by rw [hV, Matrix.mul_one])
    rw [hν, Measure.map_map hmV hm]
    conv_rhs => rw [← hT, Measure.map_map hm hmT]
    congr 1
    funext x
    simp only [Function.comp_apply, mulVec_mulVec, ← Matrix.mul_assoc, hi1, Matrix.one_mul]
  have hint : ∀ G : (Fin p → ℂ) → ℝ, Measurable G →
      (∫ y, G y ∂ν = ∫ x, G (R⁻¹ *ᵥ x) ∂μ) ∧ (Integrable G ν ↔ Integrable (fun x => G (R⁻¹ *ᵥ x)) μ) :=
    fun G hG => ⟨integral_map hm.aemeasurable hG.aestronglyMeasurable,
      integrable_map_measure hG.aestronglyMeasurable hm.aemeasurable⟩
  have hws : Measurable fun y : Fin p → ℂ => w (sqn y) := hw.comp sqn_measurable
  have hfm : Measurable fun y : Fin p → ℂ => (star y ⬝ᵥ H *ᵥ y).re := by
    refine Continuous.measurable ?_
    simp only [dotProduct, mulVec, Pi.star_apply]
    fun_prop
  simp only [hform, hq, htr, htr2]
  refine ⟨?_, fun hi => ?_, fun hi => ?_⟩
  · obtain ⟨C, h0, hC⟩ := herm_form_le H hHh
    exact ⟨C, h0, fun x => hC _⟩
  · have h := unitary_forms hEν hw hHh ((hint _ (hws.mul sqn_measurable)).2.2 hi)
    rwa [(hint (fun y => w (sqn y) * (star y ⬝ᵥ H *ᵥ y).re) (hws.mul hfm)).1,
      (hint (fun y => w (sqn y) * sqn y) (hws.mul sqn_measurable)).1] at h
  · have h := unitary_forms_sq hEν hw hHh ((hint _ (hws.mul (sqn_measurable.pow_const 2))).2.2 hi)
    rwa [(hint (fun y => w (sqn y) * (star y ⬝ᵥ H *ᵥ y).re ^ 2) (hws.mul (hfm.pow_const 2))).1,
      (hint (fun y => w (sqn y) * sqn y ^ 2) (hws.mul (sqn_measurable.pow_const 2))).1] at h

end Elliptical

/-! ## The t law -/

/-- The mean of `(q / (ν + q))²` under the radial t density. -/
theorem t_u2 {ν : ℝ} (hν : 0 < ν) (d : ℕ) :
    ∫ w : Fin d → ℝ, gT ν d (w ⬝ᵥ w) * ((w ⬝ᵥ w) / (ν + w ⬝ᵥ w)) ^ 2 =
      d * (d + 2) / ((ν + d) * (ν + d + 2)) := by
  have hα : 0 < (ν + d) / 2 := by positivity
  obtain ⟨h1, h2⟩ := mixture (d := d) (φ := fun _ => 1) (C := √Real.pi ^ d) (β := (d : ℝ) / 2)
    (α := (ν + d) / 2 + 1 + 1)
    (fun _ => zero_le_one) measurable_const hν (by linarith) (by linarith) (fun b hb => by
      simp only [one_mul]
      exact ⟨kernel_integrable hb, by rw [kernel_integral, sqrt_div_pow hb]⟩)
  simp only [one_mul] at h1 h2
  obtain ⟨hu, hu'⟩ := t_u hν d
  have hg := gT_mass hν d
  set K : ℝ := Real.Gamma ((ν + d) / 2) / (Real.Gamma (ν / 2) * √(Real.pi * ν) ^ d) with hK
  have e : ∀ w : Fin d → ℝ, gT ν d (w ⬝ᵥ w) * ((w ⬝ᵥ w) / (ν + w ⬝ᵥ w)) ^ 2 =
      2 * (gT ν d (w ⬝ᵥ w) * ((w ⬝ᵥ w) / (ν + w ⬝ᵥ w))) + (-1) * gT ν d (w ⬝ᵥ w) +
        K * (1 + (w ⬝ᵥ w) / ν) ^ (-((ν + d) / 2 + 1 + 1)) := fun w => by
    have h0 := dot_self_nonneg' w
    have h1 : 0 < 1 + (w ⬝ᵥ w) / ν := by positivity
    have h2 : ν + w ⬝ᵥ w = ν * (1 + (w ⬝ᵥ w) / ν) := by field_simp
    rw [neg_add, neg_add, Real.rpow_add h1, Real.rpow_add h1, Real.rpow_neg_one, gT, ← hK, h2]
    generalize hx : (1 + (w ⬝ᵥ w) / ν) ^ (-((ν + d) / 2)) = x
    have h3 : w ⬝ᵥ w = ν * ((1 + (w ⬝ᵥ w) / ν) - 1) := by field_simp; ring
    generalize 1 + (w ⬝ᵥ w) / ν = y at h1 h3
    rw [h3]
    field_simp
    ring
  simp only [e]
  rw [integral_add3 (hu.const_mul _) (hg.int.const_mul _) (h1.const_mul _), integral_const_mul,
    integral_const_mul, integral_const_mul, hu', hg.mass, h2]
  have e2 : (ν + d) / 2 + 1 + 1 - (d : ℝ) / 2 = ν / 2 + 1 + 1 := by ring
  rw [e2, Real.Gamma_add_one (by positivity), Real.Gamma_add_one (by positivity),
    Real.Gamma_add_one (by positivity), Real.Gamma_add_one (by positivity), hK, sqrt_mul_pow hν]
  have := Real.Gamma_pos_of_pos hα
  have := Real.Gamma_pos_of_pos (half_pos hν)
  have := Real.rpow_pos_of_pos hν ((d : ℝ) / 2)
  have : 0 < √Real.pi ^ d := by positivity
  field_simp
  ring

theorem t_mean_u2 {ν : ℝ} (hν : 0 < ν) {d : ℕ} {S : Matrix (Fin d) (Fin d) ℝ} (hS : S.PosDef) :
    ∫ x, ((x ⬝ᵥ S⁻¹ *ᵥ x) / (ν + x ⬝ᵥ S⁻¹ *ᵥ x)) ^ 2 ∂lawOf (ell (gT ν d) 0 S) =
      d * (d + 2) / ((ν + d) * (ν + d + 2)) := by
  obtain ⟨A, hA, hI⟩ := ell_integral (F := ℝ) (m := 0) (gT_mass hν d) hS
  rw [(hI _).2, ← t_u2 hν d]
  have hd : IsUnit A.det := by
    rw [isUnit_iff_ne_zero]; intro h
    have := hS.det_pos
    rw [← hA, det_mul, h, zero_mul] at this
    exact lt_irrefl _ this
  have hut : IsUnit Aᵀ.det := by rwa [det_transpose]
  refine integral_congr_ae (Eventually.of_forall fun w => ?_)
  have hq : (A *ᵥ w) ⬝ᵥ S⁻¹ *ᵥ (A *ᵥ w) = w ⬝ᵥ w := by
    rw [← hA, Matrix.mul_inv_rev, mulVec_mulVec, Matrix.mul_assoc, nonsing_inv_mul _ hd, mul_one,
      ← vecMul_transpose, ← dotProduct_mulVec, mulVec_mulVec, mul_nonsing_inv _ hut, one_mulVec]
  simp only [zero_add, hq, smul_eq_mul]

theorem cplxT_u2 {p : ℕ} {df : ℝ} (hdf : 0 < df) {S : Matrix (Fin p) (Fin p) ℂ} (hS : S.PosDef) :
    ∫ x, (qf S x / (df / 2 + qf S x)) ^ 2 ∂lawOf (fun x => Real.exp (ctLogDensity df 0 S x)) =
      p * (p + 1) / ((df / 2 + p) * (df / 2 + p + 1)) := by
  have hz : halves (0 : Fin p → ℂ) = 0 := by
    refine (zEquiv p).injective ?_
    change zOf (halves 0) = zOf 0
    rw [zOf_halves]
    funext j
    simp [zOf]
    rfl
  have hmeas : Measurable fun x : Fin p → ℂ => (qf S x / (df / 2 + qf S x)) ^ 2 := by
    have := (continuous_qf S).measurable
    fun_prop
  rw [← lawOf_zOf, exp_ct_zOf hdf 0 hS, hz,
    integral_map (zOf_preserving p).measurable.aemeasurable hmeas.aestronglyMeasurable]
  have := t_mean_u2 hdf ((realify_posDef S).2 hS)
  have e : ((p + p : ℕ) : ℝ) * ((p + p : ℕ) + 2) / ((df + (p + p : ℕ)) * (df + (p + p : ℕ) + 2)) =
      p * (p + 1) / ((df / 2 + p) * (df / 2 + p + 1)) := by
    push_cast
    have h1 : (0 : ℝ) < df / 2 + p := by positivity
    have h2 : df + ((p : ℝ) + p) = 2 * (df / 2 + p) := by ring
    rw [h2]
    field_simp
    ring
  rw [e] at this
  rw [← this]
  refine integral_congr_ae (Eventually.of_forall fun w => ?_)
  simp only [quad_realify_inv hS, qf_cplx]
  have : df + 2 * (star (zOf w) ⬝ᵥ S⁻¹ *ᵥ zOf w).re =
    2 * (df / 2 + (star (zOf w) ⬝ᵥ S⁻¹ *ᵥ zOf w).re) := by ring
  rw [this, mul_div_mul_left _ _ two_ne_zero]

/-! ## The score of the complex t law -/
section Score
variable {p : ℕ}

theorem CurveDeriv.inv_at {n : ℕ} {c : ℝ → Matrix (Fin n) (Fin n) ℂ} {c' : Matrix (Fin n) (Fin n) ℂ}
    {t : ℝ} (hc : CurveDeriv c c' t) (hu : IsUnit (c t).det) :
    CurveDeriv (fun s => (c s)⁻¹) (-((c t)⁻¹ * c' * (c t)⁻¹)) t := by
  classical
  have hcont : ContinuousAt (fun s => (c s).det) t := hc.det.continuousAt
  have hev : ∀ᶠ s in 𝓝 t, (c s).det ≠ 0 :=
    hcont.eventually_ne (isUnit_iff_ne_zero.1 hu)
  set c2 : ℝ → Matrix (Fin n) (Fin n) ℂ := fun s => if (c s).det ≠ 0 then c s else c t with hc2
  have he : ∀ᶠ s in 𝓝 t, c2 s = c s := hev.mono fun s hs => if_pos hs
  have h2t : c2 t = c t := if_pos (isUnit_iff_ne_zero.1 hu)
  have hd : CurveDeriv c2 c' t := fun i j =>
    (hc i j).congr_of_eventuallyEq (he.mono fun s hs => by simp only [hs])
  have h2 := hd.inv (fun s => by
    rw [isUnit_iff_ne_zero]
    simp only [hc2]
    split_ifs with h
    · exact h
    · exact isUnit_iff_ne_zero.1 hu)
  rw [h2t] at h2
  exact fun i j => (h2 i j).congr_of_eventuallyEq (he.mono fun s hs => by simp only [hs])

/-- The score of the centred complex t law at `z` in direction `D`. -/
noncomputable def ctScore (df : ℝ) (S D : Matrix (Fin p) (Fin p) ℂ) (z : Fin p → ℂ) : ℝ :=
  -(S⁻¹ * D).trace.re +
    (df / 2 + p) * ((df / 2 + qf S z)⁻¹ * (star z ⬝ᵥ (S⁻¹ * D * S⁻¹) *ᵥ z).re)

theorem ctScore_deriv {df : ℝ} (hdf : 0 < df) {c : ℝ → Matrix (Fin p) (Fin p) ℂ}
    {D : Matrix (Fin p) (Fin p) ℂ} (hc : (c 0).PosDef) (hd : CurveDeriv c D 0)
    (z : Fin p → ℂ) :
    HasDerivAt (fun t => ctLogDensity df 0 (c t) z) (ctScore df (c 0) D z) 0 := by
  have hu := (isUnit_iff_isUnit_det _).1 hc.isUnit
  have hq0 := qf_nonneg hc z
  have hdet := hc.det_pos
  have hdre : 0 < (c 0).det.re := (Complex.pos_iff.1 hdet).1
  have hdim : (c 0).det.im = 0 := (Complex.pos_iff.1 hdet).2.symm
  have h1 : HasDerivAt (fun t => (c t).det.re) ((c 0).det.re * ((c 0)⁻¹ * D).trace.re) 0 := by
    have h := (hd.det_of_isUnit hu)
    have h2 := (Complex.reCLM.hasFDerivAt.comp_hasDerivAt 0 h)
    refine h2.congr_deriv ?_
    rw [Complex.reCLM_apply, Complex.mul_re, hdim, zero_mul, sub_zero]
  have h2 : HasDerivAt (fun t => (star z ⬝ᵥ (c t)⁻¹ *ᵥ z).re)
      (-(star z ⬝ᵥ ((c 0)⁻¹ * D * (c 0)⁻¹) *ᵥ z).re) 0 := by
    have hi := hd.inv_at hu
    have h3 : HasDerivAt (fun t => star z ⬝ᵥ (c t)⁻¹ *ᵥ z)
        (∑ i, star z i * ∑ j, (-((c 0)⁻¹ * D * (c 0)⁻¹)) i j * z j) 0 :=
      HasDerivAt.fun_sum fun i _ => (HasDerivAt.fun_sum fun j _ => (hi i j).mul_const (z j)).const_mul _
    have h4 := (Complex.reCLM.hasFDerivAt.comp_hasDerivAt 0 h3)
    refine h4.congr_deriv ?_
    rw [Complex.reCLM_apply, ← Complex.neg_re, ← dotProduct_neg, ← neg_mulVec]
    rfl
  have hpos : 0 < 1 + 2 * (star z ⬝ᵥ (c 0)⁻¹ *ᵥ z).re / df := by
    have : 0 ≤ (star z ⬝ᵥ (c 0)⁻¹ *ᵥ z).re := hq0
    positivity
  have h5 := (((h2.const_mul 2).div_const df).const_add 1).log hpos.ne'
  have h6 := ((h1.log hdre.ne').const_sub (Real.log (Real.Gamma (df / 2 + p)) -
    Real.log (Real.Gamma (df / 2)) - p * Real.log (Real.pi * df / 2))).sub
    (h5.const_mul (df / 2 + p))
  unfold ctLogDensity
  simp only [sub_zero]
  refine h6.congr_deriv ?_
  unfold ctScore
  rw [mul_div_cancel_left₀ _ hdre.ne', qf_cplx]
  have hne : 0 < df / 2 + (star z ⬝ᵥ (c 0)⁻¹ *ᵥ z).re := by
    have : 0 ≤ (star z ⬝ᵥ (c 0)⁻¹ *ᵥ z).re := hq0
    positivity
  have e : 1 + 2 * (star z ⬝ᵥ (c 0)⁻¹ *ᵥ z).re / df =
      2 / df * (df / 2 + (star z ⬝ᵥ (c 0)⁻¹ *ᵥ z).re) := by field_simp
  rw [e]
  generalize (star z ⬝ᵥ (c 0)⁻¹ *ᵥ z).re = q at hne
  field_simp
  ring

theorem ctScore_measurable (df : ℝ) (S D : Matrix (Fin p) (Fin p) ℂ) : Measurable (ctScore df S D) := by
  have h := (continuous_qf S).measurable
  have hfm : Measurable fun z : Fin p → ℂ => (star z ⬝ᵥ (S⁻¹ * D * S⁻¹) *ᵥ z).re := by
    refine Continuous.measurable ?_
    simp only [dotProduct, mulVec, Pi.star_apply]
    fun_prop
  unfold ctScore
  fun_prop

theorem ctScore_add (df : ℝ) (S D E : Matrix (Fin p) (Fin p) ℂ) (z : Fin p → ℂ) :
    ctScore df S (D + E) z = ctScore df S D z + ctScore df S E z := by
  unfold ctScore
  rw [Matrix.mul_add, Matrix.add_mul, trace_add, add_mulVec, dotProduct_add, Complex.add_re,
    Complex.add_re]
  ring

theorem ctScore_sub (df : ℝ) (S D E : Matrix (Fin p) (Fin p) ℂ) (z : Fin p → ℂ) :
    ctScore df S (D - E) z = ctScore df S D z - ctScore df S E z := by
  unfold ctScore
  rw [Matrix.mul_sub, Matrix.sub_mul, trace_sub, sub_mulVec, dotProduct_sub, Complex.sub_re,
    Complex.sub_re]
  ring

theorem ctScore_bound {df : ℝ} (hdf : 0 < df) {S : Matrix (Fin p) (Fin p) ℂ} (hS : S.PosDef)
    {D : Matrix (Fin p) (Fin p) ℂ} (hD : D.IsHermitian) :
    ∃ C : ℝ, 0 ≤ C ∧ ∀ z, |ctScore df S D z| ≤ C := by
  obtain ⟨⟨C, h0, hC⟩, -, -⟩ := elliptical_forms (w := fun _ => 1) hS (cplxT_elliptical df hS)
    measurable_const hD
  refine ⟨|(S⁻¹ * D).trace.re| + (df / 2 + p) * C, by positivity, fun z => ?_⟩
  unfold ctScore
  refine (abs_add_le _ _).trans ?_
  rw [abs_neg]
  have hq := qf_nonneg hS z
  have hk : 0 < df / 2 + qf S z := by positivity
  refine add_le_add le_rfl ?_
  rw [abs_mul, abs_of_nonneg (by positivity : (0 : ℝ) ≤ df / 2 + p), abs_mul,
    abs_of_pos (inv_pos.2 hk)]
  refine mul_le_mul_of_nonneg_left ?_ (by positivity)
  rw [inv_mul_le_iff₀ hk]
  refine (hC z).trans ?_
  nlinarith

theorem ctScore_integrable {df : ℝ} (hdf : 0 < df) {S : Matrix (Fin p) (Fin p) ℂ} (hS : S.PosDef)
    {D E : Matrix (Fin p) (Fin p) ℂ} (hD : D.IsHermitian) (hE : E.IsHermitian) :
    Integrable (fun z => ctScore df S D z * ctScore df S E z)
      (lawOf fun z => Real.exp (ctLogDensity df 0 S z)) := by
  have := cplxT_prob hdf hS
  obtain ⟨C, h0, hC⟩ := ctScore_bound hdf hS hD
  obtain ⟨C', h0', hC'⟩ := ctScore_bound hdf hS hE
  refine (integrable_const (C * C')).mono'
    ((ctScore_measurable df S D).mul (ctScore_measurable df S E)).aestronglyMeasurable
    (Eventually.of_forall fun z => ?_)
  rw [norm_mul]
  exact mul_le_mul (hC z) (hC' z) (norm_nonneg _) h0

/-- The mean square of the score. -/
theorem ctScore_sq {df : ℝ} (hdf : 0 < df) (hp : 0 < p) {S : Matrix (Fin p) (Fin p) ℂ} (hS : S.PosDef)
    {D : Matrix (Fin p) (Fin p) ℂ} (hD : D.IsHermitian) :
    ∫ z, ctScore df S D z * ctScore df S D z ∂lawOf (fun z => Real.exp (ctLogDensity df 0 S z)) =
      (df / 2 + p) / (df / 2 + p + 1) * (S⁻¹ * D * (S⁻¹ * D)).trace.re +
        ((df / 2 + p) / (df / 2 + p + 1) - 1) * (S⁻¹ * D).trace.re ^ 2 := by
  have hprob := cplxT_prob hdf hS
  have hell := cplxT_elliptical df hS
  set μ := lawOf fun z => Real.exp (ctLogDensity df 0 S z) with hμ
  have hqm := (continuous_qf S).measurable
  have hw1 : Measurable fun q : ℝ => (df / 2 + q)⁻¹ := by fun_prop
  have hw2 : Measurable fun q : ℝ => ((df / 2 + q)⁻¹) ^ 2 := by fun_prop
  have hfm : Measurable fun z : Fin p → ℂ => (star z ⬝ᵥ (S⁻¹ * D * S⁻¹) *ᵥ z).re := by
    refine Continuous.measurable ?_
    simp only [dotProduct, mulVec, Pi.star_apply]
    fun_prop
  obtain ⟨⟨C, hC0, hC⟩, f1, -⟩ := elliptical_forms hS hell hw1 hD
  obtain ⟨-, -, f2⟩ := elliptical_forms hS hell hw2 hD
  have hb : ∀ x, 0 ≤ (df / 2 + qf S x)⁻¹ * qf S x ∧ (df / 2 + qf S x)⁻¹ * qf S x ≤ 1 := fun x => by
    have hq := qf_nonneg hS x
    have hk : 0 < df / 2 + qf S x := by positivity
    refine ⟨by positivity, ?_⟩
    rw [inv_mul_le_iff₀ hk]; linarith
  have i1 : Integrable (fun x => (df / 2 + qf S x)⁻¹ * qf S x) μ :=
    (integrable_const (1 : ℝ)).mono' (by fun_prop) (Eventually.of_forall fun x => by
      rw [Real.norm_of_nonneg (hb x).1]; exact (hb x).2)
  have i2 : Integrable (fun x => ((df / 2 + qf S x)⁻¹) ^ 2 * qf S x ^ 2) μ :=
    (integrable_const (1 : ℝ)).mono' (by fun_prop) (Eventually.of_forall fun x => by
      rw [← mul_pow, Real.norm_of_nonneg (by positivity)]
      exact pow_le_one₀ (hb x).1 (hb x).2)
  have g1 := f1 i1
  have g2 := f2 i2
  have v1 : ∫ x, (df / 2 + qf S x)⁻¹ * qf S x ∂μ = p / (df / 2 + p) := by
    rw [← cplxT_u hdf hS]
    exact integral_congr_ae (Eventually.of_forall fun x => (div_eq_inv_mul (qf S x) _).symm)
  have v2 : ∫ x, ((df / 2 + qf S x)⁻¹) ^ 2 * qf S x ^ 2 ∂μ =
      p * (p + 1) / ((df / 2 + p) * (df / 2 + p + 1)) := by
    rw [← cplxT_u2 hdf hS]
    exact integral_congr_ae (Eventually.of_forall fun x => by
      simp only; ring)
  rw [v1] at g1
  rw [v2] at g2
  have hfb : ∀ x, |(df / 2 + qf S x)⁻¹ * (star x ⬝ᵥ (S⁻¹ * D * S⁻¹) *ᵥ x).re| ≤ C := fun x => by
    have hq := qf_nonneg hS x
    have hk : 0 < df / 2 + qf S x := by positivity
    rw [abs_mul, abs_of_pos (inv_pos.2 hk), inv_mul_le_iff₀ hk]
    refine (hC x).trans ?_
    nlinarith
  have j1 : Integrable (fun x => (df / 2 + qf S x)⁻¹ * (star x ⬝ᵥ (S⁻¹ * D * S⁻¹) *ᵥ x).re) μ :=
    (integrable_const C).mono' (by fun_prop) (Eventually.of_forall hfb)
  have j2 : Integrable (fun x => ((df / 2 + qf S x)⁻¹) ^ 2 *
      (star x ⬝ᵥ (S⁻¹ * D * S⁻¹) *ᵥ x).re ^ 2) μ :=
    (integrable_const (C ^ 2)).mono' (by fun_prop) (Eventually.of_forall fun x => by
      rw [← mul_pow, Real.norm_of_nonneg (sq_nonneg _), ← sq_abs]
      exact pow_le_pow_left₀ (abs_nonneg _) (hfb x) 2)
  have e : ∀ z, ctScore df S D z * ctScore df S D z = (S⁻¹ * D).trace.re ^ 2 +
      (-2 * (S⁻¹ * D).trace.re * (df / 2 + p)) *
        ((df / 2 + qf S z)⁻¹ * (star z ⬝ᵥ (S⁻¹ * D * S⁻¹) *ᵥ z).re) +
      (df / 2 + p) ^ 2 * (((df / 2 + qf S z)⁻¹) ^ 2 * (star z ⬝ᵥ (S⁻¹ * D * S⁻¹) *ᵥ z).re ^ 2) :=
    fun z => by unfold ctScore; ring
  simp only [e]
  rw [integral_add3 (integrable_const _) (j1.const_mul _) (j2.const_mul _), integral_const_mul,
    integral_const_mul, integral_const, probReal_univ, one_smul]
  have hpR : (0 : ℝ) < p := by exact_mod_cast hp
  have hk : 0 < df / 2 + p := by positivity
  set T := (S⁻¹ * D).trace.re
  set Q := (S⁻¹ * D * (S⁻¹ * D)).trace.re
  set I1 := ∫ x, (df / 2 + qf S x)⁻¹ * (star x ⬝ᵥ (S⁻¹ * D * S⁻¹) *ᵥ x).re ∂μ
  set I2 := ∫ x, ((df / 2 + qf S x)⁻¹) ^ 2 * (star x ⬝ᵥ (S⁻¹ * D * S⁻¹) *ᵥ x).re ^ 2 ∂μ
  have e1 : I1 = T / (df / 2 + p) := by
    have : (p : ℝ) * I1 = p * (T / (df / 2 + p)) := by rw [g1]; ring
    exact mul_left_cancel₀ hpR.ne' this
  have e2 : I2 = (Q + T ^ 2) / ((df / 2 + p) * (df / 2 + p + 1)) := by
    have : (p : ℝ) * (p + 1) * I2 = p * (p + 1) * ((Q + T ^ 2) / ((df / 2 + p) * (df / 2 + p + 1))) := by
      rw [g2]; ring
    exact mul_left_cancel₀ (by positivity) this
  rw [e1, e2]
  field_simp
  ring

/-- The covariance of the scores in two directions. -/
theorem ctScore_mul {df : ℝ} (hdf : 0 < df) (hp : 0 < p) {S : Matrix (Fin p) (Fin p) ℂ}
    (hS : S.PosDef) {D E : Matrix (Fin p) (Fin p) ℂ} (hD : D.IsHermitian) (hE : E.IsHermitian) :
    ∫ z, ctScore df S D z * ctScore df S E z ∂lawOf (fun z => Real.exp (ctLogDensity df 0 S z)) =
      (df / 2 + p) / (df / 2 + p + 1) * (S⁻¹ * D * (S⁻¹ * E)).trace.re +
        ((df / 2 + p) / (df / 2 + p + 1) - 1) * ((S⁻¹ * D).trace.re * (S⁻¹ * E).trace.re) := by
  have h1 := ctScore_sq hdf hp hS (hD.add hE)
  have h2 := ctScore_sq hdf hp hS (hD.sub hE)
  have h3 : ∫ z, ctScore df S D z * ctScore df S E z
        ∂lawOf (fun z => Real.exp (ctLogDensity df 0 S z)) =
      1 / 4 * (∫ z, ctScore df S (D + E) z * ctScore df S (D + E) z
        ∂lawOf (fun z => Real.exp (ctLogDensity df 0 S z)) -
      ∫ z, ctScore df S (D - E) z * ctScore df S (D - E) z
        ∂lawOf (fun z => Real.exp (ctLogDensity df 0 S z))) := by
    rw [← integral_sub (ctScore_integrable hdf hS (hD.add hE) (hD.add hE))
      (ctScore_integrable hdf hS (hD.sub hE) (hD.sub hE)), ← integral_const_mul]
    refine integral_congr_ae (Eventually.of_forall fun z => ?_)
    simp only [ctScore_add, ctScore_sub]
    ring
  rw [h3, h1, h2]
  have hc : (S⁻¹ * E * (S⁻¹ * D)).trace.re = (S⁻¹ * D * (S⁻¹ * E)).trace.re := by
    rw [trace_mul_comm]
  simp only [Matrix.mul_add, Matrix.add_mul, Matrix.mul_sub, Matrix.sub_mul, trace_add, trace_sub,
    Complex.add_re, Complex.sub_re]
  rw [hc]
  ring

end Score
end RS
