import Verif.Lemmas.Fisher
import Verif.Lemmas.TylerGrad

/-! Weighted second and fourth moments of real laws which no orthogonal matrix changes, and the score
of the real t law. -/
set_option autoImplicit false

namespace RS.FR
open Matrix ComplexOrder Filter Topology MeasureTheory ProbabilityTheory

/-! ## Laws invariant under orthogonal matrices -/
section Unitary
variable {p : ℕ} {ν : Measure (Fin p → ℝ)}

/-- `∑_j |y_j|²` -/
noncomputable def sqn (y : Fin p → ℝ) : ℝ := ∑ j, ‖y j‖ ^ 2

theorem sqn_eq (y : Fin p → ℝ) : sqn y = qf (1 : Matrix (Fin p) (Fin p) ℝ) y := (qf_one y).symm

theorem sqn_nonneg (y : Fin p → ℝ) : 0 ≤ sqn y := Finset.sum_nonneg fun _ _ => sq_nonneg _

theorem coord_le_sqn (y : Fin p → ℝ) (i : Fin p) : ‖y i‖ ^ 2 ≤ sqn y :=
  Finset.single_le_sum (f := fun j => ‖y j‖ ^ 2) (fun _ _ => sq_nonneg _) (Finset.mem_univ i)

theorem sqn_measurable : Measurable (sqn (p := p)) := by
  unfold sqn; fun_prop

theorem unitary_integral (hE : EllipticalLaw ν (1 : Matrix (Fin p) (Fin p) ℝ)) {w : ℝ → ℝ}
    (hw : Measurable w) {F : (Fin p → ℝ) → ℝ} (hF : Continuous F) {V : Matrix (Fin p) (Fin p) ℝ}
    (hV : V * Vᴴ = 1) :
    ∫ y, w (sqn y) * F (V *ᵥ y) ∂ν = ∫ y, w (sqn y) * F y ∂ν := by
  have h1 : V * 1 * Vᴴ = (1 : Matrix (Fin p) (Fin p) ℝ) := by rw [Matrix.mul_one, hV]
  have hm : Measurable fun x : Fin p → ℝ => V *ᵥ x :=
    (Continuous.matrix_mulVec continuous_const continuous_id).measurable
  have h2 := integral_map (μ := ν) hm.aemeasurable (f := fun y => w (sqn y) * F y)
    ((hw.comp sqn_measurable).mul hF.measurable).aestronglyMeasurable
  rw [hE V h1] at h2
  rw [h2]
  refine integral_congr_ae (Eventually.of_forall fun y => ?_)
  simp only [sqn_eq, fixing_qf PosDef.one h1]

/-- An orthogonal matrix whose `i`-th row is `-(3/5) e_i - (4/5) ω e_j`. -/
theorem exists_reflection {i j : Fin p} (hij : i ≠ j) {om : ℝ} (hom : om * om = 1) :
    ∃ V : Matrix (Fin p) (Fin p) ℝ, V * Vᴴ = 1 ∧
      ∀ y : Fin p → ℝ, (V *ᵥ y) i = -(3 / 5) * y i - 4 / 5 * (om * y j) := by
  set u : Fin p → ℝ := Pi.single i 2 + Pi.single j om with hu
  have hui : u i = 2 := by simp [hu, hij]
  have hdot : ∀ y : Fin p → ℝ, u ⬝ᵥ y = 2 * y i + om * y j := fun y => by
    rw [hu, add_dotProduct, single_dotProduct, single_dotProduct]
  have huj : u j = om := by simp [hu, hij.symm]
  have hnorm : u ⬝ᵥ u = 5 := by
    rw [hdot, hui, huj, hom]; norm_num
  set K := vecMulVec u u with hK
  have hKK : K * K = (5 : ℝ) • K := by
    rw [hK, vecMulVec_mul_vecMulVec, hnorm]
    ext a b
    simp [vecMulVec_apply]; ring
  have hKh : Kᴴ = K := by
    ext a b
    simp [hK, conjTranspose_apply, vecMulVec_apply, mul_comm]
  refine ⟨1 - (2 / 5 : ℝ) • K, ?_, fun y => ?_⟩
  · rw [conjTranspose_sub, conjTranspose_one, conjTranspose_smul, hKh, star_trivial, Matrix.sub_mul,
      Matrix.one_mul, Matrix.mul_sub, Matrix.mul_one, Matrix.smul_mul, Matrix.mul_smul, hKK]
    module
  · rw [Matrix.sub_mulVec, one_mulVec, Matrix.smul_mulVec, hK, vecMulVec_mulVec]
    simp only [Pi.sub_apply, Pi.smul_apply, MulOpposite.smul_eq_mul_unop, MulOpposite.unop_op,
      smul_eq_mul, hui, hdot]
    ring

theorem reflected_sq (a b om : ℝ) (hom : om * om = 1) :
    ‖-(3 / 5) * a - 4 / 5 * (om * b)‖ ^ 2 =
      9 / 25 * ‖a‖ ^ 2 + 16 / 25 * ‖b‖ ^ 2 + 24 / 25 * (om * (a * b)) := by
  simp only [Real.norm_eq_abs, sq_abs]
  linear_combination (16 / 25 * b ^ 2) * hom

variable (hE : EllipticalLaw ν (1 : Matrix (Fin p) (Fin p) ℝ)) {w : ℝ → ℝ} (hw : Measurable w)
include hE hw

theorem unitary_second (hi : Integrable (fun y => w (sqn y) * sqn y) ν) :
    (∀ i, Integrable (fun y => w (sqn y) * ‖y i‖ ^ 2) ν) ∧
    ∀ i, (p : ℝ) * ∫ y, w (sqn y) * ‖y i‖ ^ 2 ∂ν = ∫ y, w (sqn y) * sqn y ∂ν := by
  have hI : ∀ i, Integrable (fun y => w (sqn y) * ‖y i‖ ^ 2) ν := fun i => by
    refine hi.norm.mono' ((hw.comp sqn_measurable).mul (by fun_prop)).aestronglyMeasurable
      (Eventually.of_forall fun y => ?_)
    rw [norm_mul, norm_mul, Real.norm_of_nonneg (sq_nonneg ‖y i‖), Real.norm_of_nonneg (sqn_nonneg y)]
    exact mul_le_mul_of_nonneg_left (coord_le_sqn y i) (norm_nonneg _)
  refine ⟨hI, fun i => ?_⟩
  have heq : ∀ j, ∫ y, w (sqn y) * ‖y j‖ ^ 2 ∂ν = ∫ y, w (sqn y) * ‖y i‖ ^ 2 ∂ν := by
    intro j
    by_cases hij : i = j
    · rw [hij]
    have hr : ∀ om : ℝ, om * om = 1 → ∫ y, w (sqn y) * (9 / 25 * ‖y i‖ ^ 2 + 16 / 25 * ‖y j‖ ^ 2 +
        24 / 25 * (om * (y i * y j))) ∂ν = ∫ y, w (sqn y) * ‖y i‖ ^ 2 ∂ν := by
      intro om hom
      obtain ⟨V, hV, hVi⟩ := exists_reflection hij hom
      rw [← unitary_integral hE hw (F := fun y => ‖y i‖ ^ 2) (by fun_prop) hV]
      simp only [hVi, reflected_sq _ _ _ hom]
    have hIr : ∀ om : ℝ, Integrable (fun y => w (sqn y) * (om * (y i * y j))) ν := by
      intro om
      refine (hi.norm.const_mul ‖om‖).mono' ((hw.comp sqn_measurable).mul
        (Continuous.measurable (by fun_prop))).aestronglyMeasurable
        (Eventually.of_forall fun y => ?_)
      have h1 : |(om * (y i * y j))| ≤ ‖om‖ * sqn y := by
        rw [← Real.norm_eq_abs, norm_mul, norm_mul]
        refine mul_le_mul_of_nonneg_left ?_ (norm_nonneg _)
        have := coord_le_sqn y i
        have := coord_le_sqn y j
        nlinarith [sq_nonneg (‖y i‖ - ‖y j‖)]
      rw [norm_mul, norm_mul (w _) (sqn y), Real.norm_of_nonneg (sqn_nonneg y), Real.norm_eq_abs (om * _)]
      calc ‖w (sqn y)‖ * |(om * (y i * y j))| ≤ ‖w (sqn y)‖ * (‖om‖ * sqn y) :=
            mul_le_mul_of_nonneg_left h1 (norm_nonneg _)
        _ = _ := by ring
    have hlin : ∀ om : ℝ, ∫ y, w (sqn y) * (9 / 25 * ‖y i‖ ^ 2 + 16 / 25 * ‖y j‖ ^ 2 +
        24 / 25 * (om * (y i * y j))) ∂ν =
        9 / 25 * ∫ y, w (sqn y) * ‖y i‖ ^ 2 ∂ν + 16 / 25 * ∫ y, w (sqn y) * ‖y j‖ ^ 2 ∂ν +
        24 / 25 * ∫ y, w (sqn y) * (om * (y i * y j)) ∂ν := fun om => by
      rw [← integral_const_mul, ← integral_const_mul, ← integral_const_mul,
        ← integral_add3 ((hI i).const_mul _) ((hI j).const_mul _) ((hIr om).const_mul _)]
      exact integral_congr_ae (Eventually.of_forall fun y => by ring)
    have h1 := hr 1 (by simp)
    have h2 := hr (-1) (by simp)
    rw [hlin] at h1 h2
    have h3 : ∫ y, w (sqn y) * ((-1 : ℝ) * (y i * y j)) ∂ν =
        -∫ y, w (sqn y) * ((1 : ℝ) * (y i * y j)) ∂ν := by
      rw [← integral_neg]
      exact integral_congr_ae (Eventually.of_forall fun y => by
        ring)
    rw [h3] at h2
    linarith
  have hsum : ∫ y, w (sqn y) * sqn y ∂ν = ∑ j, ∫ y, w (sqn y) * ‖y j‖ ^ 2 ∂ν := by
    rw [← integral_finsetSum _ fun j _ => hI j]
    exact integral_congr_ae (Eventually.of_forall fun y => by
      simp only [sqn, Finset.mul_sum])
  rw [hsum, Finset.sum_congr rfl fun j _ => heq j, Finset.sum_const, Finset.card_univ,
    Fintype.card_fin, nsmul_eq_mul]

omit hE in
theorem unitary_fourth_int {G : (Fin p → ℝ) → ℝ} (hG : Continuous G) {C : ℝ}
    (hb : ∀ y, |G y| ≤ C * sqn y ^ 2) (hi : Integrable (fun y => w (sqn y) * sqn y ^ 2) ν) :
    Integrable (fun y => w (sqn y) * G y) ν := by
  refine (hi.norm.const_mul C).mono' ((hw.comp sqn_measurable).mul hG.measurable).aestronglyMeasurable
    (Eventually.of_forall fun y => ?_)
  rw [norm_mul, norm_mul, Real.norm_of_nonneg (sq_nonneg (sqn y)), Real.norm_eq_abs (G y)]
  calc ‖w (sqn y)‖ * |G y| ≤ ‖w (sqn y)‖ * (C * sqn y ^ 2) :=
        mul_le_mul_of_nonneg_left (hb y) (norm_nonneg _)
    _ = _ := by ring

/-- The weighted fourth moments: those with twice the same coordinate are all equal, and three times the
others. -/
theorem unitary_fourth (hi : Integrable (fun y => w (sqn y) * sqn y ^ 2) ν) :
    (∀ i j, Integrable (fun y => w (sqn y) * (‖y i‖ ^ 2 * ‖y j‖ ^ 2)) ν) ∧
    ∀ i j k, i ≠ j → ∫ y, w (sqn y) * (‖y k‖ ^ 2 * ‖y k‖ ^ 2) ∂ν =
      3 * ∫ y, w (sqn y) * (‖y i‖ ^ 2 * ‖y j‖ ^ 2) ∂ν := by
  have hI : ∀ i j, Integrable (fun y => w (sqn y) * (‖y i‖ ^ 2 * ‖y j‖ ^ 2)) ν := fun i j =>
    unitary_fourth_int hw (C := 1) (by fun_prop) (fun y => by
      rw [abs_of_nonneg (by positivity), one_mul, sq (sqn y)]
      exact mul_le_mul (coord_le_sqn y i) (coord_le_sqn y j) (sq_nonneg _) (sqn_nonneg y)) hi
  refine ⟨hI, ?_⟩
  set m : Fin p → Fin p → ℝ := fun i j => ∫ y, w (sqn y) * (‖y i‖ ^ 2 * ‖y j‖ ^ 2) ∂ν with hm
  have hsym : ∀ i j, m i j = m j i := fun i j => by
    simp only [hm, mul_comm (‖(_ : Fin p → ℝ) i‖ ^ 2)]
  have hrel : ∀ i j, i ≠ j → (25 ^ 2 - 9 ^ 2) * m i i = 16 ^ 2 * m j j + 6 * (9 * 16) * m i j := by
    intro i j hij
    let G : ℝ → (Fin p → ℝ) → ℝ := fun om y =>
      (9 / 25 * ‖y i‖ ^ 2 + 16 / 25 * ‖y j‖ ^ 2 + 24 / 25 * (om * (y i * y j))) ^ 2
    have hGI : ∀ om : ℝ, om * om = 1 → Integrable (fun y => w (sqn y) * G om y) ν ∧
        ∫ y, w (sqn y) * G om y ∂ν = m i i := by
      intro om hom
      obtain ⟨V, hV, hVi⟩ := exists_reflection hij hom
      have hG : ∀ y, G om y = ‖(V *ᵥ y) i‖ ^ 2 * ‖(V *ᵥ y) i‖ ^ 2 := fun y => by
        simp only [G, hVi, reflected_sq _ _ _ hom]; ring
      refine ⟨unitary_fourth_int hw (C := 1) (by fun_prop) (fun y => ?_) hi, ?_⟩
      · have h1 : V * 1 * Vᴴ = (1 : Matrix (Fin p) (Fin p) ℝ) := by rw [Matrix.mul_one, hV]
        have h2 : sqn (V *ᵥ y) = sqn y := by simp only [sqn_eq, fixing_qf PosDef.one h1]
        rw [hG, abs_of_nonneg (by positivity), one_mul, sq (sqn y), ← h2]
        exact mul_le_mul (coord_le_sqn _ i) (coord_le_sqn _ i) (sq_nonneg _) (sqn_nonneg _)
      · simp only [hG]
        exact unitary_integral hE hw (F := fun y => ‖y i‖ ^ 2 * ‖y i‖ ^ 2) (by fun_prop) hV
    have g1 := hGI 1 (by simp)
    have g2 := hGI (-1) (by simp)
    have hsum : ∫ y, w (sqn y) * G 1 y ∂ν + ∫ y, w (sqn y) * G (-1) y ∂ν =
        2 * (9 / 25) ^ 2 * m i i + 2 * (16 / 25) ^ 2 * m j j +
          (4 * (9 / 25) * (16 / 25) + 2 * (24 / 25) ^ 2) * m i j := by
      simp only [hm]
      rw [← integral_add' g1.1 g2.1, ← integral_const_mul, ← integral_const_mul, ← integral_const_mul,
        ← integral_add3 ((hI i i).const_mul _) ((hI j j).const_mul _) ((hI i j).const_mul _)]
      refine integral_congr_ae (Eventually.of_forall fun y => ?_)
      simp only [Pi.add_apply, G, Real.norm_eq_abs, sq_abs]
      ring
    rw [g1.2, g2.2] at hsum
    linarith
  have hpair : ∀ i j, i ≠ j → m i i = m j j ∧ m i i = 3 * m i j := fun i j hij => by
    have h1 := hrel i j hij
    have h2 := hrel j i hij.symm
    rw [hsym j i] at h2
    constructor <;> linarith
  intro i j k hij
  change m k k = 3 * m i j
  by_cases hki : k = i
  · rw [hki]; exact (hpair i j hij).2
  · rw [(hpair k i hki).1]; exact (hpair i j hij).2

omit hE hw in
/-- quadratic forms in a basis of eigenvectors. -/
theorem herm_basis {H : Matrix (Fin p) (Fin p) ℝ} (hH : H.IsHermitian) :
    ∃ (V : Matrix (Fin p) (Fin p) ℝ) (l : Fin p → ℝ), V * Vᴴ = 1 ∧
      (∀ y : Fin p → ℝ, (star y ⬝ᵥ H *ᵥ y) = ∑ j, l j * ‖(V *ᵥ y) j‖ ^ 2) ∧
      H.trace = ∑ j, l j ∧ (H * H).trace = ∑ j, l j ^ 2 := by
  obtain ⟨U, l, hU, hsp⟩ : ∃ (U : Matrix (Fin p) (Fin p) ℝ) (l : Fin p → ℝ), Uᴴ * U = 1 ∧
      H = U * diagonal l * Uᴴ :=
    ⟨hH.eigenvectorUnitary, hH.eigenvalues,
      (Matrix.mem_unitaryGroup_iff').1 hH.eigenvectorUnitary.2, hH.spectral_theorem⟩
  refine ⟨Uᴴ, l, by rw [conjTranspose_conjTranspose, hU], fun y => ?_, ?_, ?_⟩
  · have h1 : star y ⬝ᵥ H *ᵥ y = star (Uᴴ *ᵥ y) ⬝ᵥ diagonal l *ᵥ (Uᴴ *ᵥ y) := by
      rw [hsp, ← mulVec_mulVec, ← mulVec_mulVec, dotProduct_mulVec (star y) U, star_mulVec,
        conjTranspose_conjTranspose]
    rw [h1]
    simp only [dotProduct, mulVec_diagonal, Pi.star_apply, star_trivial]
    refine Finset.sum_congr rfl fun j _ => ?_
    rw [Real.norm_eq_abs, sq_abs]
    ring
  · rw [hsp, Matrix.mul_assoc, trace_mul_comm, Matrix.mul_assoc, hU, Matrix.mul_one, trace_diagonal]
  · have : H * H = U * (diagonal l * diagonal l * Uᴴ) := by
      rw [hsp]
      calc U * diagonal l * Uᴴ * (U * diagonal l * Uᴴ)
          = U * diagonal l * (Uᴴ * U) * diagonal l * Uᴴ := by
            simp only [Matrix.mul_assoc]
        _ = _ := by rw [hU, Matrix.mul_one]; simp only [Matrix.mul_assoc]
    rw [this, trace_mul_comm, Matrix.mul_assoc, hU, Matrix.mul_one, diagonal_mul_diagonal,
      trace_diagonal]
    exact Finset.sum_congr rfl fun j _ => (sq _).symm

omit hE hw in
theorem herm_form_le (H : Matrix (Fin p) (Fin p) ℝ) (hH : H.IsHermitian) :
    ∃ C : ℝ, 0 ≤ C ∧ ∀ y : Fin p → ℝ, |(star y ⬝ᵥ H *ᵥ y)| ≤ C * sqn y := by
  obtain ⟨V, l, hV, hf, -, -⟩ := herm_basis hH
  have h1 : V * 1 * Vᴴ = (1 : Matrix (Fin p) (Fin p) ℝ) := by rw [Matrix.mul_one, hV]
  refine ⟨∑ j, |l j|, Finset.sum_nonneg fun _ _ => abs_nonneg _, fun y => ?_⟩
  have h2 : sqn (V *ᵥ y) = sqn y := by simp only [sqn_eq, fixing_qf PosDef.one h1]
  rw [hf, ← h2, Finset.sum_mul]
  refine (Finset.abs_sum_le_sum_abs _ _).trans (Finset.sum_le_sum fun j _ => ?_)
  rw [abs_mul, abs_of_nonneg (sq_nonneg ‖(V *ᵥ y) j‖)]
  exact mul_le_mul_of_nonneg_left (coord_le_sqn _ j) (abs_nonneg _)

/-- Weighted means of quadratic forms. -/
theorem unitary_forms {H : Matrix (Fin p) (Fin p) ℝ} (hH : H.IsHermitian)
    (hi : Integrable (fun y => w (sqn y) * sqn y) ν) :
    (p : ℝ) * ∫ y, w (sqn y) * (star y ⬝ᵥ H *ᵥ y) ∂ν =
      H.trace * ∫ y, w (sqn y) * sqn y ∂ν := by
  obtain ⟨V, l, hV, hf, ht, -⟩ := herm_basis hH
  obtain ⟨h1, h2⟩ := unitary_second hE hw hi
  simp only [hf]
  rw [unitary_integral hE hw (F := fun y => ∑ j, l j * ‖y j‖ ^ 2) (by fun_prop) hV]
  have e : ∀ y : Fin p → ℝ, w (sqn y) * ∑ j, l j * ‖y j‖ ^ 2 =
      ∑ j, l j * (w (sqn y) * ‖y j‖ ^ 2) := fun y => by
    rw [Finset.mul_sum]; exact Finset.sum_congr rfl fun j _ => by ring
  simp only [e]
  rw [integral_finsetSum _ fun j _ => (h1 j).const_mul _, ht, Finset.sum_mul, Finset.mul_sum]
  refine Finset.sum_congr rfl fun j _ => ?_
  rw [integral_const_mul, ← h2 j]; ring

/-- Weighted mean squares of quadratic forms. -/
theorem unitary_forms_sq {H : Matrix (Fin p) (Fin p) ℝ} (hH : H.IsHermitian)
    (hi : Integrable (fun y => w (sqn y) * sqn y ^ 2) ν) :
    (p : ℝ) * (p + 2) * ∫ y, w (sqn y) * (star y ⬝ᵥ H *ᵥ y) ^ 2 ∂ν =
      (2 * (H * H).trace + H.trace ^ 2) * ∫ y, w (sqn y) * sqn y ^ 2 ∂ν := by
  classical
  obtain ⟨V, l, hV, hf, ht, ht2⟩ := herm_basis hH
  obtain ⟨h1, h2⟩ := unitary_fourth hE hw hi
  set m : Fin p → Fin p → ℝ := fun i j => ∫ y, w (sqn y) * (‖y i‖ ^ 2 * ‖y j‖ ^ 2) ∂ν with hm
  have hexp : ∀ c : Fin p → ℝ, ∫ y, w (sqn y) * (∑ j, c j * ‖y j‖ ^ 2) ^ 2 ∂ν =
      ∑ i, ∑ j, c i * c j * m i j := fun c => by
    have e : ∀ y : Fin p → ℝ, w (sqn y) * (∑ j, c j * ‖y j‖ ^ 2) ^ 2 =
        ∑ i, ∑ j, c i * c j * (w (sqn y) * (‖y i‖ ^ 2 * ‖y j‖ ^ 2)) := fun y => by
      rw [sq, Finset.sum_mul_sum, Finset.mul_sum]
      refine Finset.sum_congr rfl fun i _ => ?_
      rw [Finset.mul_sum]
      exact Finset.sum_congr rfl fun j _ => by ring
    simp only [e]
    rw [integral_finsetSum _ fun i _ => integrable_finsetSum _ fun j _ => (h1 i j).const_mul _]
    refine Finset.sum_congr rfl fun i _ => ?_
    rw [integral_finsetSum _ fun j _ => (h1 i j).const_mul _]
    exact Finset.sum_congr rfl fun j _ => integral_const_mul _ _
  simp only [hf]
  rw [unitary_integral hE hw (F := fun y => (∑ j, l j * ‖y j‖ ^ 2) ^ 2) (by fun_prop) hV, hexp]
  have hone := hexp fun _ => 1
  simp only [one_mul] at hone
  have hone' : ∫ y, w (sqn y) * sqn y ^ 2 ∂ν = ∑ i, ∑ j, m i j := hone
  rw [hone', ht, ht2]
  rcases Nat.eq_zero_or_pos p with rfl | hp
  · simp
  obtain ⟨A, hA⟩ : ∃ A : ℝ, ∀ i j, m i j = A * (1 + if i = j then 2 else 0) := by
    refine ⟨m ⟨0, hp⟩ ⟨0, hp⟩ / 3, fun i j => ?_⟩
    by_cases hij : i = j
    · subst hij
      rw [if_pos rfl]
      by_cases h0 : i = ⟨0, hp⟩
      · rw [h0]; ring
      · have a1 := h2 i ⟨0, hp⟩ i h0
        have a2 := h2 i ⟨0, hp⟩ ⟨0, hp⟩ h0
        change m i i = 3 * m i ⟨0, hp⟩ at a1
        change m ⟨0, hp⟩ ⟨0, hp⟩ = 3 * m i ⟨0, hp⟩ at a2
        rw [a1, a2]; ring
    · rw [if_neg hij]
      have a2 := h2 i j ⟨0, hp⟩ hij
      change m ⟨0, hp⟩ ⟨0, hp⟩ = 3 * m i j at a2
      rw [a2]; ring
  have hsum : ∀ c : Fin p → ℝ, ∑ i, ∑ j, c i * c j * m i j =
      A * ((∑ i, c i) ^ 2 + 2 * ∑ i, c i ^ 2) := fun c => by
    simp only [hA]
    rw [sq, Finset.sum_mul_sum, mul_add, Finset.mul_sum, Finset.mul_sum, Finset.mul_sum, ← Finset.sum_add_distrib]
    refine Finset.sum_congr rfl fun i _ => ?_
    have : ∀ j, c i * c j * (A * (1 + if i = j then 2 else 0)) =
        A * (c i * c j) + if i = j then A * (2 * (c i * c j)) else 0 := fun j => by
      split_ifs <;> ring
    simp only [this]
    rw [Finset.sum_add_distrib, Finset.sum_ite_eq, if_pos (Finset.mem_univ _), Finset.mul_sum, sq]
  have h3 := hsum fun _ => 1
  simp only [one_mul, Finset.sum_const, Finset.card_univ, Fintype.card_fin, nsmul_eq_mul, one_pow,
    mul_one] at h3
  rw [hsum, h3]
  ring

end Unitary

/-! ## Elliptical laws -/
section Elliptical
variable {p : ℕ} {μ : Measure (Fin p → ℝ)} {S : Matrix (Fin p) (Fin p) ℝ}

/-- Weighted means and mean squares of quadratic forms under elliptical laws. -/
theorem elliptical_forms (hS : S.PosDef) (hE : EllipticalLaw μ S) {w : ℝ → ℝ} (hw : Measurable w)
    {D : Matrix (Fin p) (Fin p) ℝ} (hD : D.IsHermitian) :
    (∃ C : ℝ, 0 ≤ C ∧ ∀ x, |(star x ⬝ᵥ (S⁻¹ * D * S⁻¹) *ᵥ x)| ≤ C * qf S x) ∧
    (Integrable (fun x => w (qf S x) * qf S x) μ →
      (p : ℝ) * ∫ x, w (qf S x) * (star x ⬝ᵥ (S⁻¹ * D * S⁻¹) *ᵥ x) ∂μ =
        (S⁻¹ * D).trace * ∫ x, w (qf S x) * qf S x ∂μ) ∧
    (Integrable (fun x => w (qf S x) * qf S x ^ 2) μ →
      (p : ℝ) * (p + 2) * ∫ x, w (qf S x) * (star x ⬝ᵥ (S⁻¹ * D * S⁻¹) *ᵥ x) ^ 2 ∂μ =
        (2 * (S⁻¹ * D * (S⁻¹ * D)).trace + (S⁻¹ * D).trace ^ 2) *
          ∫ x, w (qf S x) * qf S x ^ 2 ∂μ) := by
  obtain ⟨R, hR, rfl⟩ := root_exists hS
  have hRd := (Matrix.isUnit_iff_isUnit_det R).1 hR
  have hi1 : R⁻¹ * R = 1 := Matrix.nonsing_inv_mul R hRd
  have hi2 : R * R⁻¹ = 1 := Matrix.mul_nonsing_inv R hRd
  have hi3 : Rᴴ * R⁻¹ᴴ = 1 := by rw [← conjTranspose_mul, hi1, conjTranspose_one]
  have hSi : (R * Rᴴ)⁻¹ = R⁻¹ᴴ * R⁻¹ := by
    rw [Matrix.mul_inv_rev, conjTranspose_nonsing_inv]
  set H := R⁻¹ * D * R⁻¹ᴴ with hH
  have hHh : H.IsHermitian := by
    rw [IsHermitian, hH]
    simp only [conjTranspose_mul, conjTranspose_conjTranspose, hD.eq, Matrix.mul_assoc]
  have hform : ∀ x : Fin p → ℝ, star x ⬝ᵥ ((R * Rᴴ)⁻¹ * D * (R * Rᴴ)⁻¹) *ᵥ x =
      star (R⁻¹ *ᵥ x) ⬝ᵥ H *ᵥ (R⁻¹ *ᵥ x) := fun x => by
    rw [star_mulVec, ← dotProduct_mulVec, mulVec_mulVec, mulVec_mulVec, hSi, hH]
    congr 2
    simp only [Matrix.mul_assoc]
  have htr : ((R * Rᴴ)⁻¹ * D).trace = H.trace := by
    rw [hSi, hH, Matrix.mul_assoc, trace_mul_comm]
  have htr2 : ((R * Rᴴ)⁻¹ * D * ((R * Rᴴ)⁻¹ * D)).trace = (H * H).trace := by
    rw [hSi, hH]
    have e1 : R⁻¹ᴴ * R⁻¹ * D * (R⁻¹ᴴ * R⁻¹ * D) = R⁻¹ᴴ * (R⁻¹ * D * (R⁻¹ᴴ * R⁻¹ * D)) := by
      simp only [Matrix.mul_assoc]
    rw [e1, trace_mul_comm]
    simp only [Matrix.mul_assoc]
  have hq : ∀ x, qf (R * Rᴴ) x = sqn (R⁻¹ *ᵥ x) := fun x => qf_factor hR x
  have hm : Measurable fun x : Fin p → ℝ => R⁻¹ *ᵥ x :=
    (Continuous.matrix_mulVec continuous_const continuous_id).measurable
  set ν := μ.map fun x => R⁻¹ *ᵥ x with hν
  have hEν : EllipticalLaw ν (1 : Matrix (Fin p) (Fin p) ℝ) := by
    intro V hV
    rw [Matrix.mul_one] at hV
    have hmV : Measurable fun x : Fin p → ℝ => V *ᵥ x :=
      (Continuous.matrix_mulVec continuous_const continuous_id).measurable
    have hmT : Measurable fun x : Fin p → ℝ => (R * V * R⁻¹) *ᵥ x :=
      (Continuous.matrix_mulVec continuous_const continuous_id).measurable
    have hT := hE (R * V * R⁻¹) (by
      rw [conjTranspose_mul, conjTranspose_mul]
      calc R * V * R⁻¹ * (R * Rᴴ) * (R⁻¹ᴴ * (Vᴴ * Rᴴ))
          = R * V * (R⁻¹ * R) * (Rᴴ * R⁻¹ᴴ) * (Vᴴ * Rᴴ) := by simp only [Matrix.mul_assoc]
        _ = R * (V * Vᴴ) * Rᴴ := by
          rw [hi1, hi3, Matrix.mul_one, Matrix.mul_one]; simp only [Matrix.mul_assoc]
        _ = R * Rᴴ := by rw [hV, Matrix.mul_one])
    rw [hν, Measure.map_map hmV hm]
    conv_rhs => rw [← hT, Measure.map_map hm hmT]
    congr 1
    funext x
    simp only [Function.comp_apply, mulVec_mulVec, ← Matrix.mul_assoc, hi1, Matrix.one_mul]
  have hint : ∀ G : (Fin p → ℝ) → ℝ, Measurable G →
      (∫ y, G y ∂ν = ∫ x, G (R⁻¹ *ᵥ x) ∂μ) ∧ (Integrable G ν ↔ Integrable (fun x => G (R⁻¹ *ᵥ x)) μ) :=
    fun G hG => ⟨integral_map hm.aemeasurable hG.aestronglyMeasurable,
      integrable_map_measure hG.aestronglyMeasurable hm.aemeasurable⟩
  have hws : Measurable fun y : Fin p → ℝ => w (sqn y) := hw.comp sqn_measurable
  have hfm : Measurable fun y : Fin p → ℝ => (star y ⬝ᵥ H *ᵥ y) := by
    refine Continuous.measurable ?_
    simp only [dotProduct, mulVec, Pi.star_apply]
    fun_prop
  simp only [hform, hq, htr, htr2]
  refine ⟨?_, fun hi => ?_, fun hi => ?_⟩
  · obtain ⟨C, h0, hC⟩ := herm_form_le H hHh
    exact ⟨C, h0, fun x => hC _⟩
  · have h := unitary_forms hEν hw hHh ((hint _ (hws.mul sqn_measurable)).2.2 hi)
    rwa [(hint (fun y => w (sqn y) * (star y ⬝ᵥ H *ᵥ y)) (hws.mul hfm)).1,
      (hint (fun y => w (sqn y) * sqn y) (hws.mul sqn_measurable)).1] at h
  · have h := unitary_forms_sq hEν hw hHh ((hint _ (hws.mul (sqn_measurable.pow_const 2))).2.2 hi)
    rwa [(hint (fun y => w (sqn y) * (star y ⬝ᵥ H *ᵥ y) ^ 2) (hws.mul (hfm.pow_const 2))).1,
      (hint (fun y => w (sqn y) * sqn y ^ 2) (hws.mul (sqn_measurable.pow_const 2))).1] at h

end Elliptical


/-! ## The score -/
section Score
variable {p : ℕ}

theorem realT_u2 {df : ℝ} (hdf : 0 < df) {S : Matrix (Fin p) (Fin p) ℝ} (hS : S.PosDef) :
    ∫ x, (qf S x / (df + qf S x)) ^ 2 ∂lawOf (fun x => Real.exp (tLogDensity df 0 S x)) =
      p * (p + 2) / ((df + p) * (df + p + 2)) := by
  rw [realT_law hdf hS, ← t_mean_u2 hdf hS]
  simp only [qf_real]

/-- The score of the centred real t law at `z` in direction `D`. -/
noncomputable def rtScore (df : ℝ) (S D : Matrix (Fin p) (Fin p) ℝ) (z : Fin p → ℝ) : ℝ :=
  1 / 2 * (-(S⁻¹ * D).trace + (df + p) * ((df + qf S z)⁻¹ * (star z ⬝ᵥ (S⁻¹ * D * S⁻¹) *ᵥ z)))

theorem rtScore_deriv {df : ℝ} (hdf : 0 < df) {c : ℝ → Matrix (Fin p) (Fin p) ℝ}
    {D : Matrix (Fin p) (Fin p) ℝ} (hc : (c 0).PosDef) (hd : CurveDeriv c D 0)
    (z : Fin p → ℝ) :
    HasDerivAt (fun t => tLogDensity df 0 (c t) z) (rtScore df (c 0) D z) 0 := by
  have hu := (isUnit_iff_isUnit_det _).1 hc.isUnit
  have hq0 : 0 ≤ z ⬝ᵥ (c 0)⁻¹ *ᵥ z := by rw [← qf_real]; exact qf_nonneg hc z
  have hdet := hc.det_pos
  have h1 := hd.det_of_isUnit hu
  have h2 : HasDerivAt (fun t => z ⬝ᵥ (c t)⁻¹ *ᵥ z) (-(z ⬝ᵥ ((c 0)⁻¹ * D * (c 0)⁻¹) *ᵥ z)) 0 := by
    have hi := hd.inv_near hu
    have h3 : HasDerivAt (fun t => ∑ i, z i * ∑ j, (c t)⁻¹ i j * z j)
        (∑ i, z i * ∑ j, (-((c 0)⁻¹ * D * (c 0)⁻¹)) i j * z j) 0 :=
      HasDerivAt.fun_sum fun i _ => (HasDerivAt.fun_sum fun j _ => (hi i j).mul_const (z j)).const_mul _
    refine h3.congr_deriv ?_
    rw [← dotProduct_neg, ← neg_mulVec]
    rfl
  have hpos : 0 < 1 + (z ⬝ᵥ (c 0)⁻¹ *ᵥ z) / df := by positivity
  have h5 := ((h2.div_const df).const_add 1).log hpos.ne'
  have h6 := (((h1.log hdet.ne').div_const 2).const_sub (Real.log (Real.Gamma ((df + p) / 2)) -
    Real.log (Real.Gamma (df / 2)) - (p : ℝ) / 2 * Real.log (Real.pi * df))).sub
    (h5.const_mul ((df + p) / 2))
  unfold tLogDensity
  simp only [sub_zero]
  refine h6.congr_deriv ?_
  unfold rtScore
  rw [mul_div_cancel_left₀ _ hdet.ne', qf_real, star_trivial]
  have hne : 0 < df + z ⬝ᵥ (c 0)⁻¹ *ᵥ z := by positivity
  have e : 1 + (z ⬝ᵥ (c 0)⁻¹ *ᵥ z) / df = 1 / df * (df + z ⬝ᵥ (c 0)⁻¹ *ᵥ z) := by field_simp
  rw [e]
  generalize z ⬝ᵥ (c 0)⁻¹ *ᵥ z = q at hne
  field_simp
  ring

theorem rtScore_measurable (df : ℝ) (S D : Matrix (Fin p) (Fin p) ℝ) : Measurable (rtScore df S D) := by
  have h := (continuous_qf S).measurable
  have hfm : Measurable fun z : Fin p → ℝ => (star z ⬝ᵥ (S⁻¹ * D * S⁻¹) *ᵥ z) := by
    refine Continuous.measurable ?_
    simp only [dotProduct, mulVec, Pi.star_apply]
    fun_prop
  unfold rtScore
  fun_prop

theorem rtScore_add (df : ℝ) (S D E : Matrix (Fin p) (Fin p) ℝ) (z : Fin p → ℝ) :
    rtScore df S (D + E) z = rtScore df S D z + rtScore df S E z := by
  unfold rtScore
  rw [Matrix.mul_add, Matrix.add_mul, trace_add, add_mulVec, dotProduct_add]
  ring

theorem rtScore_sub (df : ℝ) (S D E : Matrix (Fin p) (Fin p) ℝ) (z : Fin p → ℝ) :
    rtScore df S (D - E) z = rtScore df S D z - rtScore df S E z := by
  unfold rtScore
  rw [Matrix.mul_sub, Matrix.sub_mul, trace_sub, sub_mulVec, dotProduct_sub]
  ring

theorem rtScore_bound {df : ℝ} (hdf : 0 < df) {S : Matrix (Fin p) (Fin p) ℝ} (hS : S.PosDef)
    {D : Matrix (Fin p) (Fin p) ℝ} (hD : D.IsHermitian) :
    ∃ C : ℝ, 0 ≤ C ∧ ∀ z, |rtScore df S D z| ≤ C := by
  obtain ⟨⟨C, h0, hC⟩, -, -⟩ := elliptical_forms (w := fun _ => 1) hS (realT_elliptical hdf hS)
    measurable_const hD
  refine ⟨|(S⁻¹ * D).trace| + (df + p) * C, by positivity, fun z => ?_⟩
  unfold rtScore
  rw [abs_mul, abs_of_pos (by norm_num : (0 : ℝ) < 1 / 2)]
  refine (mul_le_of_le_one_left (abs_nonneg _) (by norm_num)).trans ((abs_add_le _ _).trans ?_)
  rw [abs_neg]
  have hq := qf_nonneg hS z
  have hk : 0 < df + qf S z := by positivity
  refine add_le_add le_rfl ?_
  rw [abs_mul, abs_of_nonneg (by positivity : (0 : ℝ) ≤ df + p), abs_mul,
    abs_of_pos (inv_pos.2 hk)]
  refine mul_le_mul_of_nonneg_left ?_ (by positivity)
  rw [inv_mul_le_iff₀ hk]
  refine (hC z).trans ?_
  nlinarith

theorem rtScore_integrable {df : ℝ} (hdf : 0 < df) {S : Matrix (Fin p) (Fin p) ℝ} (hS : S.PosDef)
    {D E : Matrix (Fin p) (Fin p) ℝ} (hD : D.IsHermitian) (hE : E.IsHermitian) :
    Integrable (fun z => rtScore df S D z * rtScore df S E z)
      (lawOf fun z => Real.exp (tLogDensity df 0 S z)) := by
  have := realT_prob hdf hS
  obtain ⟨C, h0, hC⟩ := rtScore_bound hdf hS hD
  obtain ⟨C', h0', hC'⟩ := rtScore_bound hdf hS hE
  refine (integrable_const (C * C')).mono'
    ((rtScore_measurable df S D).mul (rtScore_measurable df S E)).aestronglyMeasurable
    (Eventually.of_forall fun z => ?_)
  rw [norm_mul]
  exact mul_le_mul (hC z) (hC' z) (norm_nonneg _) h0

/-- The mean square of the score. -/
theorem rtScore_sq {df : ℝ} (hdf : 0 < df) (hp : 0 < p) {S : Matrix (Fin p) (Fin p) ℝ} (hS : S.PosDef)
    {D : Matrix (Fin p) (Fin p) ℝ} (hD : D.IsHermitian) :
    ∫ z, rtScore df S D z * rtScore df S D z ∂lawOf (fun z => Real.exp (tLogDensity df 0 S z)) =
      1 / 2 * ((df + p) / (df + p + 2)) * (S⁻¹ * D * (S⁻¹ * D)).trace +
        1 / 4 * ((df + p) / (df + p + 2) - 1) * (S⁻¹ * D).trace ^ 2 := by
  have hprob := realT_prob hdf hS
  have hell := realT_elliptical hdf hS
  set μ := lawOf fun z => Real.exp (tLogDensity df 0 S z) with hμ
  have hqm := (continuous_qf S).measurable
  have hw1 : Measurable fun q : ℝ => (df + q)⁻¹ := by fun_prop
  have hw2 : Measurable fun q : ℝ => ((df + q)⁻¹) ^ 2 := by fun_prop
  have hfm : Measurable fun z : Fin p → ℝ => (star z ⬝ᵥ (S⁻¹ * D * S⁻¹) *ᵥ z) := by
    refine Continuous.measurable ?_
    simp only [dotProduct, mulVec, Pi.star_apply]
    fun_prop
  obtain ⟨⟨C, hC0, hC⟩, f1, -⟩ := elliptical_forms hS hell hw1 hD
  obtain ⟨-, -, f2⟩ := elliptical_forms hS hell hw2 hD
  have hb : ∀ x, 0 ≤ (df + qf S x)⁻¹ * qf S x ∧ (df + qf S x)⁻¹ * qf S x ≤ 1 := fun x => by
    have hq := qf_nonneg hS x
    have hk : 0 < df + qf S x := by positivity
    refine ⟨by positivity, ?_⟩
    rw [inv_mul_le_iff₀ hk]; linarith
  have i1 : Integrable (fun x => (df + qf S x)⁻¹ * qf S x) μ :=
    (integrable_const (1 : ℝ)).mono' (by fun_prop) (Eventually.of_forall fun x => by
      rw [Real.norm_of_nonneg (hb x).1]; exact (hb x).2)
  have i2 : Integrable (fun x => ((df + qf S x)⁻¹) ^ 2 * qf S x ^ 2) μ :=
    (integrable_const (1 : ℝ)).mono' (by fun_prop) (Eventually.of_forall fun x => by
      rw [← mul_pow, Real.norm_of_nonneg (by positivity)]
      exact pow_le_one₀ (hb x).1 (hb x).2)
  have g1 := f1 i1
  have g2 := f2 i2
  have v1 : ∫ x, (df + qf S x)⁻¹ * qf S x ∂μ = p / (df + p) := by
    rw [← realT_u hdf hS]
    exact integral_congr_ae (Eventually.of_forall fun x => (div_eq_inv_mul (qf S x) _).symm)
  have v2 : ∫ x, ((df + qf S x)⁻¹) ^ 2 * qf S x ^ 2 ∂μ =
      p * (p + 2) / ((df + p) * (df + p + 2)) := by
    rw [← realT_u2 hdf hS]
    exact integral_congr_ae (Eventually.of_forall fun x => by
      simp only; ring)
  rw [v1] at g1
  rw [v2] at g2
  have hfb : ∀ x, |(df + qf S x)⁻¹ * (star x ⬝ᵥ (S⁻¹ * D * S⁻¹) *ᵥ x)| ≤ C := fun x => by
    have hq := qf_nonneg hS x
    have hk : 0 < df + qf S x := by positivity
    rw [abs_mul, abs_of_pos (inv_pos.2 hk), inv_mul_le_iff₀ hk]
    refine (hC x).trans ?_
    nlinarith
  have j1 : Integrable (fun x => (df + qf S x)⁻¹ * (star x ⬝ᵥ (S⁻¹ * D * S⁻¹) *ᵥ x)) μ :=
    (integrable_const C).mono' (by fun_prop) (Eventually.of_forall hfb)
  have j2 : Integrable (fun x => ((df + qf S x)⁻¹) ^ 2 *
      (star x ⬝ᵥ (S⁻¹ * D * S⁻¹) *ᵥ x) ^ 2) μ :=
    (integrable_const (C ^ 2)).mono' (by fun_prop) (Eventually.of_forall fun x => by
      rw [← mul_pow, Real.norm_of_nonneg (sq_nonneg _), ← sq_abs]
      exact pow_le_pow_left₀ (abs_nonneg _) (hfb x) 2)
  have e : ∀ z, rtScore df S D z * rtScore df S D z = 1 / 4 * (S⁻¹ * D).trace ^ 2 +
      (-(1 / 2) * (S⁻¹ * D).trace * (df + p)) *
        ((df + qf S z)⁻¹ * (star z ⬝ᵥ (S⁻¹ * D * S⁻¹) *ᵥ z)) +
      1 / 4 * (df + p) ^ 2 * (((df + qf S z)⁻¹) ^ 2 * (star z ⬝ᵥ (S⁻¹ * D * S⁻¹) *ᵥ z) ^ 2) :=
    fun z => by unfold rtScore; ring
  simp only [e]
  rw [integral_add3 (integrable_const _) (j1.const_mul _) (j2.const_mul _), integral_const,
    probReal_univ, one_smul, integral_const_mul, integral_const_mul]
  have hpR : (0 : ℝ) < p := by exact_mod_cast hp
  have hk : 0 < df + p := by positivity
  set T := (S⁻¹ * D).trace
  set Q := (S⁻¹ * D * (S⁻¹ * D)).trace
  set I1 := ∫ x, (df + qf S x)⁻¹ * (star x ⬝ᵥ (S⁻¹ * D * S⁻¹) *ᵥ x) ∂μ
  set I2 := ∫ x, ((df + qf S x)⁻¹) ^ 2 * (star x ⬝ᵥ (S⁻¹ * D * S⁻¹) *ᵥ x) ^ 2 ∂μ
  have e1 : I1 = T / (df + p) := by
    have : (p : ℝ) * I1 = p * (T / (df + p)) := by rw [g1]; ring
    exact mul_left_cancel₀ hpR.ne' this
  have e2 : I2 = (2 * Q + T ^ 2) / ((df + p) * (df + p + 2)) := by
    have : (p : ℝ) * (p + 2) * I2 = p * (p + 2) * ((2 * Q + T ^ 2) / ((df + p) * (df + p + 2))) := by
      rw [g2]; ring
    exact mul_left_cancel₀ (by positivity) this
  rw [e1, e2]
  field_simp
  ring

/-- The covariance of the scores in two directions. -/
theorem rtScore_mul {df : ℝ} (hdf : 0 < df) (hp : 0 < p) {S : Matrix (Fin p) (Fin p) ℝ}
    (hS : S.PosDef) {D E : Matrix (Fin p) (Fin p) ℝ} (hD : D.IsHermitian) (hE : E.IsHermitian) :
    ∫ z, rtScore df S D z * rtScore df S E z ∂lawOf (fun z => Real.exp (tLogDensity df 0 S z)) =
      1 / 2 * ((df + p) / (df + p + 2)) * (S⁻¹ * D * (S⁻¹ * E)).trace +
        1 / 4 * ((df + p) / (df + p + 2) - 1) * ((S⁻¹ * D).trace * (S⁻¹ * E).trace) := by
  have h1 := rtScore_sq hdf hp hS (hD.add hE)
  have h2 := rtScore_sq hdf hp hS (hD.sub hE)
  have h3 : ∫ z, rtScore df S D z * rtScore df S E z
        ∂lawOf (fun z => Real.exp (tLogDensity df 0 S z)) =
      1 / 4 * (∫ z, rtScore df S (D + E) z * rtScore df S (D + E) z
        ∂lawOf (fun z => Real.exp (tLogDensity df 0 S z)) -
      ∫ z, rtScore df S (D - E) z * rtScore df S (D - E) z
        ∂lawOf (fun z => Real.exp (tLogDensity df 0 S z))) := by
    rw [← integral_sub (rtScore_integrable hdf hS (hD.add hE) (hD.add hE))
      (rtScore_integrable hdf hS (hD.sub hE) (hD.sub hE)), ← integral_const_mul]
    refine integral_congr_ae (Eventually.of_forall fun z => ?_)
    simp only [rtScore_add, rtScore_sub]
    ring
  rw [h3, h1, h2]
  have hc : (S⁻¹ * E * (S⁻¹ * D)).trace = (S⁻¹ * D * (S⁻¹ * E)).trace := by
    rw [trace_mul_comm]
  simp only [Matrix.mul_add, Matrix.add_mul, Matrix.mul_sub, Matrix.sub_mul, trace_add, trace_sub]
  rw [hc]
  ring


end Score
end RS.FR
