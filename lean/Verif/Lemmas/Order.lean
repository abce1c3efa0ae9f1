import Verif.Lemmas.Unique
import Mathlib.Analysis.Matrix.Normed
import Mathlib.Analysis.Matrix.PosDef

/-! Loewner order: monotonicity of quadratic forms and scatter matrices, size of matrices squeezed
between multiples of a positive definite one. -/
set_option autoImplicit false

namespace RS
open Matrix ComplexOrder

section
variable {𝕜 : Type} [RCLike 𝕜] {N p : ℕ}

/-- `A <= B`. -/
def Loewner (A B : Matrix (Fin p) (Fin p) 𝕜) : Prop := (B - A).PosSemidef

theorem Loewner.refl (A : Matrix (Fin p) (Fin p) 𝕜) : Loewner A A := by
  unfold Loewner; rw [sub_self]; exact PosSemidef.zero

theorem Loewner.trans {A B C : Matrix (Fin p) (Fin p) 𝕜} (h1 : Loewner A B) (h2 : Loewner B C) :
    Loewner A C := by
  have := PosSemidef.add h1 h2
  unfold Loewner
  rwa [sub_add_sub_cancel'] at this

theorem Loewner.smul {A B : Matrix (Fin p) (Fin p) 𝕜} (h : Loewner A B) {c : ℝ} (hc : 0 ≤ c) :
    Loewner ((c : 𝕜) • A) ((c : 𝕜) • B) := by
  unfold Loewner
  rw [← smul_sub]
  exact PosSemidef.smul h (by exact_mod_cast hc)

theorem Loewner.congr {A B : Matrix (Fin p) (Fin p) 𝕜} (h : Loewner A B)
    (G : Matrix (Fin p) (Fin p) 𝕜) : Loewner (G * A * Gᴴ) (G * B * Gᴴ) := by
  unfold Loewner
  rw [← Matrix.sub_mul, ← Matrix.mul_sub]
  exact PosSemidef.mul_mul_conjTranspose_same h G

theorem Loewner.posDef {A B : Matrix (Fin p) (Fin p) 𝕜} (h : Loewner A B) (hA : A.PosDef) :
    B.PosDef := by
  have := hA.add_posSemidef h
  rwa [add_sub_cancel] at this

theorem loewner_smul_le {A : Matrix (Fin p) (Fin p) 𝕜} (hA : A.PosSemidef) {c d : ℝ} (h : c ≤ d) :
    Loewner ((c : 𝕜) • A) ((d : 𝕜) • A) := by
  unfold Loewner
  rw [← sub_smul, ← RCLike.ofReal_sub]
  exact hA.smul (by exact_mod_cast sub_nonneg.2 h)

theorem loewner_diagonal {l m : Fin p → ℝ} :
    Loewner (diagonal fun j => (l j : 𝕜)) (diagonal fun j => (m j : 𝕜)) ↔ ∀ j, l j ≤ m j := by
  unfold Loewner
  rw [diagonal_sub, posSemidef_diagonal_iff]
  apply forall_congr'
  intro j
  rw [← RCLike.ofReal_sub]
  exact ⟨fun h => sub_nonneg.1 (by exact_mod_cast h), fun h => by exact_mod_cast sub_nonneg.2 h⟩

/-- The quadratic form `x^H S^{-1} x` is decreasing in `S`. -/
theorem qf_anti {A B : Matrix (Fin p) (Fin p) 𝕜} (hA : A.PosDef) (h : Loewner A B) (x : Fin p → 𝕜) :
    qf B x ≤ qf A x := by
  have hB := h.posDef hA
  obtain ⟨G, l, hG, hl, h1, h2⟩ := simultaneous A B hA hB
  rw [← qf_congr G hG A x, ← qf_congr G hG B x, h1, h2, qf_one, qf_diagonal l hl]
  have h3 := h.congr G
  rw [h1, h2] at h3
  have h4 : (1 : Matrix (Fin p) (Fin p) 𝕜) = diagonal fun j => ((1 : ℝ) : 𝕜) := by simp
  rw [h4, loewner_diagonal (l := fun _ => 1)] at h3
  apply Finset.sum_le_sum
  intro j _
  exact div_le_self (sq_nonneg _) (h3 j)

theorem scatter_mono {w w' : Fin N → ℝ} (h : ∀ i, w i ≤ w' i) (X : Matrix (Fin N) (Fin p) 𝕜) :
    Loewner (scatter w X) (scatter w' X) := by
  have : scatter w' X - scatter w X = scatter (fun i => w' i - w i) X := by
    unfold scatter
    rw [← smul_sub, ← Finset.sum_sub_distrib]
    congr 1
    apply Finset.sum_congr rfl
    intro i _
    rw [← sub_smul]
    push_cast
    rfl
  unfold Loewner
  rw [this]
  exact scatter_posSemidef _ (fun i => sub_nonneg.2 (h i)) X

theorem scatter_smul (c : ℝ) (w : Fin N → ℝ) (X : Matrix (Fin N) (Fin p) 𝕜) :
    scatter (fun i => c * w i) X = (c : 𝕜) • scatter w X := by
  unfold scatter
  rw [smul_comm (c : 𝕜)]
  congr 1
  rw [Finset.smul_sum]
  apply Finset.sum_congr rfl
  intro i _
  rw [smul_smul]
  push_cast
  rfl

theorem Loewner.congr_iff {A B G : Matrix (Fin p) (Fin p) 𝕜} (hG : IsUnit G) :
    Loewner (G * A * Gᴴ) (G * B * Gᴴ) ↔ Loewner A B := by
  refine ⟨fun h => ?_, fun h => h.congr G⟩
  have hGd : IsUnit G.det := (Matrix.isUnit_iff_isUnit_det G).1 hG
  have h2 := h.congr G⁻¹
  have e : ∀ C : Matrix (Fin p) (Fin p) 𝕜, G⁻¹ * (G * C * Gᴴ) * (G⁻¹)ᴴ = C := fun C => by
    rw [show G⁻¹ * (G * C * Gᴴ) * (G⁻¹)ᴴ = (G⁻¹ * G) * C * (Gᴴ * (G⁻¹)ᴴ) by
      simp only [Matrix.mul_assoc], ← conjTranspose_mul, Matrix.nonsing_inv_mul G hGd,
      conjTranspose_one, Matrix.one_mul, Matrix.mul_one]
  rwa [e, e] at h2

/-- Any positive definite matrix lies between two multiples of any other. -/
theorem exists_between {A B : Matrix (Fin p) (Fin p) 𝕜} (hA : A.PosDef) (hB : B.PosDef) :
    ∃ c : ℝ, 1 ≤ c ∧ Loewner (((c⁻¹ : ℝ) : 𝕜) • A) B ∧ Loewner B ((c : 𝕜) • A) := by
  obtain ⟨G, l, hG, hl, h1, h2⟩ := simultaneous A B hA hB
  set c : ℝ := 1 + ∑ j, (l j + (l j)⁻¹) with hc
  have hterm : ∀ j, 0 ≤ l j + (l j)⁻¹ := fun j => by have := hl j; positivity
  have hsum : ∀ j, l j + (l j)⁻¹ ≤ c := fun j => by
    have := Finset.single_le_sum (f := fun j => l j + (l j)⁻¹) (fun j _ => hterm j)
      (Finset.mem_univ j)
    rw [hc]; linarith
  have hc1 : 1 ≤ c := by
    rw [hc]; linarith [Finset.sum_nonneg fun j (_ : j ∈ Finset.univ) => hterm j]
  have hc0 : 0 < c := by linarith
  have hd : ∀ d : ℝ, G * ((d : 𝕜) • A) * Gᴴ = diagonal fun _ => (d : 𝕜) := fun d => by
    rw [Matrix.mul_smul, Matrix.smul_mul, h1]
    ext a b
    simp only [Matrix.smul_apply, Matrix.one_apply, diagonal_apply, smul_eq_mul]
    split_ifs <;> simp
  refine ⟨c, hc1, ?_, ?_⟩
  · rw [← Loewner.congr_iff hG, hd, h2, loewner_diagonal (l := fun _ => c⁻¹)]
    intro j
    have := hsum j
    have := hl j
    rw [inv_le_comm₀ hc0 (hl j)]
    linarith
  · rw [← Loewner.congr_iff hG, hd, h2, loewner_diagonal (m := fun _ => c)]
    intro j
    have := hsum j
    have := inv_pos.2 (hl j)
    linarith

theorem posSemidef_spectral {A : Matrix (Fin p) (Fin p) 𝕜} (hA : A.PosSemidef) :
    ∃ (U : Matrix (Fin p) (Fin p) 𝕜) (l : Fin p → ℝ), (∀ j, 0 ≤ l j) ∧
      A = U * diagonal (fun j => (l j : 𝕜)) * Uᴴ :=
  ⟨hA.1.eigenvectorUnitary, hA.1.eigenvalues, fun j => hA.eigenvalues_nonneg j,
    hA.1.spectral_theorem⟩

theorem posSemidef_factor {A : Matrix (Fin p) (Fin p) 𝕜} (hA : A.PosSemidef) :
    ∃ B : Matrix (Fin p) (Fin p) 𝕜, A = Bᴴ * B := by
  obtain ⟨U, l, hl, h⟩ := posSemidef_spectral hA
  refine ⟨diagonal (fun j => ((Real.sqrt (l j) : ℝ) : 𝕜)) * Uᴴ, ?_⟩
  rw [conjTranspose_mul, conjTranspose_conjTranspose, diagonal_conjTranspose, h, Matrix.mul_assoc,
    Matrix.mul_assoc, ← Matrix.mul_assoc (diagonal _) (diagonal _), diagonal_mul_diagonal]
  congr 3
  funext j
  simp only [Pi.star_apply, RCLike.star_def, RCLike.conj_ofReal, ← RCLike.ofReal_mul]
  rw [Real.mul_self_sqrt (hl j)]

section Frob
open scoped Matrix.Norms.Frobenius

theorem frob_eq_norm (A : Matrix (Fin p) (Fin p) 𝕜) : frob A = ‖A‖ := by
  rw [Matrix.frobenius_norm_def, frob, Real.sqrt_eq_rpow]
  congr 1
  apply Finset.sum_congr rfl; intro i _
  apply Finset.sum_congr rfl; intro j _
  rw [← Real.rpow_natCast]
  norm_num

/-- Frobenius norm is at most the trace, for positive semidefinite matrices. -/
theorem frob_le_trace {A : Matrix (Fin p) (Fin p) 𝕜} (hA : A.PosSemidef) :
    frob A ≤ RCLike.re A.trace := by
  obtain ⟨B, hB⟩ := posSemidef_factor hA
  have h : frob B ^ 2 = RCLike.re A.trace := by rw [frob_sq, hB]
  rw [← h, hB, frob_eq_norm, frob_eq_norm]
  calc ‖Bᴴ * B‖ ≤ ‖Bᴴ‖ * ‖B‖ := norm_mul_le _ _
    _ = ‖B‖ ^ 2 := by rw [Matrix.frobenius_norm_conjTranspose, sq]

theorem frob_add_le (A B : Matrix (Fin p) (Fin p) 𝕜) : frob (A + B) ≤ frob A + frob B := by
  simp only [frob_eq_norm]; exact norm_add_le A B

theorem frob_sub_le (A B : Matrix (Fin p) (Fin p) 𝕜) : frob (A - B) ≤ frob A + frob B := by
  simp only [frob_eq_norm]; exact norm_sub_le A B

theorem frob_sub_comm (A B : Matrix (Fin p) (Fin p) 𝕜) : frob (A - B) = frob (B - A) := by
  simp only [frob_eq_norm]; exact norm_sub_rev A B

theorem frob_smul (c : ℝ) (A : Matrix (Fin p) (Fin p) 𝕜) :
    frob ((c : 𝕜) • A) = |c| * frob A := by
  simp only [frob_eq_norm]; rw [norm_smul, RCLike.norm_ofReal]

theorem norm_entry_le (A : Matrix (Fin p) (Fin p) 𝕜) (i j : Fin p) : ‖A i j‖ ≤ frob A := by
  unfold frob
  apply Real.le_sqrt_of_sq_le
  refine le_trans ?_ (Finset.single_le_sum (f := fun i => ∑ j, ‖A i j‖ ^ 2)
    (fun i _ => Finset.sum_nonneg fun j _ => sq_nonneg _) (Finset.mem_univ i))
  exact Finset.single_le_sum (f := fun j => ‖A i j‖ ^ 2) (fun j _ => sq_nonneg _)
    (Finset.mem_univ j)

end Frob

/-- A matrix squeezed between `(1-e) S` and `(1+e) S` is within `3 e tr S` of `S`. -/
theorem frob_squeeze' {S T : Matrix (Fin p) (Fin p) 𝕜} (hS : S.PosDef) {e : ℝ} (he : 0 ≤ e)
    (h1 : Loewner (((1 - e : ℝ) : 𝕜) • S) T) (h2 : Loewner T (((1 + e : ℝ) : 𝕜) • S)) :
    frob (T - S) ≤ 3 * e * RCLike.re S.trace := by
  have hP : (T - ((1 - e : ℝ) : 𝕜) • S).PosSemidef := h1
  have hQ : (((1 + e : ℝ) : 𝕜) • S - T).PosSemidef := h2
  have htr : RCLike.re (T - ((1 - e : ℝ) : 𝕜) • S).trace ≤ 2 * e * RCLike.re S.trace := by
    have h3 := (RCLike.nonneg_iff.1 hQ.trace_nonneg).1
    rw [trace_sub, trace_smul, map_sub, smul_eq_mul, RCLike.re_ofReal_mul] at h3
    rw [trace_sub, trace_smul, map_sub, smul_eq_mul, RCLike.re_ofReal_mul]
    linarith
  have hS2 := frob_le_trace hS.posSemidef
  have e1 : T - S = (T - ((1 - e : ℝ) : 𝕜) • S) - (e : 𝕜) • S := by
    rw [sub_sub, ← add_smul]
    congr 1
    rw [← RCLike.ofReal_add, sub_add_cancel, RCLike.ofReal_one, one_smul]
  rw [e1]
  refine (frob_sub_le _ _).trans ?_
  rw [frob_smul, abs_of_nonneg he]
  have h4 := frob_le_trace hP
  have := mul_le_mul_of_nonneg_left hS2 he
  linarith

/-- A matrix squeezed between `(1+e)^{-1} S` and `(1+e) S` is within `3 e tr S` of `S`. -/
theorem frob_squeeze {S T : Matrix (Fin p) (Fin p) 𝕜} (hS : S.PosDef) {e : ℝ} (he : 0 ≤ e)
    (h1 : Loewner ((((1 + e)⁻¹ : ℝ) : 𝕜) • S) T) (h2 : Loewner T (((1 + e : ℝ) : 𝕜) • S)) :
    frob (T - S) ≤ 3 * e * RCLike.re S.trace := by
  refine frob_squeeze' hS he ((loewner_smul_le hS.posSemidef ?_).trans h1) h2
  rw [← one_div, le_div_iff₀ (by linarith)]
  nlinarith

end
end RS
