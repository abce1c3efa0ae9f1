import Verif.Spec.NatGrad
import Verif.Lemmas.Probability
import Verif.Lemmas.HuberConverge
import Verif.Props.Exist
import Verif.Props.Mappings
import Verif.Lemmas.Estimators

/-
Tyler's cost for normalised samples, and Tyler's iteration on the real form of complex samples.
-/
set_option autoImplicit false

namespace RS
open Matrix ComplexOrder

variable {N p : ℕ}

theorem sum_sq_pos_of_sample {X : Matrix (Fin N) (Fin p) ℝ} (hn : NonzeroSamples X) (i : Fin N) :
    0 < ∑ k, X i k ^ 2 := by
  have h0 : 0 ≤ ∑ k, X i k ^ 2 := Finset.sum_nonneg fun k _ => sq_nonneg _
  refine lt_of_le_of_ne h0 fun h => hn i ?_
  funext j
  have := (Finset.sum_eq_zero_iff_of_nonneg (fun k _ => sq_nonneg (X i k))).1 h.symm j
    (Finset.mem_univ j)
  simpa [sample] using this

/-- The cost given to the solver is Tyler's cost up to a constant. -/
theorem ngCost_eq (L : Lib) (hs : (L.envR N p).eigh.Ok) {X : Matrix (Fin N) (Fin p) ℝ}
    (hn : NonzeroSamples X) : ∃ k : ℝ, ∀ S : Matrix (Fin p) (Fin p) ℝ, S.PosDef →
      ngCost L X S = .ok (.fin (tylerCost X S + k)) := by
  let d : Fin N → ℝ := fun i => (Real.sqrt (∑ k, X i k ^ 2))⁻¹
  have hd : ∀ i, d i ≠ 0 := fun i => inv_ne_zero (Real.sqrt_pos.2 (sum_sq_pos_of_sample hn i)).ne'
  have hY : normRows X = some (of fun i j => d i * X i j) := by
    unfold normRows
    rw [if_neg]
    · congr 1
      ext i j
      simp only [of_apply, d]
      rw [div_eq_inv_mul]
    · rintro ⟨i, hi⟩
      exact hn i (funext hi)
  have hn' : NonzeroSamples (of fun i j => d i * X i j) := fun i h => hn i (by
    funext j
    have := congrFun h j
    simpa [sample, hd i] using this)
  refine ⟨p * ∑ i, Real.log (‖d i‖ ^ 2), fun S hS => ?_⟩
  simp only [ngCost, hY]
  rw [tylerCostReal_eq hs hn' hS, tylerCost_sample_scale hn hS d hd]

theorem minimises_iff (L : Lib) (hs : (L.envR N p).eigh.Ok) {X : Matrix (Fin N) (Fin p) ℝ}
    (hn : NonzeroSamples X) (S : Matrix (Fin p) (Fin p) ℝ) :
    Minimises (ngCost L X) S ↔ S.PosDef ∧
      ∀ S' : Matrix (Fin p) (Fin p) ℝ, S'.PosDef → tylerCost X S ≤ tylerCost X S' := by
  obtain ⟨k, hk⟩ := ngCost_eq L hs hn
  constructor
  · rintro ⟨hS, v, hv, hmin⟩
    refine ⟨hS, fun S' hS' => ?_⟩
    obtain ⟨v', hv', hle⟩ := hmin S' hS'
    rw [hk S hS] at hv
    rw [hk S' hS'] at hv'
    rw [← CostVal.fin.inj (Except.ok.inj hv), ← CostVal.fin.inj (Except.ok.inj hv')] at hle
    linarith
  · rintro ⟨hS, hmin⟩
    exact ⟨hS, _, hk S hS, fun S' hS' => ⟨_, hk S' hS', by linarith [hmin S' hS']⟩⟩

theorem tyler_fix_minimises {𝕜 : Type} [RCLike 𝕜] {X : Matrix (Fin N) (Fin p) 𝕜}
    (hn : NonzeroSamples X) {S : Matrix (Fin p) (Fin p) 𝕜} (hS : S.PosDef)
    (h : mStep (wTyler p) X S = S) (S' : Matrix (Fin p) (Fin p) 𝕜) (hS' : S'.PosDef) :
    tylerCost X S ≤ tylerCost X S' := by
  rw [wTyler_eq] at h
  rw [tylerCost_eq, tylerCost_eq]
  exact fixed_point_minimises le_rfl X S S' hS hS' (fun i => by linarith [qf_pos hS (hn i)]) h

theorem tyler_min_fix {𝕜 : Type} [RCLike 𝕜] {X : Matrix (Fin N) (Fin p) 𝕜} (hp : 0 < p)
    (hX : Spans X)
    (hn : NonzeroSamples X) {S : Matrix (Fin p) (Fin p) 𝕜} (hS : S.PosDef)
    (h : ∀ S' : Matrix (Fin p) (Fin p) 𝕜, S'.PosDef → tylerCost X S ≤ tylerCost X S') :
    mStep (wTyler p) X S = S := by
  have hS' : (mStep (wTyler p) X S).PosDef := mStep_posDef _ X hX S fun i => wTyler_pos hn hS i
  have h3 := h _ hS'
  rw [tylerCost_eq, tylerCost_eq] at h3
  rw [wTyler_eq] at h3 ⊢
  exact student_step_eq le_rfl (nat_pos_of_spans hp hX) hp X hX
    (fun S hS i => by linarith [qf_pos hS (hn i)]) S hS h3

/-- What the solver returns is a fixed point of Tyler's iteration as soon as there is one. -/
theorem solver_fix (L : Lib) (hs : (L.envR N p).eigh.Ok)
    {init : Option (Matrix (Fin p) (Fin p) ℝ)} (hsol : SolverFinds L p init)
    {X : Matrix (Fin N) (Fin p) ℝ} (hp : 0 < p) (hn : NonzeroSamples X)
    {S0 : Matrix (Fin p) (Fin p) ℝ} (hS0 : S0.PosDef) (h0 : mStep (wTyler p) X S0 = S0) :
    ∃ S : Matrix (Fin p) (Fin p) ℝ, S.PosDef ∧ mStep (wTyler p) X S = S ∧
      L.solve p (ngCost L X) init = .ok (.fin S) := by
  have hX : Spans X := spans_of_scatter (by
    have : (mStep (wTyler p) X S0).PosDef := by rw [h0]; exact hS0
    exact this)
  obtain ⟨S, hS, hret⟩ := hsol (ngCost L X)
    ⟨S0, (minimises_iff L hs hn S0).2 ⟨hS0, tyler_fix_minimises hn hS0 h0⟩⟩
  obtain ⟨hpd, hmin⟩ := (minimises_iff L hs hn S).1 hS
  exact ⟨S, hpd, tyler_min_fix hp hX hn hpd hmin, hret⟩

theorem ngReal_of_solve (L : Lib) {X : Matrix (Fin N) (Fin p) ℝ}
    {init : Option (Matrix (Fin p) (Fin p) ℝ)} {S : Matrix (Fin p) (Fin p) ℝ}
    (h : L.solve p (ngCost L X) init = .ok (.fin S)) (name : String) :
    ∃ v, ngReal L X init name = .ok (FMat.normalise name (.fin S), v) := by
  obtain ⟨v, hv⟩ := ngCost_ok L X S
  refine ⟨v, ?_⟩
  simp only [ngReal, bind, Except.bind, h, hv]
  rfl

theorem ngComplex_of_solve (L : Lib) {X : Matrix (Fin N) (Fin p) ℂ}
    {init : Option (Matrix (Fin (p + p)) (Fin (p + p)) ℝ)}
    {S : Matrix (Fin (p + p)) (Fin (p + p)) ℝ}
    (h : L.solve (p + p) (ngCost L (realForm X)) init = .ok (.fin S)) (name : String) :
    ∃ v, ngComplex L X init name = .ok (FMat.normalise name (.fin (ngToComplex S)), v) := by
  obtain ⟨v, hv⟩ := ngReal_of_solve L h "None"
  rw [C30_none "None" (by decide +kernel)] at hv
  refine ⟨v, ?_⟩
  unfold realForm at hv
  simp only [ngComplex, bind, Except.bind]
  rw [hv]
  rfl

/-! ## Real form -/

theorem sample_realForm (X : Matrix (Fin N) (Fin p) ℂ) (i : Fin N) :
    sample (realForm X) i = halves (sample X i) := rfl

theorem realForm_nonzero {X : Matrix (Fin N) (Fin p) ℂ} (hn : NonzeroSamples X) :
    NonzeroSamples (realForm X) := fun i h => hn i (by
  rw [sample_realForm] at h
  rw [← zOf_halves (sample X i)]
  exact (zOf_eq_zero _).2 h)

theorem nonzero_of_realForm {X : Matrix (Fin N) (Fin p) ℂ} (hn : NonzeroSamples (realForm X)) :
    NonzeroSamples X := fun i h => hn i (by
  rw [sample_realForm]
  rw [← zOf_eq_zero, zOf_halves]
  exact h)

theorem halves_injective {z w : Fin p → ℂ} (h : halves z = halves w) : z = w := by
  rw [← zOf_halves z, h, zOf_halves]

theorem halves_zOf (x : Fin (p + p) → ℝ) : halves (zOf x) = x := by
  funext a
  refine Fin.addCases (fun i => ?_) (fun i => ?_) a
  · simp [halves, zOf]
  · simp only [halves, zOf, Fin.append_right]

theorem realify_mulVec_halves (a : Matrix (Fin p) (Fin p) ℂ) (z : Fin p → ℂ) :
    ((2 : ℝ) • realify a) *ᵥ halves z = halves (a *ᵥ z) := by
  rw [← halves_zOf (((2 : ℝ) • realify a) *ᵥ halves z)]
  congr 1
  have h := zOf_realify_mulVec a (halves z)
  rw [zOf_halves] at h
  have h2 : zOf (((2 : ℝ) • realify a) *ᵥ halves z) = (2 : ℂ) • zOf (realify a *ᵥ halves z) := by
    rw [smul_mulVec]
    funext i
    apply Complex.ext <;> simp [zOf]
  rw [h2, h, smul_smul]
  norm_num

theorem indecomposable_of_realForm {X : Matrix (Fin N) (Fin p) ℂ}
    (h : Indecomposable (realForm X)) : Indecomposable X := by
  intro P hPP hP
  have h1 := h ((2 : ℝ) • realify P) (by
    have := realify_mul P P
    rw [hPP] at this
    rw [Matrix.smul_mul, Matrix.mul_smul, ← this]) (fun i => by
      rw [sample_realForm, realify_mulVec_halves]
      rcases hP i with h | h
      · left; rw [h]
      · right; rw [h]; rw [← zOf_eq_zero, zOf_halves])
  rcases h1 with h1 | h1
  · left
    apply realify_injective
    have : realify (0 : Matrix (Fin p) (Fin p) ℂ) = 0 := by
      have := realify_smul 0 (0 : Matrix (Fin p) (Fin p) ℂ)
      simpa using this
    rw [this]
    simpa using h1
  · right
    apply realify_injective
    rw [realify_one, ← h1, smul_smul]
    norm_num

theorem qf_realify {M : Matrix (Fin p) (Fin p) ℂ} (hM : M.PosDef) (z : Fin p → ℂ) :
    qf (realify M) (halves z) = 2 * qf M z := by
  have h := quad_realify_inv hM (halves z)
  rw [zOf_halves] at h
  simpa [qf] using h

/-- The real and the imaginary part of a complex scatter matrix in terms of the scatter matrix of
the real form. -/
theorem scatter_realForm (w : Fin N → ℝ) (X : Matrix (Fin N) (Fin p) ℂ) (i j : Fin p) :
    scatter w X i j =
      ⟨scatter w (realForm X) (Fin.castAdd p i) (Fin.castAdd p j) +
         scatter w (realForm X) (Fin.natAdd p i) (Fin.natAdd p j),
       scatter w (realForm X) (Fin.natAdd p i) (Fin.castAdd p j) -
         scatter w (realForm X) (Fin.castAdd p i) (Fin.natAdd p j)⟩ := by
  have hre : ∀ i j, realForm X i (Fin.castAdd p j) = (X i j).re := fun i j => by
    simp [realForm]
  have him : ∀ i j, realForm X i (Fin.natAdd p j) = (X i j).im := fun i j => by
    simp only [realForm, of_apply, Fin.append_right]
  have hN : ((N : ℂ))⁻¹ = (((N : ℝ)⁻¹ : ℝ) : ℂ) := by push_cast; rfl
  simp only [scatter_apply, hre, him]
  apply Complex.ext
  · rw [hN, Complex.re_ofReal_mul, Complex.re_sum]
    simp only [← mul_add, ← Finset.sum_add_distrib]
    refine congrArg₂ _ rfl (Finset.sum_congr rfl fun k _ => ?_)
    simp
  · rw [hN, Complex.im_ofReal_mul, Complex.im_sum]
    simp only [← mul_sub, ← Finset.sum_sub_distrib]
    refine congrArg₂ _ rfl (Finset.sum_congr rfl fun k _ => ?_)
    simp
    left
    ring

/-- A fixed point of the real form that comes from a complex matrix comes from a fixed point. -/
theorem fix_of_realForm {X : Matrix (Fin N) (Fin p) ℂ} {M : Matrix (Fin p) (Fin p) ℂ}
    (hM : M.PosDef) (h : mStep (wTyler (p + p)) (realForm X) (realify M) = realify M) :
    mStep (wTyler p) X M = M := by
  have hw : (fun i => wTyler (p + p) (qf (realify M) (sample (realForm X) i))) =
      fun i => wTyler p (qf M (sample X i)) := by
    funext i
    rw [sample_realForm, qf_realify hM]
    unfold wTyler
    rw [show ((p + p : ℕ) : ℝ) = 2 * p by push_cast; ring, mul_div_mul_left _ _ two_ne_zero]
  unfold mStep at h ⊢
  rw [hw] at h
  ext i j
  rw [scatter_realForm, h, realify_castAdd_castAdd, realify_natAdd_natAdd, realify_natAdd_castAdd,
    realify_castAdd_natAdd]
  apply Complex.ext
  · simp only; ring
  · simp only; ring

theorem exists_realify {S : Matrix (Fin (p + p)) (Fin (p + p)) ℝ} (hS : S.PosDef)
    (hB : IsBlockForm S) : ∃ M : Matrix (Fin p) (Fin p) ℂ, M.PosDef ∧ realify M = S ∧
      ngToComplex S = M := by
  obtain ⟨P, Q, hB⟩ := hB
  let M0 : Matrix (Fin p) (Fin p) ℂ := of fun i j => ⟨2 * P i j, 2 * Q i j⟩
  have hM : realify M0 = S := by
    apply ext_halves <;> intro i j
    · rw [realify_castAdd_castAdd, (hB i j).1]; simp [M0]
    · rw [realify_castAdd_natAdd, (hB i j).2.1]; simp [M0]
    · rw [realify_natAdd_castAdd, (hB i j).2.2.1]; simp [M0]
    · rw [realify_natAdd_natAdd, (hB i j).2.2.2]; simp [M0]
  have hpd : M0.PosDef := by rw [← realify_posDef, hM]; exact hS
  refine ⟨M0, hpd, hM, ?_⟩
  ext i j
  have h1 := congrFun (congrFun hpd.1 i) j
  rw [conjTranspose_apply] at h1
  have hre : 2 * P j i = 2 * P i j := by simpa [M0] using congrArg Complex.re h1
  have him : -(2 * Q j i) = 2 * Q i j := by simpa [M0] using congrArg Complex.im h1
  rw [ngToComplex_apply, (hB i j).1, (hB j i).1, (hB i j).2.2.1, (hB j i).2.2.1]
  apply Complex.ext
  · simp only [M0, of_apply]; linarith
  · simp only [M0, of_apply]; linarith

/-- Multiplication by `i` on the real form. -/
noncomputable def timesI (p : ℕ) : Matrix (Fin (p + p)) (Fin (p + p)) ℝ :=
  (2 : ℝ) • realify (Complex.I • (1 : Matrix (Fin p) (Fin p) ℂ))

theorem timesI_transpose : (timesI p)ᵀ = -timesI p := by
  unfold timesI
  rw [transpose_smul, realify_transpose, ← smul_neg]
  congr 1
  have := realify_smul (-1) (Complex.I • (1 : Matrix (Fin p) (Fin p) ℂ))
  rw [neg_one_smul] at this
  rw [← this]
  congr 1
  rw [conjTranspose_smul, conjTranspose_one]
  simp

theorem timesI_sq : timesI p * timesI p = -1 := by
  unfold timesI
  have h := realify_mul (Complex.I • (1 : Matrix (Fin p) (Fin p) ℂ)) (Complex.I • 1)
  rw [Matrix.smul_mul, Matrix.mul_smul, ← h]
  have h2 : (Complex.I • (1 : Matrix (Fin p) (Fin p) ℂ)) * (Complex.I • 1) = ((-1 : ℝ) : ℂ) • 1 := by
    rw [Matrix.smul_mul, Matrix.mul_smul, smul_smul, Complex.I_mul_I, Matrix.one_mul]
    simp
  rw [h2, realify_smul, realify_one, smul_smul, smul_smul]
  norm_num

theorem timesI_mul_transpose : timesI p * (timesI p)ᵀ = 1 := by
  rw [timesI_transpose, Matrix.mul_neg, timesI_sq, neg_neg]

theorem blockForm_of_commute {S : Matrix (Fin (p + p)) (Fin (p + p)) ℝ}
    (h : timesI p * S = S * timesI p) : IsBlockForm S := by
  have e1 : ∀ i j, timesI p (Fin.castAdd p i) (Fin.castAdd p j) = 0 := fun i j => by
    rw [timesI, Matrix.smul_apply, realify_castAdd_castAdd]
    simp [Matrix.one_apply]
    split_ifs <;> simp
  have e2 : ∀ i j, timesI p (Fin.natAdd p i) (Fin.natAdd p j) = 0 := fun i j => by
    rw [timesI, Matrix.smul_apply, realify_natAdd_natAdd]
    simp [Matrix.one_apply]
    split_ifs <;> simp
  have e3 : ∀ i j, timesI p (Fin.castAdd p i) (Fin.natAdd p j) = -(1 : Matrix (Fin p) (Fin p) ℝ) i j :=
    fun i j => by
    rw [timesI, Matrix.smul_apply, realify_castAdd_natAdd]
    simp [Matrix.one_apply]
    split_ifs <;> simp
  have e4 : ∀ i j, timesI p (Fin.natAdd p i) (Fin.castAdd p j) = (1 : Matrix (Fin p) (Fin p) ℝ) i j :=
    fun i j => by
    rw [timesI, Matrix.smul_apply, realify_natAdd_castAdd]
    simp [Matrix.one_apply]
    split_ifs <;> simp
  refine ⟨of fun i j => S (Fin.castAdd p i) (Fin.castAdd p j),
    of fun i j => S (Fin.natAdd p i) (Fin.castAdd p j), fun i j => ⟨rfl, ?_, rfl, ?_⟩⟩
  · have := congrFun (congrFun h (Fin.castAdd p i)) (Fin.castAdd p j)
    simp only [Matrix.mul_apply, Fin.sum_univ_add, e1, e3, e4] at this
    simp [Matrix.one_apply, -Fin.natAdd_eq_addNat] at this
    simp only [of_apply]
    linarith
  · have := congrFun (congrFun h (Fin.natAdd p i)) (Fin.castAdd p j)
    simp only [Matrix.mul_apply, Fin.sum_univ_add, e1, e2, e4] at this
    simp [Matrix.one_apply, -Fin.natAdd_eq_addNat] at this
    simp only [of_apply]
    linarith

/-- When the data set is closed under multiplication by `i`, the Tyler estimate of its real form
has the block form. -/
theorem circular_blockForm {X : Matrix (Fin N) (Fin p) ℂ} (hp : 0 < p)
    (hn : NonzeroSamples X) (hI : Indecomposable (realForm X)) (π : Equiv.Perm (Fin N))
    (hπ : ∀ i j, X (π i) j = Complex.I * X i j)
    {S : Matrix (Fin (p + p)) (Fin (p + p)) ℝ} (hS : S.PosDef)
    (h : mStep (wTyler (p + p)) (realForm X) S = S) : IsBlockForm S := by
  have hu : IsUnit (timesI p) :=
    IsUnit.of_mul_eq_one _ timesI_mul_transpose
  have hX : realForm X * (timesI p)ᵀ = (realForm X).submatrix π id := by
    have : ∀ i, sample (realForm X * (timesI p)ᵀ) i = sample ((realForm X).submatrix π id) i := by
      intro i
      rw [sample_mul, sample_realForm, timesI, realify_mulVec_halves]
      change _ = sample (realForm X) (π i)
      rw [sample_realForm]
      congr 1
      funext j
      rw [smul_mulVec, one_mulVec]
      exact (hπ i j).symm
    ext i j
    exact congrFun (this i) j
  have h1 := mStep_equivariant (wTyler (p + p)) (realForm X) (timesI p) hu S
  rw [hX, mStep_perm, h, conjTranspose_eq_transpose_of_trivial] at h1
  have hS' : (timesI p * S * (timesI p)ᵀ).PosDef := by
    rw [← conjTranspose_eq_transpose_of_trivial]
    exact posDef_congr hu hS
  obtain ⟨c, hc, hcS⟩ := tyler_unique (by omega) (realForm X) (realForm_nonzero hn) hI S _ hS hS' h
    (tyler_fix_minimises (realForm_nonzero hn) hS' h1 S hS)
  have hcS' : timesI p * S * (timesI p)ᵀ = c • S := hcS
  have hc2 : c * c = 1 := by
    have h2 : timesI p * (timesI p * S * (timesI p)ᵀ) * (timesI p)ᵀ = S := by
      rw [timesI_transpose]
      have : timesI p * (timesI p * S * -timesI p) * -timesI p =
          (timesI p * timesI p) * S * (timesI p * timesI p) := by
        simp only [Matrix.mul_neg, Matrix.neg_mul, neg_neg, Matrix.mul_assoc]
      rw [this, timesI_sq]
      simp
    rw [hcS', Matrix.mul_smul, Matrix.smul_mul, hcS', smul_smul] at h2
    have h3 := congrFun (congrFun h2 ⟨0, by omega⟩) ⟨0, by omega⟩
    have h4 : 0 < S ⟨0, by omega⟩ ⟨0, by omega⟩ := hS.diag_pos
    rw [Matrix.smul_apply, smul_eq_mul] at h3
    exact mul_right_cancel₀ h4.ne' (by rw [h3, one_mul])
  have hc1 : c = 1 := by nlinarith
  rw [hc1, one_smul] at hcS'
  apply blockForm_of_commute
  have h3 : timesI p * S * (timesI p)ᵀ * timesI p = S * timesI p := by rw [hcS']
  rw [Matrix.mul_assoc, timesI_transpose, Matrix.neg_mul, timesI_sq, neg_neg, Matrix.mul_one] at h3
  exact h3

end RS
