import Verif.Lemmas.TylerConverge
import Verif.Lemmas.LogDist
import Verif.Lemmas.HuberConverge

/-! Tyler's iteration converges at a geometric rate. -/
set_option autoImplicit false

namespace RS
open Matrix ComplexOrder Filter Topology

section
variable {𝕜 : Type} [RCLike 𝕜] {N p : ℕ}

/-- The real part of `x^H Q x`. -/
noncomputable def qform (Q : Matrix (Fin p) (Fin p) 𝕜) (x : Fin p → 𝕜) : ℝ :=
  RCLike.re (star x ⬝ᵥ (Q *ᵥ x))

theorem qform_add (Q R : Matrix (Fin p) (Fin p) 𝕜) (x : Fin p → 𝕜) :
    qform (Q + R) x = qform Q x + qform R x := by
  unfold qform; rw [add_mulVec, dotProduct_add, map_add]

theorem qform_sub (Q R : Matrix (Fin p) (Fin p) 𝕜) (x : Fin p → 𝕜) :
    qform (Q - R) x = qform Q x - qform R x := by
  unfold qform; rw [sub_mulVec, dotProduct_sub, map_sub]

theorem qform_smul (c : ℝ) (Q : Matrix (Fin p) (Fin p) 𝕜) (x : Fin p → 𝕜) :
    qform ((c : 𝕜) • Q) x = c * qform Q x := by
  unfold qform; rw [smul_mulVec, dotProduct_smul, smul_eq_mul, RCLike.re_ofReal_mul]

theorem qform_mono {Q R : Matrix (Fin p) (Fin p) 𝕜} (h : Loewner Q R) (x : Fin p → 𝕜) :
    qform Q x ≤ qform R x := by
  have h1 := (RCLike.nonneg_iff.1 (PosSemidef.dotProduct_mulVec_nonneg h x)).1
  have h2 : 0 ≤ qform (R - Q) x := h1
  rw [qform_sub] at h2
  linarith

theorem qform_one_pos {x : Fin p → 𝕜} (hx : x ≠ 0) : 0 < qform 1 x := by
  have := qf_pos (PosDef.one (n := Fin p) (R := 𝕜)) hx
  simpa [qf, qform] using this

theorem qform_one (x : Fin p → 𝕜) : qform 1 x = ∑ j, ‖x j‖ ^ 2 := by
  unfold qform
  rw [one_mulVec]
  simp only [dotProduct, map_sum, Pi.star_apply, RCLike.star_def, RCLike.conj_mul]
  exact Finset.sum_congr rfl fun j _ => by rw [← RCLike.ofReal_pow, RCLike.ofReal_re]

theorem qform_sq {P : Matrix (Fin p) (Fin p) 𝕜} (hP : P.IsHermitian) (x : Fin p → 𝕜) :
    qform (P * P) x = qform 1 (P *ᵥ x) := by
  unfold qform
  rw [one_mulVec, star_mulVec, ← dotProduct_mulVec, hP.eq, mulVec_mulVec]

theorem qform_inner_comm {P : Matrix (Fin p) (Fin p) 𝕜} (x : Fin p → 𝕜) :
    RCLike.re (star (P *ᵥ x) ⬝ᵥ x) = qform P x := by
  unfold qform
  rw [star_dotProduct, RCLike.star_def, RCLike.conj_re]

/-- How far a vector is from being an eigenvector. -/
theorem qform_defect {P : Matrix (Fin p) (Fin p) 𝕜} (hP : P.IsHermitian) (x : Fin p → 𝕜) (t : ℝ) :
    qform 1 (P *ᵥ x - (t : 𝕜) • x) = qform (P * P) x - 2 * t * qform P x + t ^ 2 * qform 1 x := by
  have h1 := qform_inner_comm (P := P) x
  rw [qform_sq hP]
  unfold qform at *
  rw [one_mulVec, one_mulVec, one_mulVec, star_sub, star_smul, sub_dotProduct, dotProduct_sub,
    dotProduct_sub, smul_dotProduct, smul_dotProduct, dotProduct_smul, dotProduct_smul,
    RCLike.star_def, RCLike.conj_ofReal]
  simp only [smul_eq_mul, map_sub, RCLike.re_ofReal_mul]
  rw [h1]
  ring

theorem trace_scatter (Q : Matrix (Fin p) (Fin p) 𝕜) (w : Fin N → ℝ) (X : Matrix (Fin N) (Fin p) 𝕜) :
    RCLike.re (trace (Q * scatter w X)) = (N : ℝ)⁻¹ * ∑ i, w i * qform Q (sample X i) := by
  unfold scatter
  rw [Matrix.mul_smul, trace_smul, Matrix.mul_sum, trace_sum, smul_eq_mul,
    show ((N : 𝕜)⁻¹) = (((N : ℝ)⁻¹ : ℝ) : 𝕜) by push_cast; rfl, RCLike.re_ofReal_mul, map_sum]
  congr 1
  refine Finset.sum_congr rfl fun i _ => ?_
  rw [Matrix.mul_smul, trace_smul, smul_eq_mul, RCLike.re_ofReal_mul, Matrix.mul_vecMulVec,
    trace_vecMulVec, dotProduct_comm]
  rfl

theorem scatter_isHermitian (w : Fin N → ℝ) (X : Matrix (Fin N) (Fin p) 𝕜) :
    (scatter w X).IsHermitian := by
  have h : scatter w X = scatter (fun i => max (w i) 0) X - scatter (fun i => max (-w i) 0) X := by
    rw [eq_sub_iff_add_eq, ← scatter_add]
    congr 1
    funext i
    rcases le_total (w i) 0 with h | h
    · rw [max_eq_right h, max_eq_left (by linarith)]; ring
    · rw [max_eq_left h, max_eq_right (by linarith)]; ring
  rw [h]
  exact (scatter_posSemidef _ (fun i => le_max_right _ _) X).1.sub
    (scatter_posSemidef _ (fun i => le_max_right _ _) X).1

theorem frob_sq_herm {P : Matrix (Fin p) (Fin p) 𝕜} (hP : P.IsHermitian) :
    frob P ^ 2 = RCLike.re (trace (P * P)) := by rw [frob_sq, hP.eq]

theorem abs_qform_le {P : Matrix (Fin p) (Fin p) 𝕜} (hP : P.IsHermitian) (x : Fin p → 𝕜) :
    |qform P x| ≤ frob P * qform 1 x := by
  have h1 := qform_mono (hermitian_le_frob hP) x
  have h2 := qform_mono (hermitian_le_frob hP.neg) x
  have h3 : frob (-P) = frob P := by
    have := frob_smul (-1) P
    simpa using this
  rw [qform_smul] at h1 h2
  rw [h3, show (-P) = 0 - P by simp, qform_sub] at h2
  have h0 : qform (0 : Matrix (Fin p) (Fin p) 𝕜) x = 0 := by simp [qform]
  rw [abs_le]
  constructor <;> linarith

/-! ### The linear part of Tyler's step at a fixed point -/

/-- Weights of Tyler's step at the identity. -/
noncomputable def unitW (X : Matrix (Fin N) (Fin p) 𝕜) (i : Fin N) : ℝ := p / qform 1 (sample X i)

/-- The Rayleigh quotient of a sample. -/
noncomputable def rayl (P : Matrix (Fin p) (Fin p) 𝕜) (X : Matrix (Fin N) (Fin p) 𝕜) (i : Fin N) : ℝ :=
  qform P (sample X i) / qform 1 (sample X i)

/-- The derivative of Tyler's step at the identity. -/
noncomputable def tyLin (X : Matrix (Fin N) (Fin p) 𝕜) (P : Matrix (Fin p) (Fin p) 𝕜) :
    Matrix (Fin p) (Fin p) 𝕜 := scatter (fun i => unitW X i * rayl P X i) X

/-- Its quadratic form. -/
noncomputable def tyQuad (X : Matrix (Fin N) (Fin p) 𝕜) (P : Matrix (Fin p) (Fin p) 𝕜) : ℝ :=
  (N : ℝ)⁻¹ * ∑ i, unitW X i * (rayl P X i ^ 2 * qform 1 (sample X i))

theorem mStep_one_eq (X : Matrix (Fin N) (Fin p) 𝕜) : mStep (wTyler p) X 1 = scatter (unitW X) X := by
  unfold mStep
  congr 1
  funext i
  simp [wTyler, unitW, qf, qform]

variable {X : Matrix (Fin N) (Fin p) 𝕜}

theorem unitW_pos (hp : 0 < p) (hn : NonzeroSamples X) (i : Fin N) : 0 < unitW X i :=
  div_pos (by exact_mod_cast hp) (qform_one_pos (hn i))

theorem tyQuad_nonneg (hp : 0 < p) (hn : NonzeroSamples X) (P : Matrix (Fin p) (Fin p) 𝕜) :
    0 ≤ tyQuad X P := by
  unfold tyQuad
  refine mul_nonneg (by positivity) (Finset.sum_nonneg fun i _ => ?_)
  exact mul_nonneg (unitW_pos hp hn i).le (mul_nonneg (sq_nonneg _) (qform_one_pos (hn i)).le)

theorem tyQuad_defect (hn : NonzeroSamples X) (hfix : scatter (unitW X) X = 1)
    {P : Matrix (Fin p) (Fin p) 𝕜} (hP : P.IsHermitian) :
    frob P ^ 2 - tyQuad X P = (N : ℝ)⁻¹ * ∑ i, unitW X i *
      qform 1 (P *ᵥ sample X i - ((rayl P X i : ℝ) : 𝕜) • sample X i) := by
  have h1 : frob P ^ 2 = (N : ℝ)⁻¹ * ∑ i, unitW X i * qform (P * P) (sample X i) := by
    rw [frob_sq_herm hP, ← trace_scatter, hfix, Matrix.mul_one]
  rw [h1, tyQuad, ← mul_sub, ← Finset.sum_sub_distrib]
  congr 1
  refine Finset.sum_congr rfl fun i _ => ?_
  rw [qform_defect hP, ← mul_sub]
  congr 1
  have h2 : qform P (sample X i) = rayl P X i * qform 1 (sample X i) := by
    unfold rayl
    field_simp [(qform_one_pos (hn i)).ne']
  rw [h2]
  ring

theorem tyQuad_le (hp : 0 < p) (hn : NonzeroSamples X) (hfix : scatter (unitW X) X = 1)
    {P : Matrix (Fin p) (Fin p) 𝕜} (hP : P.IsHermitian) : tyQuad X P ≤ frob P ^ 2 := by
  have h := tyQuad_defect hn hfix hP
  have h2 : 0 ≤ (N : ℝ)⁻¹ * ∑ i, unitW X i *
      qform 1 (P *ᵥ sample X i - ((rayl P X i : ℝ) : 𝕜) • sample X i) := by
    refine mul_nonneg (by positivity) (Finset.sum_nonneg fun i _ => ?_)
    refine mul_nonneg (unitW_pos hp hn i).le ?_
    rw [qform_one]
    positivity
  linarith

theorem tyLin_frob (hp : 0 < p) (hn : NonzeroSamples X) (hfix : scatter (unitW X) X = 1)
    (P : Matrix (Fin p) (Fin p) 𝕜) : frob (tyLin X P) ^ 2 ≤ tyQuad X P := by
  set L := tyLin X P with hL
  have hLH : L.IsHermitian := scatter_isHermitian _ X
  have h1 : frob L ^ 2 = (N : ℝ)⁻¹ * ∑ i, (unitW X i * qform 1 (sample X i)) *
      (rayl P X i * rayl L X i) := by
    rw [frob_sq_herm hLH]
    conv_lhs => rw [show L * L = L * scatter (fun i => unitW X i * rayl P X i) X from rfl]
    rw [trace_scatter]
    congr 1
    refine Finset.sum_congr rfl fun i _ => ?_
    have h2 : qform L (sample X i) = rayl L X i * qform 1 (sample X i) := by
      unfold rayl
      field_simp [(qform_one_pos (hn i)).ne']
    rw [h2]
    ring
  have h2 := tyQuad_le hp hn hfix hLH
  -- the mean of squares
  have h3 : 2 * frob L ^ 2 ≤ tyQuad X P + tyQuad X L := by
    rw [h1, tyQuad, tyQuad, ← mul_add, ← Finset.sum_add_distrib, mul_left_comm]
    refine mul_le_mul_of_nonneg_left ?_ (by positivity)
    rw [Finset.mul_sum]
    refine Finset.sum_le_sum fun i _ => ?_
    have h4 : 0 ≤ unitW X i * qform 1 (sample X i) :=
      mul_nonneg (unitW_pos hp hn i).le (qform_one_pos (hn i)).le
    nlinarith [mul_nonneg h4 (sq_nonneg (rayl P X i - rayl L X i))]
  linarith

/-- A Hermitian matrix of which all samples of indecomposable data are eigenvectors is a multiple
of the identity. -/
theorem scalar_of_eigen (hp : 0 < p) (hI : Indecomposable X) {P : Matrix (Fin p) (Fin p) 𝕜}
    (hP : P.IsHermitian) (r : Fin N → ℝ) (h : ∀ i, P *ᵥ sample X i = ((r i : ℝ) : 𝕜) • sample X i) :
    ∃ c : ℝ, P = (c : 𝕜) • (1 : Matrix (Fin p) (Fin p) 𝕜) := by
  obtain ⟨U, l, hU, hU', hPU⟩ : ∃ (U : Matrix (Fin p) (Fin p) 𝕜) (l : Fin p → ℝ), Uᴴ * U = 1 ∧
      U * Uᴴ = 1 ∧ P = U * diagonal (fun j => (l j : 𝕜)) * Uᴴ :=
    ⟨hP.eigenvectorUnitary, hP.eigenvalues,
      (Matrix.mem_unitaryGroup_iff').1 hP.eigenvectorUnitary.2,
      (Matrix.mem_unitaryGroup_iff).1 hP.eigenvectorUnitary.2, hP.spectral_theorem⟩
  let j0 : Fin p := ⟨0, hp⟩
  let D : Matrix (Fin p) (Fin p) 𝕜 := diagonal fun j => if l j = l j0 then 1 else 0
  have hDD : D * D = D := by
    simp only [D, diagonal_mul_diagonal]
    congr 1
    funext j
    split_ifs <;> simp
  have hy : ∀ i j, (Uᴴ *ᵥ sample X i) j ≠ 0 → l j = r i := by
    intro i j hj
    have h1 : Uᴴ *ᵥ (P *ᵥ sample X i) = ((r i : ℝ) : 𝕜) • (Uᴴ *ᵥ sample X i) := by
      rw [h i, mulVec_smul]
    have h2 : Uᴴ *ᵥ (P *ᵥ sample X i) = diagonal (fun j => (l j : 𝕜)) *ᵥ (Uᴴ *ᵥ sample X i) := by
      rw [mulVec_mulVec, mulVec_mulVec, hPU, ← Matrix.mul_assoc, ← Matrix.mul_assoc, hU,
        Matrix.one_mul]
    have h3 := congrFun (h2.symm.trans h1) j
    rw [mulVec_diagonal, Pi.smul_apply, smul_eq_mul] at h3
    exact RCLike.ofReal_injective (mul_right_cancel₀ hj h3)
  have hE := hI (U * D * Uᴴ) (by
    rw [show U * D * Uᴴ * (U * D * Uᴴ) = U * (D * (Uᴴ * U) * D) * Uᴴ by
      simp only [Matrix.mul_assoc], hU, Matrix.mul_one, hDD])
    (fun i => by
      have e : (U * D * Uᴴ) *ᵥ sample X i = U *ᵥ (D *ᵥ (Uᴴ *ᵥ sample X i)) := by
        simp only [mulVec_mulVec, Matrix.mul_assoc]
      rw [e]
      by_cases hrr : r i = l j0
      · left
        have : D *ᵥ (Uᴴ *ᵥ sample X i) = Uᴴ *ᵥ sample X i := by
          funext j
          rw [mulVec_diagonal]
          by_cases hj : (Uᴴ *ᵥ sample X i) j = 0
          · rw [hj, mul_zero]
          · rw [if_pos (by rw [hy i j hj, hrr]), one_mul]
        rw [this, mulVec_mulVec, hU', one_mulVec]
      · right
        have : D *ᵥ (Uᴴ *ᵥ sample X i) = 0 := by
          funext j
          rw [mulVec_diagonal]
          by_cases hj : (Uᴴ *ᵥ sample X i) j = 0
          · rw [hj, mul_zero]; rfl
          · rw [if_neg (by rw [hy i j hj]; exact hrr), zero_mul]; rfl
        rw [this, mulVec_zero])
  have hback : ∀ c : Matrix (Fin p) (Fin p) 𝕜, U * D * Uᴴ = c → D = Uᴴ * c * U := by
    intro c hc
    rw [← hc, show Uᴴ * (U * D * Uᴴ) * U = (Uᴴ * U) * D * (Uᴴ * U) by
      simp only [Matrix.mul_assoc], hU, Matrix.one_mul, Matrix.mul_one]
  have hl' : ∀ j, l j = l j0 := by
    rcases hE with hE | hE
    · have hD0 := hback _ hE
      rw [Matrix.mul_zero, Matrix.zero_mul] at hD0
      have := congrFun (congrFun hD0 j0) j0
      simp [D] at this
    · have hD1 := hback _ hE
      rw [Matrix.mul_one, hU] at hD1
      intro j
      have := congrFun (congrFun hD1 j) j
      simp only [D, diagonal_apply_eq, Matrix.one_apply_eq] at this
      by_contra hne
      rw [if_neg hne] at this
      exact zero_ne_one this
  refine ⟨l j0, ?_⟩
  rw [hPU, show (diagonal fun j => (l j : 𝕜)) = ((l j0 : ℝ) : 𝕜) • (1 : Matrix (Fin p) (Fin p) 𝕜) by
    rw [← diagonal_one, ← diagonal_smul]
    congr 1
    funext j
    simp [hl' j], Matrix.mul_smul, Matrix.mul_one, Matrix.smul_mul, hU']

theorem tyQuad_smul (c : ℝ) (P : Matrix (Fin p) (Fin p) 𝕜) :
    tyQuad X ((c : 𝕜) • P) = c ^ 2 * tyQuad X P := by
  unfold tyQuad rayl
  rw [mul_left_comm (c ^ 2)]
  refine congrArg (fun z => (N : ℝ)⁻¹ * z) ?_
  rw [Finset.mul_sum]
  refine Finset.sum_congr rfl fun i _ => ?_
  rw [qform_smul]
  ring

theorem continuous_tyQuad : Continuous (tyQuad X : Matrix (Fin p) (Fin p) 𝕜 → ℝ) := by
  unfold tyQuad rayl qform
  refine continuous_const.mul (continuous_finsetSum _ fun i _ => ?_)
  refine continuous_const.mul (Continuous.mul ?_ continuous_const)
  refine Continuous.pow (Continuous.div_const ?_ _) 2
  refine RCLike.continuous_re.comp ?_
  fun_prop

theorem continuous_frob : Continuous (frob : Matrix (Fin p) (Fin p) 𝕜 → ℝ) := by
  unfold frob
  fun_prop

/-- Traceless directions are contracted. -/
theorem tyler_gap (hp : 0 < p) (hn : NonzeroSamples X) (hI : Indecomposable X)
    (hfix : scatter (unitW X) X = 1) :
    ∃ q : ℝ, 0 ≤ q ∧ q < 1 ∧ ∀ P : Matrix (Fin p) (Fin p) 𝕜, P.IsHermitian →
      RCLike.re P.trace = 0 → frob (tyLin X P) ≤ q * frob P := by
  have hNpos : 0 < N := by
    by_contra hN
    have hN0 : N = 0 := by omega
    subst hN0
    have := congrFun (congrFun hfix ⟨0, hp⟩) ⟨0, hp⟩
    simp [scatter] at this
  set K : Set (Matrix (Fin p) (Fin p) 𝕜) := {P | P.IsHermitian ∧ RCLike.re P.trace = 0 ∧ frob P = 1}
    with hK
  have hKc : IsCompact K := by
    have hB : IsCompact (Set.univ.pi fun _ : Fin p => Set.univ.pi fun _ : Fin p =>
        Metric.closedBall (0 : 𝕜) 1) :=
      isCompact_univ_pi fun i => isCompact_univ_pi fun j => isCompact_closedBall 0 1
    refine hB.of_isClosed_subset ?_ ?_
    · have h1 : IsClosed {P : Matrix (Fin p) (Fin p) 𝕜 | P.IsHermitian} :=
        isClosed_eq (by fun_prop) continuous_id
      have h2 : IsClosed {P : Matrix (Fin p) (Fin p) 𝕜 | RCLike.re P.trace = 0} :=
        isClosed_eq (RCLike.continuous_re.comp (by fun_prop)) continuous_const
      have h3 : IsClosed {P : Matrix (Fin p) (Fin p) 𝕜 | frob P = 1} :=
        isClosed_eq continuous_frob continuous_const
      exact h1.inter (h2.inter h3)
    · rintro P ⟨-, -, h⟩ i _ j _
      rw [mem_closedBall_zero_iff, ← h]
      exact norm_entry_le P i j
  have hlt : ∀ P ∈ K, tyQuad X P < 1 := by
    rintro P ⟨hP, htr, hf⟩
    have h1 := tyQuad_le hp hn hfix hP
    rw [hf, one_pow] at h1
    refine lt_of_le_of_ne h1 fun heq => ?_
    have h2 := tyQuad_defect hn hfix hP
    rw [hf, heq, one_pow, sub_self] at h2
    have h3 : ∀ i, 0 ≤ unitW X i *
        qform 1 (P *ᵥ sample X i - ((rayl P X i : ℝ) : 𝕜) • sample X i) := fun i =>
      mul_nonneg (unitW_pos hp hn i).le (by rw [qform_one]; positivity)
    have h4 : ∑ i, unitW X i *
        qform 1 (P *ᵥ sample X i - ((rayl P X i : ℝ) : 𝕜) • sample X i) = 0 := by
      rcases mul_eq_zero.1 h2.symm with h | h
      · rw [inv_eq_zero, Nat.cast_eq_zero] at h; omega
      · exact h
    have h5 : ∀ i, P *ᵥ sample X i = ((rayl P X i : ℝ) : 𝕜) • sample X i := fun i => by
      have h6 := (Finset.sum_eq_zero_iff_of_nonneg fun i _ => h3 i).1 h4 i (Finset.mem_univ i)
      have h7 := (mul_eq_zero.1 h6).resolve_left (unitW_pos hp hn i).ne'
      by_contra hne
      exact (qform_one_pos (sub_ne_zero.2 hne)).ne' h7
    obtain ⟨c, hc⟩ := scalar_of_eigen hp hI hP _ h5
    rw [hc, trace_smul, trace_one, smul_eq_mul, RCLike.re_ofReal_mul, Fintype.card_fin] at htr
    have hc0 : c = 0 := by
      rcases mul_eq_zero.1 htr with h | h
      · exact h
      · rw [RCLike.natCast_re, Nat.cast_eq_zero] at h; omega
    rw [hc, hc0, RCLike.ofReal_zero, zero_smul] at hf
    simp [frob] at hf
  obtain ⟨q2, hq0, hq1, hq⟩ : ∃ q2 : ℝ, 0 ≤ q2 ∧ q2 < 1 ∧ ∀ P ∈ K, tyQuad X P ≤ q2 := by
    rcases K.eq_empty_or_nonempty with hE | hne
    · exact ⟨0, le_rfl, one_pos, fun P hP => absurd hP (by rw [hE]; exact Set.notMem_empty P)⟩
    · obtain ⟨P0, hP0, hmax⟩ := hKc.exists_isMaxOn hne continuous_tyQuad.continuousOn
      exact ⟨tyQuad X P0, tyQuad_nonneg hp hn P0, hlt P0 hP0, fun P hP => hmax hP⟩
  refine ⟨Real.sqrt q2, Real.sqrt_nonneg _, by rw [Real.sqrt_lt' one_pos]; simpa using hq1,
    fun P hP htr => ?_⟩
  have key : tyQuad X P ≤ q2 * frob P ^ 2 := by
    by_cases hf : frob P = 0
    · have := tyQuad_le hp hn hfix hP
      rw [hf] at this ⊢
      simpa using this
    · have hfp : 0 < frob P := lt_of_le_of_ne (frob_nonneg P) (Ne.symm hf)
      have hmem : (((frob P)⁻¹ : ℝ) : 𝕜) • P ∈ K := by
        refine ⟨?_, ?_, ?_⟩
        · unfold IsHermitian
          rw [conjTranspose_smul, hP.eq, RCLike.star_def, RCLike.conj_ofReal]
        · rw [trace_smul, smul_eq_mul, RCLike.re_ofReal_mul, htr, mul_zero]
        · rw [frob_smul, abs_of_pos (inv_pos.2 hfp), inv_mul_cancel₀ hf]
      have := hq _ hmem
      rw [tyQuad_smul, inv_pow, inv_mul_le_iff₀ (by positivity)] at this
      linarith
  have h1 := tyLin_frob hp hn hfix P
  refine (abs_le_of_sq_le_sq' ?_ (mul_nonneg (Real.sqrt_nonneg _) (frob_nonneg _))).2
  rw [mul_pow, Real.sq_sqrt hq0]
  linarith

/-! ### The remainder -/

theorem posDef_one_add {P : Matrix (Fin p) (Fin p) 𝕜} (hP : P.IsHermitian) (hf : frob P ≤ 1 / 2) :
    Loewner (((1 / 2 : ℝ) : 𝕜) • (1 : Matrix (Fin p) (Fin p) 𝕜)) (1 + P) ∧ (1 + P).PosDef := by
  have h1 := hermitian_le_frob hP.neg
  have h3 : frob (-P) = frob P := by
    have := frob_smul (-1) P
    simpa using this
  rw [h3] at h1
  have h2 := h1.trans (loewner_smul_le PosSemidef.one hf)
  have h4 : Loewner (((1 / 2 : ℝ) : 𝕜) • (1 : Matrix (Fin p) (Fin p) 𝕜)) (1 + P) := by
    unfold Loewner at h2 ⊢
    convert h2 using 1
    have : (1 : Matrix (Fin p) (Fin p) 𝕜) =
        ((1 / 2 : ℝ) : 𝕜) • (1 : Matrix (Fin p) (Fin p) 𝕜) + ((1 / 2 : ℝ) : 𝕜) • 1 := by
      rw [← add_smul, ← RCLike.ofReal_add]
      norm_num
    nth_rewrite 1 [this]
    abel
  exact ⟨h4, h4.posDef (PosDef.one.smul (by simp))⟩

theorem inv_one_add {P : Matrix (Fin p) (Fin p) 𝕜} (h : IsUnit (1 + P).det) :
    (1 + P)⁻¹ = 1 - P + P * (1 + P)⁻¹ * P := by
  have h1 : (1 + P) * (1 + P)⁻¹ = 1 := Matrix.mul_nonsing_inv _ h
  have h2 : (1 + P)⁻¹ * (1 + P) = 1 := Matrix.nonsing_inv_mul _ h
  rw [Matrix.add_mul, Matrix.one_mul] at h1
  rw [Matrix.mul_add, Matrix.mul_one] at h2
  have h3 : (1 + P)⁻¹ = 1 - P * (1 + P)⁻¹ := eq_sub_of_add_eq h1
  have h4 : (1 + P)⁻¹ * P = 1 - (1 + P)⁻¹ := eq_sub_of_add_eq' h2
  rw [Matrix.mul_assoc, h4, Matrix.mul_sub, Matrix.mul_one]
  nth_rewrite 1 [h3]
  abel

theorem qf_one_add {P : Matrix (Fin p) (Fin p) 𝕜} (hP : P.IsHermitian) (hf : frob P ≤ 1 / 2)
    (x : Fin p → 𝕜) : qform 1 x - qform P x ≤ qf (1 + P) x ∧
      qf (1 + P) x ≤ qform 1 x - qform P x + 2 * frob P ^ 2 * qform 1 x := by
  obtain ⟨h1, h2⟩ := posDef_one_add hP hf
  have h3 : qf (1 + P) x = qform 1 x - qform P x + qf (1 + P) (P *ᵥ x) := by
    have e : qf (1 + P) x = qform ((1 + P)⁻¹) x := rfl
    rw [e, inv_one_add h2.det_pos.ne'.isUnit, qform_add, qform_sub]
    congr 1
    unfold qform qf
    rw [star_mulVec, ← dotProduct_mulVec, hP.eq, mulVec_mulVec, mulVec_mulVec, Matrix.mul_assoc]
  have h4 := qf_nonneg h2 (P *ᵥ x)
  have h5 : qf (1 + P) (P *ᵥ x) ≤ 2 * qform 1 (P *ᵥ x) := by
    have h6 := qf_anti (PosDef.one.smul (by simp)) h1 (P *ᵥ x)
    rw [qf_smul PosDef.one (by norm_num)] at h6
    have h7 : qf (1 : Matrix (Fin p) (Fin p) 𝕜) (P *ᵥ x) = qform 1 (P *ᵥ x) := by simp [qf, qform]
    rw [h7] at h6
    linarith
  have h8 : qform 1 (P *ᵥ x) ≤ frob P ^ 2 * qform 1 x := by
    rw [← qform_sq hP]
    have hPP : (P * P).IsHermitian := by
      unfold IsHermitian
      rw [conjTranspose_mul, hP.eq]
    have h9 := qform_mono (hermitian_le_frob hPP) x
    rw [qform_smul] at h9
    refine h9.trans (mul_le_mul_of_nonneg_right ?_ (by rw [qform_one]; positivity))
    rw [sq]
    exact frob_mul_le P P
  rw [h3]
  constructor <;> linarith

/-- Tyler's step near the identity: linear part plus a remainder of second order. -/
theorem tyler_expand (hp : 0 < p) (hn : NonzeroSamples X) (hfix : scatter (unitW X) X = 1)
    {P : Matrix (Fin p) (Fin p) 𝕜} (hP : P.IsHermitian) (hf : frob P ≤ 1 / 2) :
    ∃ T : Matrix (Fin p) (Fin p) 𝕜, mStep (wTyler p) X (1 + P) = tyLin X P + T ∧
      Loewner (((1 - 2 * frob P ^ 2 : ℝ) : 𝕜) • 1) T ∧
      Loewner T (((1 + 2 * frob P ^ 2 : ℝ) : 𝕜) • 1) := by
  have hq : ∀ i, |p / qf (1 + P) (sample X i) / unitW X i - 1 - rayl P X i| ≤ 2 * frob P ^ 2 := by
    intro i
    have hx := qform_one_pos (hn i)
    obtain ⟨h1, h2⟩ := qf_one_add hP hf (sample X i)
    have h3 := abs_qform_le hP (sample X i)
    have hqp := qf_pos (posDef_one_add hP hf).2 (hn i)
    have hp' : (0 : ℝ) < p := by exact_mod_cast hp
    set n := qform 1 (sample X i)
    set u := rayl P X i with hu
    have hb : qform P (sample X i) = u * n := by
      rw [hu]; unfold rayl
      exact (div_mul_cancel₀ _ hx.ne').symm
    rw [hb] at h1 h2 h3
    set t := qf (1 + P) (sample X i) / n with ht
    have e1 : p / qf (1 + P) (sample X i) / unitW X i = 1 / t := by
      have : unitW X i = p / n := rfl
      rw [this, ht]
      field_simp
    have ht0 : 0 < t := div_pos hqp hx
    have ht1 : 1 - u ≤ t := by rw [ht, le_div_iff₀ hx]; linarith
    have ht2 : t ≤ 1 - u + 2 * frob P ^ 2 := by rw [ht, div_le_iff₀ hx]; linarith
    have hu1 : |u| ≤ frob P := by
      rw [abs_mul, abs_of_pos hx] at h3
      exact le_of_mul_le_mul_right h3 hx
    obtain ⟨hu2, hu3⟩ := abs_le.1 hu1
    have hf0 := frob_nonneg P
    have husq : u ^ 2 ≤ frob P ^ 2 := sq_le_sq' hu2 hu3
    rw [e1, abs_le]
    constructor
    · have : 1 + u - 2 * frob P ^ 2 ≤ 1 / t := by
        rw [le_div_iff₀ ht0]
        by_cases hneg : 1 + u - 2 * frob P ^ 2 ≤ 0
        · nlinarith
        · push Not at hneg
          nlinarith [sq_nonneg (u - 2 * frob P ^ 2)]
      linarith
    · have : 1 / t ≤ 1 + u + 2 * frob P ^ 2 := by
        rw [div_le_iff₀ ht0]
        have h5 : 0 ≤ 1 + u + 2 * frob P ^ 2 := by nlinarith
        have h6 := mul_le_mul_of_nonneg_left ht1 h5
        nlinarith
      linarith
  refine ⟨scatter (fun i => p / qf (1 + P) (sample X i) - unitW X i * rayl P X i) X, ?_, ?_, ?_⟩
  · unfold tyLin
    rw [← scatter_add]
    unfold mStep
    congr 1
    funext i
    unfold wTyler
    ring
  · have e : ∀ c : ℝ, ((c : ℝ) : 𝕜) • (1 : Matrix (Fin p) (Fin p) 𝕜) =
        scatter (fun i => c * unitW X i) X := fun c => by rw [scatter_smul, hfix]
    rw [e]
    refine scatter_mono (fun i => ?_) X
    have hw := unitW_pos hp hn i
    have h1 := (abs_le.1 (hq i)).1
    have h2 : (p / qf (1 + P) (sample X i)) = unitW X i * (p / qf (1 + P) (sample X i) / unitW X i) := by
      field_simp
    rw [h2]
    nlinarith
  · have e : ∀ c : ℝ, ((c : ℝ) : 𝕜) • (1 : Matrix (Fin p) (Fin p) 𝕜) =
        scatter (fun i => c * unitW X i) X := fun c => by rw [scatter_smul, hfix]
    rw [e]
    refine scatter_mono (fun i => ?_) X
    have hw := unitW_pos hp hn i
    have h1 := (abs_le.1 (hq i)).2
    have h2 : (p / qf (1 + P) (sample X i)) = unitW X i * (p / qf (1 + P) (sample X i) / unitW X i) := by
      field_simp
    rw [h2]
    nlinarith

theorem re_trace_tyLin (hn : NonzeroSamples X) (hfix : scatter (unitW X) X = 1)
    (P : Matrix (Fin p) (Fin p) 𝕜) : RCLike.re (tyLin X P).trace = RCLike.re P.trace := by
  have h1 := trace_scatter 1 (fun i => unitW X i * rayl P X i) X
  have h2 := trace_scatter P (unitW X) X
  rw [Matrix.one_mul] at h1
  rw [hfix, Matrix.mul_one] at h2
  change RCLike.re (scatter (fun i => unitW X i * rayl P X i) X).trace = _
  rw [h1, h2]
  congr 1
  refine Finset.sum_congr rfl fun i _ => ?_
  unfold rayl
  field_simp [(qform_one_pos (hn i)).ne']

theorem re_trace_smul_one (c : ℝ) :
    RCLike.re (((c : ℝ) : 𝕜) • (1 : Matrix (Fin p) (Fin p) 𝕜)).trace = c * p := by
  rw [trace_smul, smul_eq_mul, RCLike.re_ofReal_mul, trace_one, Fintype.card_fin,
    RCLike.natCast_re]

theorem frob_one_le : frob (1 : Matrix (Fin p) (Fin p) 𝕜) ≤ p := by
  have := frob_le_trace (PosSemidef.one (n := Fin p) (R := 𝕜))
  rwa [trace_one, Fintype.card_fin, RCLike.natCast_re] at this

/-- One step near the identity. -/
theorem tyler_local (hp : 0 < p) (hn : NonzeroSamples X) (hfix : scatter (unitW X) X = 1) {q : ℝ}
    (hq1 : q ≤ 1) (hq : ∀ P : Matrix (Fin p) (Fin p) 𝕜, P.IsHermitian → RCLike.re P.trace = 0 →
      frob (tyLin X P) ≤ q * frob P)
    {P : Matrix (Fin p) (Fin p) 𝕜} (hP : P.IsHermitian) (htr : RCLike.re P.trace = 0)
    (hf : frob P ≤ 1 / 2) :
    ∃ c : ℝ, |c - 1| ≤ 2 * frob P ^ 2 ∧ RCLike.re (mStep (wTyler p) X (1 + P)).trace = c * p ∧
      frob (mStep (wTyler p) X (1 + P) - (c : 𝕜) • 1) ≤ q * frob P + 8 * p * frob P ^ 2 ∧
      frob (mStep (wTyler p) X (1 + P) - (1 + P)) ≤ 2 * frob P + 6 * p * frob P ^ 2 ∧
      (1 - q) * frob P ≤ frob (mStep (wTyler p) X (1 + P) - (1 + P)) + 6 * p * frob P ^ 2 := by
  obtain ⟨T, hT, h1, h2⟩ := tyler_expand hp hn hfix hP hf
  have hp' : (0 : ℝ) < p := by exact_mod_cast hp
  have h3 := frob_squeeze' PosDef.one (by positivity) h1 h2
  have h4 := h1.trace_le
  have h5 := h2.trace_le
  rw [re_trace_smul_one] at h4 h5
  have htr1 : RCLike.re (1 : Matrix (Fin p) (Fin p) 𝕜).trace = p := by
    rw [trace_one, Fintype.card_fin, RCLike.natCast_re]
  rw [htr1] at h3
  have h6 := hq P hP htr
  have hf0 := frob_nonneg P
  have hc : |RCLike.re T.trace / p - 1| ≤ 2 * frob P ^ 2 := by
    rw [abs_le]
    constructor
    · rw [neg_le_sub_iff_le_add, ← sub_le_iff_le_add, le_div_iff₀ hp']
      exact h4
    · rw [sub_le_iff_le_add', div_le_iff₀ hp']
      exact h5
  refine ⟨RCLike.re T.trace / p, hc, ?_, ?_, ?_, ?_⟩
  · rw [hT, trace_add, map_add, re_trace_tyLin hn hfix, htr, zero_add, div_mul_cancel₀ _ hp'.ne']
  · have e : mStep (wTyler p) X (1 + P) - ((RCLike.re T.trace / p : ℝ) : 𝕜) • 1 =
        (tyLin X P + (T - 1)) - ((RCLike.re T.trace / p - 1 : ℝ) : 𝕜) • 1 := by
      rw [hT, RCLike.ofReal_sub (RCLike.re T.trace / p) 1, sub_smul, RCLike.ofReal_one, one_smul]
      abel
    rw [e]
    refine (frob_sub_le _ _).trans ?_
    rw [frob_smul]
    have h7 := frob_add_le (tyLin X P) (T - 1)
    have h8 : |RCLike.re T.trace / p - 1| * frob (1 : Matrix (Fin p) (Fin p) 𝕜) ≤
        2 * frob P ^ 2 * p := mul_le_mul hc frob_one_le (frob_nonneg _) (by positivity)
    linarith
  · have e : mStep (wTyler p) X (1 + P) - (1 + P) = tyLin X P + (T - 1) - P := by
      rw [hT]
      abel
    rw [e]
    refine (frob_sub_le _ _).trans ?_
    have h7 := frob_add_le (tyLin X P) (T - 1)
    nlinarith
  · have e : P = tyLin X P + (T - 1) - (mStep (wTyler p) X (1 + P) - (1 + P)) := by
      rw [hT]
      abel
    have h7 := frob_add_le (tyLin X P) (T - 1)
    have h8 := frob_sub_le (tyLin X P + (T - 1)) (mStep (wTyler p) X (1 + P) - (1 + P))
    rw [← e] at h8
    linarith

/-! ### The iterates -/

theorem geometric_limit {A : ℕ → Matrix (Fin p) (Fin p) 𝕜} {Q : Matrix (Fin p) (Fin p) 𝕜} {C r : ℝ}
    (hr0 : 0 ≤ r) (hr1 : r < 1) (h : ∀ k, frob (A (k + 1) - A k) ≤ C * r ^ k)
    (hlim : Tendsto A atTop (𝓝 Q)) (k : ℕ) : frob (A k - Q) ≤ C / (1 - r) * r ^ k := by
  have h1 : 0 < 1 - r := by linarith
  have key : ∀ m, frob (A k - A (k + m)) ≤ C / (1 - r) * r ^ k * (1 - r ^ m) := by
    intro m
    induction m with
    | zero => simp [frob]
    | succ m ih =>
      have e : A k - A (k + (m + 1)) = (A k - A (k + m)) - (A (k + m + 1) - A (k + m)) := by
        rw [← add_assoc]; abel
      rw [e]
      refine (frob_sub_le _ _).trans ((add_le_add ih (h (k + m))).trans (le_of_eq ?_))
      rw [pow_add, pow_succ]
      field_simp
      ring
  have hC : 0 ≤ C := by
    have := (frob_nonneg _).trans (h 0)
    simpa using this
  have h2 : Tendsto (fun m => C / (1 - r) * r ^ k + frob (A (k + m) - Q)) atTop
      (𝓝 (C / (1 - r) * r ^ k + 0)) := by
    refine tendsto_const_nhds.add ((frob_of_tendsto hlim).comp ?_)
    exact tendsto_atTop_mono (fun m => Nat.le_add_left m k) tendsto_id
  rw [add_zero] at h2
  refine ge_of_tendsto' h2 fun m => ?_
  have e : A k - Q = (A k - A (k + m)) + (A (k + m) - Q) := by abel
  rw [e]
  refine (frob_add_le _ _).trans (add_le_add ((key m).trans ?_) le_rfl)
  have h3 : 0 ≤ r ^ m := by positivity
  have h4 : 0 ≤ C / (1 - r) * r ^ k := by positivity
  nlinarith

/-- The scale of a matrix. -/
noncomputable def mScale (A : Matrix (Fin p) (Fin p) 𝕜) : ℝ := RCLike.re A.trace / p

/-- Its deviation from a multiple of the identity, divided by the scale. -/
noncomputable def mDev (A : Matrix (Fin p) (Fin p) 𝕜) : Matrix (Fin p) (Fin p) 𝕜 :=
  (((mScale A)⁻¹ : ℝ) : 𝕜) • A - 1

theorem mScale_pos (hp : 0 < p) {A : Matrix (Fin p) (Fin p) 𝕜} (hA : A.PosDef) : 0 < mScale A := by
  have : Nonempty (Fin p) := ⟨⟨0, hp⟩⟩
  exact div_pos (RCLike.pos_iff.1 hA.trace_pos).1 (by exact_mod_cast hp)

theorem mDev_herm {A : Matrix (Fin p) (Fin p) 𝕜} (hA : A.IsHermitian) : (mDev A).IsHermitian := by
  unfold mDev IsHermitian
  rw [conjTranspose_sub, conjTranspose_smul, hA.eq, conjTranspose_one, RCLike.star_def,
    RCLike.conj_ofReal]

theorem mDev_trace (hp : 0 < p) {A : Matrix (Fin p) (Fin p) 𝕜} (h : 0 < mScale A) :
    RCLike.re (mDev A).trace = 0 := by
  have hp' : (p : ℝ) ≠ 0 := by exact_mod_cast hp.ne'
  unfold mDev
  rw [trace_sub, trace_smul, smul_eq_mul, map_sub, RCLike.re_ofReal_mul, trace_one,
    Fintype.card_fin, RCLike.natCast_re]
  have : RCLike.re A.trace = mScale A * p := by unfold mScale; field_simp
  rw [this, ← mul_assoc, inv_mul_cancel₀ h.ne', one_mul, sub_self]

theorem one_add_mDev {A : Matrix (Fin p) (Fin p) 𝕜} (h : 0 < mScale A) :
    A = (mScale A : 𝕜) • (1 + mDev A) := by
  unfold mDev
  rw [add_sub_cancel, smul_smul, ← RCLike.ofReal_mul, mul_inv_cancel₀ h.ne', RCLike.ofReal_one,
    one_smul]

/-- One step of the iteration, in terms of the deviation. -/
theorem tyler_dev_step (hp : 0 < p) (hn : NonzeroSamples X)
    (hfix : scatter (unitW X) X = 1) {q : ℝ} (hq0 : 0 ≤ q) (hq1 : q < 1)
    (hq : ∀ P : Matrix (Fin p) (Fin p) 𝕜, P.IsHermitian → RCLike.re P.trace = 0 →
      frob (tyLin X P) ≤ q * frob P) {A : Matrix (Fin p) (Fin p) 𝕜} (hA : A.PosDef)
    (hf : frob (mDev A) ≤ 1 / 2) (hf2 : 18 * p * frob (mDev A) ≤ 1 - q) :
    frob (mDev (mStep (wTyler p) X A)) ≤ (1 + q) / 2 * frob (mDev A) ∧
    frob (mStep (wTyler p) X A - A) ≤ mScale A * ((2 + 3 * p) * frob (mDev A)) ∧
    mScale A * ((1 - q) / 2 * frob (mDev A)) ≤ frob (mStep (wTyler p) X A - A) := by
  have hs := mScale_pos hp hA
  have hp1 : (1 : ℝ) ≤ p := by exact_mod_cast hp
  have hp' : (p : ℝ) ≠ 0 := by positivity
  have hf0 := frob_nonneg (mDev A)
  have hPD := (posDef_one_add (mDev_herm hA.1) hf).2
  obtain ⟨c, hc, htr, h1, h2, h2'⟩ := tyler_local hp hn hfix hq1.le hq (mDev_herm hA.1)
    (mDev_trace hp hs) hf
  have hB : mStep (wTyler p) X A = (mScale A : 𝕜) • mStep (wTyler p) X (1 + mDev A) := by
    conv_lhs => rw [one_add_mDev hs]
    exact mStep_tyler_smul X hPD hs
  set f := frob (mDev A)
  set B := mStep (wTyler p) X (1 + mDev A)
  obtain ⟨hc1, hc2⟩ := abs_le.1 hc
  have hf3 : f ≤ 1 / 18 * (1 - q) := by nlinarith
  have hc0 : 0 < c := by nlinarith
  have hsB : mScale (mStep (wTyler p) X A) = mScale A * c := by
    rw [hB]
    unfold mScale
    rw [trace_smul, smul_eq_mul, RCLike.re_ofReal_mul, htr]
    field_simp
  refine ⟨?_, ?_, ?_⟩
  · have e : mDev (mStep (wTyler p) X A) = ((c⁻¹ : ℝ) : 𝕜) • (B - (c : 𝕜) • 1) := by
      unfold mDev
      rw [hsB, hB, smul_smul, ← RCLike.ofReal_mul, smul_sub, smul_smul, ← RCLike.ofReal_mul,
        inv_mul_cancel₀ hc0.ne', RCLike.ofReal_one, one_smul]
      congr 3
      field_simp
    rw [e, frob_smul, abs_of_pos (inv_pos.2 hc0), inv_mul_le_iff₀ hc0]
    refine h1.trans ?_
    have h3 : 0 ≤ f * (c - 1 + 2 * f ^ 2) := mul_nonneg hf0 (by linarith)
    have h4 : 18 * p * f * f ≤ (1 - q) * f := mul_le_mul_of_nonneg_right hf2 hf0
    have h5 : (1 + q) / 2 * f * (1 - c) ≤ p * f ^ 2 := by
      have h6 : (1 + q) / 2 * (1 - c) ≤ f := by
        by_cases h7 : 0 ≤ 1 - c
        · have h8 : (1 + q) / 2 * (1 - c) ≤ 1 * (1 - c) :=
            mul_le_mul_of_nonneg_right (by linarith) h7
          nlinarith
        · push Not at h7
          nlinarith
      nlinarith
    nlinarith
  · have e : mStep (wTyler p) X A - A = (mScale A : 𝕜) • (B - (1 + mDev A)) := by
      rw [smul_sub, ← one_add_mDev hs, ← hB]
    rw [e, frob_smul, abs_of_pos hs]
    refine mul_le_mul_of_nonneg_left (h2.trans ?_) hs.le
    nlinarith [mul_nonneg (by linarith : (0 : ℝ) ≤ 6 * p) hf0]
  · have e : mStep (wTyler p) X A - A = (mScale A : 𝕜) • (B - (1 + mDev A)) := by
      rw [smul_sub, ← one_add_mDev hs, ← hB]
    rw [e, frob_smul, abs_of_pos hs]
    refine mul_le_mul_of_nonneg_left ?_ hs.le
    have h4 : 18 * p * f * f ≤ (1 - q) * f := mul_le_mul_of_nonneg_right hf2 hf0
    nlinarith

/-- A bound that holds from some index on and whenever the right hand side vanishes holds
everywhere, with a larger constant. -/
theorem finite_ratio {e d : ℕ → ℝ} (hd : ∀ k, 0 ≤ d k) (he : ∀ k, 0 ≤ e k) {K : ℕ} {D : ℝ}
    (h : ∀ k, K ≤ k → e k ≤ D * d k) (h0 : ∀ k, d k = 0 → e k = 0) :
    ∃ D' : ℝ, 0 ≤ D' ∧ ∀ k, e k ≤ D' * d k := by
  set M := ∑ k ∈ Finset.range K, e k / d k with hM
  have hpos : ∀ k, 0 ≤ e k / d k := fun k => div_nonneg (he k) (hd k)
  have hM0 : 0 ≤ M := Finset.sum_nonneg fun k _ => hpos k
  refine ⟨|D| + M, by positivity, fun k => ?_⟩
  by_cases hk : K ≤ k
  · refine (h k hk).trans (mul_le_mul_of_nonneg_right ?_ (hd k))
    linarith [le_abs_self D]
  · push Not at hk
    rcases (hd k).eq_or_lt with h1 | h1
    · rw [h0 k h1.symm, ← h1, mul_zero]
    · have h2 : e k / d k ≤ M := Finset.single_le_sum (f := fun k => e k / d k)
        (fun k _ => hpos k) (Finset.mem_range.2 hk)
      rw [div_le_iff₀ h1] at h2
      refine h2.trans (mul_le_mul_of_nonneg_right ?_ h1.le)
      linarith [abs_nonneg D]

/-- An iteration that stands still has arrived. -/
theorem stationary {w : ℝ → ℝ} {init Q : Matrix (Fin p) (Fin p) 𝕜}
    (hlim : Tendsto (mIter w X init) atTop (𝓝 Q)) {k : ℕ}
    (h : frob (mIter w X init (k + 1) - mIter w X init k) = 0) :
    frob (mIter w X init k - Q) = 0 := by
  rw [frob_eq_zero, sub_eq_zero] at h ⊢
  have hc : ∀ m, mIter w X init (m + k) = mIter w X init k := by
    intro m
    induction m with
    | zero => rw [Nat.zero_add]
    | succ m ih =>
      rw [show m + 1 + k = (m + k) + 1 by omega]
      change mStep w X (mIter w X init (m + k)) = _
      rw [ih]
      exact h
  have h1 := hlim.comp (tendsto_add_atTop_nat k)
  refine tendsto_nhds_unique (tendsto_const_nhds.congr fun m => ?_) h1
  exact (hc m).symm

theorem tyler_rate_one (hp : 0 < p) (hX : Spans X) (hn : NonzeroSamples X) (hI : Indecomposable X)
    (hfix : mStep (wTyler p) X 1 = 1) {init : Matrix (Fin p) (Fin p) 𝕜} (hi : init.PosDef) :
    ∃ c r C D : ℝ, 0 < c ∧ 0 ≤ r ∧ r < 1 ∧ 0 ≤ D ∧ ∀ k,
      frob (mIter (wTyler p) X init k - (c : 𝕜) • 1) ≤ C * r ^ k ∧
      frob (mIter (wTyler p) X init k - (c : 𝕜) • 1) ≤
        D * frob (mIter (wTyler p) X init (k + 1) - mIter (wTyler p) X init k) := by
  obtain ⟨c, hc, hlim⟩ := tyler_tendsto hp X hX hn hI PosDef.one hi hfix
  have hfix1 : scatter (unitW X) X = 1 := by rw [← mStep_one_eq]; exact hfix
  obtain ⟨q, hq0, hq1, hq⟩ := tyler_gap hp hn hI hfix1
  set A := mIter (wTyler p) X init with hA
  have hAP : ∀ k, (A k).PosDef := fun k =>
    mIter_posDef hX (fun S hS i => wTyler_pos hn hS i) hi k
  have hp1 : (1 : ℝ) ≤ p := by exact_mod_cast hp
  have hp' : (p : ℝ) ≠ 0 := by positivity
  have hsc : Tendsto (fun k => mScale (A k)) atTop (𝓝 c) := by
    have h1 : Continuous (mScale : Matrix (Fin p) (Fin p) 𝕜 → ℝ) := by
      unfold mScale
      exact (RCLike.continuous_re.comp (by fun_prop)).div_const _
    have h2 := (h1.tendsto _).comp hlim
    have h3 : mScale ((c : 𝕜) • (1 : Matrix (Fin p) (Fin p) 𝕜)) = c := by
      unfold mScale
      rw [re_trace_smul_one]
      field_simp
    rw [h3] at h2
    exact h2
  have hdev : Tendsto (fun k => frob (mDev (A k))) atTop (𝓝 0) := by
    have h1 : Tendsto (fun k => mDev (A k)) atTop (𝓝 0) := by
      have h2 : Tendsto (fun k => (((mScale (A k))⁻¹ : ℝ) : 𝕜) • A k - 1) atTop
          (𝓝 (((c⁻¹ : ℝ) : 𝕜) • ((c : 𝕜) • (1 : Matrix (Fin p) (Fin p) 𝕜)) - 1)) :=
        (((RCLike.continuous_ofReal.tendsto _).comp (hsc.inv₀ hc.ne')).smul hlim).sub_const 1
      rw [smul_smul, ← RCLike.ofReal_mul, inv_mul_cancel₀ hc.ne', RCLike.ofReal_one, one_smul,
        sub_self] at h2
      exact h2
    have h3 := (continuous_frob.tendsto _).comp h1
    rw [(frob_eq_zero (0 : Matrix (Fin p) (Fin p) 𝕜)).2 rfl] at h3
    exact h3
  have hq' : 0 < 1 - q := by linarith
  obtain ⟨K, hK⟩ := eventually_atTop.1 ((hdev.eventually (gt_mem_nhds (show (0 : ℝ) < 1 / 2 by
    norm_num))).and ((hdev.eventually (gt_mem_nhds (show (0 : ℝ) < (1 - q) / (18 * p) by
    positivity))).and ((hsc.eventually (gt_mem_nhds (show c < 2 * c by linarith))).and
    (hsc.eventually (lt_mem_nhds (show c / 2 < c by linarith))))))
  set r := (1 + q) / 2 with hr
  have hr0 : 0 < r := by rw [hr]; linarith
  have hr1 : r < 1 := by rw [hr]; linarith
  have hstep : ∀ k, frob (mDev (A (K + (k + 1)))) ≤ r * frob (mDev (A (K + k))) ∧
      frob (A (K + (k + 1)) - A (K + k)) ≤ mScale (A (K + k)) * ((2 + 3 * p) * frob (mDev (A (K + k)))) ∧
      mScale (A (K + k)) * ((1 - q) / 2 * frob (mDev (A (K + k)))) ≤
        frob (A (K + (k + 1)) - A (K + k)) := by
    intro k
    obtain ⟨h1, h2, h3, -⟩ := hK (K + k) (Nat.le_add_right _ _)
    rw [lt_div_iff₀ (by positivity)] at h2
    have h4 : 18 * p * frob (mDev (A (K + k))) ≤ 1 - q := by linarith
    exact tyler_dev_step hp hn hfix1 hq0 hq1 hq (hAP (K + k)) h1.le h4
  have hgeo : ∀ k, frob (mDev (A (K + k))) ≤ r ^ k := by
    intro k
    induction k with
    | zero =>
      have := (hK (K + 0) le_rfl).1
      rw [pow_zero]
      linarith
    | succ k ih =>
      refine (hstep k).1.trans ?_
      rw [pow_succ']
      exact mul_le_mul_of_nonneg_left ih hr0.le
  have hB := geometric_limit (A := fun k => A (K + k)) (Q := (c : 𝕜) • 1)
    (C := 2 * c * (2 + 3 * p)) hr0.le hr1 (fun k => by
      refine (hstep k).2.1.trans ?_
      have h3 := (hK (K + k) (Nat.le_add_right _ _)).2.2.1
      have h4 : mScale (A (K + k)) * ((2 + 3 * p) * frob (mDev (A (K + k)))) ≤
          (2 * c) * ((2 + 3 * p) * r ^ k) := by
        refine mul_le_mul h3.le ?_ (mul_nonneg (by positivity) (frob_nonneg _)) (by positivity)
        exact mul_le_mul_of_nonneg_left (hgeo k) (by positivity)
      linarith)
    (hlim.comp (tendsto_atTop_mono (fun m => Nat.le_add_left m K) tendsto_id))
  set C1 := 2 * c * (2 + 3 * p) / (1 - r) with hC1
  have hC1' : 0 ≤ C1 := div_nonneg (by positivity) (by linarith)
  set C2 := ∑ k ∈ Finset.range K, frob (A k - (c : 𝕜) • 1) with hC2
  have hC2' : 0 ≤ C2 := Finset.sum_nonneg fun k _ => frob_nonneg _
  have hgeo' : ∀ m k, frob (mDev (A (K + m + k))) ≤ frob (mDev (A (K + m))) * r ^ k := by
    intro m k
    induction k with
    | zero => rw [pow_zero, mul_one]; exact le_rfl
    | succ k ih =>
      have h1 := (hstep (m + k)).1
      rw [show K + (m + k + 1) = K + m + (k + 1) by omega, show K + (m + k) = K + m + k by omega]
        at h1
      refine h1.trans ?_
      rw [pow_succ]
      nlinarith [mul_le_mul_of_nonneg_left ih hr0.le]
  have hres : ∀ k, K ≤ k → frob (A k - (c : 𝕜) • 1) ≤
      2 * c * (2 + 3 * p) / (1 - r) * (2 / c * (2 / (1 - q))) * frob (A (k + 1) - A k) := by
    intro k hk
    obtain ⟨m, rfl⟩ := Nat.exists_eq_add_of_le hk
    have h0 := frob_nonneg (mDev (A (K + m)))
    have h1 := geometric_limit (A := fun k => A (K + m + k)) (Q := (c : 𝕜) • 1)
      (C := 2 * c * (2 + 3 * p) * frob (mDev (A (K + m)))) hr0.le hr1 (fun k => by
        have h2 := (hstep (m + k)).2.1
        rw [show K + (m + k + 1) = K + m + (k + 1) by omega, show K + (m + k) = K + m + k by omega]
          at h2
        refine h2.trans ?_
        have h3 := (hK (K + m + k) (by omega)).2.2.1
        have h4 : mScale (A (K + m + k)) * ((2 + 3 * p) * frob (mDev (A (K + m + k)))) ≤
            (2 * c) * ((2 + 3 * p) * (frob (mDev (A (K + m))) * r ^ k)) := by
          refine mul_le_mul h3.le ?_ (mul_nonneg (by positivity) (frob_nonneg _)) (by positivity)
          exact mul_le_mul_of_nonneg_left (hgeo' m k) (by positivity)
        linarith)
      (hlim.comp (tendsto_atTop_mono (fun j => Nat.le_add_left j (K + m)) tendsto_id)) 0
    rw [pow_zero, mul_one] at h1
    have h3 := (hK (K + m) hk).2.2.2
    have h4 := (hstep m).2.2
    rw [show K + (m + 1) = K + m + 1 by omega] at h4
    have h5 : c / 2 * ((1 - q) / 2 * frob (mDev (A (K + m)))) ≤ frob (A (K + m + 1) - A (K + m)) :=
      (mul_le_mul_of_nonneg_right h3.le (by positivity)).trans h4
    have h6 : frob (mDev (A (K + m))) ≤
        2 / c * (2 / (1 - q)) * frob (A (K + m + 1) - A (K + m)) := by
      rw [div_mul_div_comm, div_mul_eq_mul_div, le_div_iff₀ (by positivity)]
      linarith
    refine (h1 : frob (A (K + m + 0) - (c : 𝕜) • 1) ≤ _).trans ?_
    have h7 : 0 ≤ 2 * c * (2 + 3 * p) / (1 - r) := div_nonneg (by positivity) (by linarith)
    have h8 := mul_le_mul_of_nonneg_left h6 h7
    calc _ = 2 * c * (2 + 3 * p) / (1 - r) * frob (mDev (A (K + m))) := by ring
      _ ≤ _ := h8
      _ = _ := by ring
  obtain ⟨D, hD0, hD⟩ := finite_ratio (fun k => frob_nonneg (A (k + 1) - A k))
    (fun k => frob_nonneg (A k - (c : 𝕜) • 1)) hres (fun k hk => stationary hlim hk)
  refine ⟨c, r, (C1 + C2) / r ^ K, D, hc, hr0.le, hr1, hD0, fun k => ⟨?_, hD k⟩⟩
  rw [div_mul_eq_mul_div, le_div_iff₀ (by positivity)]
  by_cases hk : K ≤ k
  · obtain ⟨m, rfl⟩ := Nat.exists_eq_add_of_le hk
    have h1 := hB m
    rw [pow_add, mul_comm (r ^ K) (r ^ m), ← mul_assoc]
    refine mul_le_mul_of_nonneg_right (h1.trans ?_) (by positivity)
    exact mul_le_mul_of_nonneg_right (by linarith) (by positivity)
  · push Not at hk
    have h1 : frob (A k - (c : 𝕜) • 1) ≤ C2 :=
      Finset.single_le_sum (f := fun k => frob (A k - (c : 𝕜) • 1)) (fun k _ => frob_nonneg _)
        (Finset.mem_range.2 hk)
    have h2 : r ^ K ≤ r ^ k := pow_le_pow_of_le_one hr0.le hr1.le hk.le
    exact mul_le_mul (by linarith) h2 (by positivity) (by linarith)

theorem indecomposable_mul (hI : Indecomposable X) {T : Matrix (Fin p) (Fin p) 𝕜} (hT : IsUnit T) :
    Indecomposable (X * Tᵀ) := by
  have hd := (Matrix.isUnit_iff_isUnit_det T).1 hT
  have h1 : T⁻¹ * T = 1 := Matrix.nonsing_inv_mul T hd
  have h2 : T * T⁻¹ = 1 := Matrix.mul_nonsing_inv T hd
  intro P hP hs
  have h3 := hI (T⁻¹ * P * T) (by
    rw [show T⁻¹ * P * T * (T⁻¹ * P * T) = T⁻¹ * (P * (T * T⁻¹) * P) * T by
      simp only [Matrix.mul_assoc], h2, Matrix.mul_one, hP]) (fun i => by
    have e : (T⁻¹ * P * T) *ᵥ sample X i = T⁻¹ *ᵥ (P *ᵥ sample (X * Tᵀ) i) := by
      rw [sample_mul]
      simp only [mulVec_mulVec, Matrix.mul_assoc]
    rw [e]
    rcases hs i with h | h
    · left
      rw [h, sample_mul, mulVec_mulVec, h1, one_mulVec]
    · right
      rw [h, mulVec_zero])
  have h4 : P = T * (T⁻¹ * P * T) * T⁻¹ := by
    rw [show T * (T⁻¹ * P * T) * T⁻¹ = (T * T⁻¹) * P * (T * T⁻¹) by simp only [Matrix.mul_assoc], h2,
      Matrix.one_mul, Matrix.mul_one]
  rcases h3 with h | h
  · left; rw [h4, h, Matrix.mul_zero, Matrix.zero_mul]
  · right; rw [h4, h, Matrix.mul_one, h2]

/-- On spanning data that cannot be split Tyler's iteration converges to a multiple of the fixed
point at a geometric rate, from every starting point. -/
theorem tyler_geometric (hp : 0 < p) (hX : Spans X) (hn : NonzeroSamples X) (hI : Indecomposable X)
    {S init : Matrix (Fin p) (Fin p) 𝕜} (hS : S.PosDef) (hi : init.PosDef)
    (hfix : mStep (wTyler p) X S = S) :
    ∃ c r C D : ℝ, 0 < c ∧ 0 ≤ r ∧ r < 1 ∧ 0 ≤ D ∧ ∀ k,
      frob (mIter (wTyler p) X init k - (c : 𝕜) • S) ≤ C * r ^ k ∧
      frob (mIter (wTyler p) X init k - (c : 𝕜) • S) ≤
        D * frob (mIter (wTyler p) X init (k + 1) - mIter (wTyler p) X init k) := by
  obtain ⟨e, he⟩ := IsHermitian.exists_valid hS.1
  have hv := he.vals_pos hS
  set G := e.fn fun x => (Real.sqrt x)⁻¹ with hG
  set H := e.fn Real.sqrt with hH
  have hGH : G * H = 1 := by
    rw [he.fn_mul, ← he.fn_one]
    exact he.fn_congr fun i => inv_mul_cancel₀ (Real.sqrt_pos.2 (hv i)).ne'
  have hHG : H * G = 1 := mul_eq_one_comm.1 hGH
  have hHH : H * H = S := by
    rw [he.fn_mul]
    conv_rhs => rw [← he.fn_id]
    exact he.fn_congr fun i => Real.mul_self_sqrt (hv i).le
  have hGt : Gᴴ = G := (he.fn_isHermitian _).eq
  have hHt : Hᴴ = H := (he.fn_isHermitian _).eq
  have hGu : IsUnit G := IsUnit.of_mul_eq_one H hGH
  have hGS : G * S * Gᴴ = 1 := by
    rw [hGt, ← hHH, show G * (H * H) * G = (G * H) * (H * G) by simp only [Matrix.mul_assoc], hGH,
      hHG, Matrix.one_mul]
  have hit : ∀ k, mIter (wTyler p) (X * Gᵀ) (G * init * Gᴴ) k =
      G * mIter (wTyler p) X init k * Gᴴ := by
    intro k
    induction k with
    | zero => rfl
    | succ k ih =>
      simp only [mIter]
      rw [ih, mStep_equivariant _ X G hGu]
  obtain ⟨c, r, C, D, hc, hr0, hr1, hD, h⟩ := tyler_rate_one (X := X * Gᵀ) hp (spans_mul X hX G hGu)
    (nonzero_mul X hn G hGu) (indecomposable_mul hI hGu)
    (by rw [← hGS, mStep_equivariant _ X G hGu, hfix])
    (init := G * init * Gᴴ) (hi.mul_mul_conjTranspose_same
      (Matrix.vecMul_injective_of_isUnit hGu))
  have h0 := frob_nonneg H
  have h0' := frob_nonneg G
  refine ⟨c, r, frob H * C * frob H, frob H * D * frob H * (frob G * frob G), hc, hr0, hr1,
    by positivity, fun k => ?_⟩
  have e1 : mIter (wTyler p) X init k - (c : 𝕜) • S =
      H * (mIter (wTyler p) (X * Gᵀ) (G * init * Gᴴ) k - (c : 𝕜) • 1) * H := by
    rw [hit, hGt, Matrix.mul_sub, Matrix.sub_mul, Matrix.mul_smul, Matrix.mul_one, Matrix.smul_mul,
      hHH, show H * (G * mIter (wTyler p) X init k * G) * H =
        (H * G) * mIter (wTyler p) X init k * (G * H) by simp only [Matrix.mul_assoc], hHG, hGH,
      Matrix.one_mul, Matrix.mul_one]
  rw [e1]
  have h2 := frob_mul_le (H * (mIter (wTyler p) (X * Gᵀ) (G * init * Gᴴ) k - (c : 𝕜) • 1)) H
  have h3 := frob_mul_le H (mIter (wTyler p) (X * Gᵀ) (G * init * Gᴴ) k - (c : 𝕜) • 1)
  constructor
  · have h4 := mul_le_mul_of_nonneg_left (h k).1 h0
    have h5 := mul_le_mul_of_nonneg_right (h3.trans h4) h0
    calc _ ≤ _ := h2
      _ ≤ _ := h5
      _ = _ := by ring
  · have h4 := mul_le_mul_of_nonneg_left (h k).2 h0
    have h5 := mul_le_mul_of_nonneg_right (h3.trans h4) h0
    refine h2.trans (h5.trans ?_)
    rw [hit, hit, ← Matrix.sub_mul, ← Matrix.mul_sub, hGt]
    set E := mIter (wTyler p) X init (k + 1) - mIter (wTyler p) X init k
    have h6 := frob_mul_le (G * E) G
    have h7 := mul_le_mul_of_nonneg_right (frob_mul_le G E) h0'
    have h8 := mul_le_mul_of_nonneg_left (h6.trans h7)
      (show 0 ≤ frob H * D * frob H by positivity)
    calc _ = frob H * D * frob H * frob (G * E * G) := by ring
      _ ≤ _ := h8
      _ = _ := by ring

end
end RS
