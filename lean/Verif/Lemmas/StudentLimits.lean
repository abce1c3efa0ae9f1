import Verif.Lemmas.TylerConverge
import Verif.Lemmas.ExistIff

/-! The Student-t estimate between the second moment and Tyler's estimate. -/
set_option autoImplicit false

namespace RS
open Matrix ComplexOrder Filter Topology

section
variable {𝕜 : Type} [RCLike 𝕜] {N p : ℕ}

/-- At a fixed point no sample has a weighted energy above `N`. -/
theorem fixed_energy_le {w : ℝ → ℝ} (X : Matrix (Fin N) (Fin p) 𝕜) {S : Matrix (Fin p) (Fin p) 𝕜}
    (hS : S.PosDef) (hw : ∀ i, 0 ≤ w (qf S (sample X i))) (hfix : mStep w X S = S) (i : Fin N) :
    w (qf S (sample X i)) * qf S (sample X i) ≤ N := by
  have hN : (0 : ℝ) < N := by exact_mod_cast i.pos
  set q := qf S (sample X i) with hq
  have hq0 : 0 ≤ q := qf_nonneg hS _
  rcases hq0.eq_or_lt with h | h
  · rw [← h, mul_zero]; exact hN.le
  have hu : IsUnit S.det := (Matrix.isUnit_iff_isUnit_det S).1 hS.isUnit
  have hH : (S⁻¹)ᴴ = S⁻¹ := hS.inv.1
  have h1 := scatter_quad (fun j => w (qf S (sample X j))) X (S⁻¹ *ᵥ sample X i)
  have h2 : scatter (fun j => w (qf S (sample X j))) X = S := hfix
  rw [h2, mulVec_mulVec, Matrix.mul_nonsing_inv S hu, one_mulVec, star_mulVec, hH,
    ← dotProduct_mulVec, ← qf_coe hS, RCLike.ofReal_inj, ← hq] at h1
  have h3 : w q * q ^ 2 ≤ ∑ j, w (qf S (sample X j)) * ‖star (sample X j) ⬝ᵥ S⁻¹ *ᵥ sample X i‖ ^ 2 := by
    have h4 := Finset.single_le_sum
      (f := fun j => w (qf S (sample X j)) * ‖star (sample X j) ⬝ᵥ S⁻¹ *ᵥ sample X i‖ ^ 2)
      (fun j _ => mul_nonneg (hw j) (sq_nonneg _)) (Finset.mem_univ i)
    rw [← qf_coe hS, ← hq, RCLike.norm_ofReal, sq_abs] at h4
    exact h4
  have h5 : N * q = ∑ j, w (qf S (sample X j)) * ‖star (sample X j) ⬝ᵥ S⁻¹ *ᵥ sample X i‖ ^ 2 := by
    nth_rw 1 [h1]
    rw [← mul_assoc, mul_inv_cancel₀ hN.ne', one_mul]
  rw [← h5] at h3
  have h6 : w q * q * q ≤ N * q := by nlinarith
  exact le_of_mul_le_mul_right h6 h

theorem qf_secondMoment_le {X : Matrix (Fin N) (Fin p) 𝕜} (hX : Spans X) (i : Fin N) :
    qf (secondMoment X) (sample X i) ≤ N := by
  have := fixed_energy_le (w := fun _ => 1) X (secondMoment_posDef hX) (fun _ => zero_le_one)
    (by rw [secondMoment_eq]; rfl) i
  rwa [one_mul] at this

theorem spans_card {X : Matrix (Fin N) (Fin p) 𝕜} (hX : Spans X) : p ≤ N := by
  rcases Nat.eq_zero_or_pos N with rfl | hN
  · by_contra h
    have := congrFun (hX (fun _ => 1) (fun i => i.elim0)) ⟨0, by omega⟩
    exact one_ne_zero this
  · have h := fixed_trace (w := fun _ => 1) (Q := 1) hN X (secondMoment_posDef hX) (Matrix.one_mul 1)
      (by simp) (by rw [secondMoment_eq]; rfl) (d := p) (by simp)
    simp only [one_mulVec, one_mul] at h
    have h2 := Finset.sum_le_sum fun i (_ : i ∈ Finset.univ) => qf_secondMoment_le hX i
    rw [h] at h2
    simp only [Finset.sum_const, Finset.card_univ, Fintype.card_fin, nsmul_eq_mul] at h2
    have hN' : (0 : ℝ) < N := by exact_mod_cast hN
    exact_mod_cast le_of_mul_le_mul_left h2 hN'

/-- The Student-t estimate is within relative distance `(N - p)/ν` below and `p/ν` above the second
moment. -/
theorem student_near_moment {nu : ℝ} (hnu : 0 < nu) (X : Matrix (Fin N) (Fin p) 𝕜)
    {S : Matrix (Fin p) (Fin p) 𝕜} (hS : S.PosDef) (hfix : mStep (wStudent nu p) X S = S) :
    Loewner (((1 - (N - p) / nu : ℝ) : 𝕜) • secondMoment X) S ∧
      Loewner S (((1 + p / nu : ℝ) : 𝕜) • secondMoment X) := by
  have h2 : scatter (fun j => wStudent nu p (qf S (sample X j))) X = S := hfix
  have hq := fun i => qf_nonneg hS (sample X i)
  constructor
  · have := scatter_mono (w := fun _ => (1 - (N - p) / nu) * 1)
      (w' := fun j => wStudent nu p (qf S (sample X j))) (fun i => by
        have h3 := fixed_energy_le X hS (fun i => by
          have := hq i; unfold wStudent; positivity) hfix i
        have h0 := hq i
        have h4 : wStudent nu p (qf S (sample X i)) * (nu + qf S (sample X i)) = nu + p := by
          unfold wStudent; field_simp
        rw [mul_one, sub_le_iff_le_add, ← sub_le_iff_le_add', le_div_iff₀ hnu]
        nlinarith) X
    rwa [scatter_smul, ← secondMoment_eq, h2] at this
  · have := scatter_mono (w' := fun _ => (1 + p / nu) * 1)
      (w := fun j => wStudent nu p (qf S (sample X j))) (fun i => by
        have := wStudent_le (p := p) hnu (hq i)
        rw [add_div, div_self hnu.ne'] at this
        simpa using this) X
    rwa [scatter_smul, ← secondMoment_eq, h2] at this

theorem student_near_moment_frob {nu : ℝ} (hnu : 0 < nu) (hpN : p ≤ N) (X : Matrix (Fin N) (Fin p) 𝕜)
    {S : Matrix (Fin p) (Fin p) 𝕜} (hS : S.PosDef) (hfix : mStep (wStudent nu p) X S = S) :
    frob (S - secondMoment X) ≤ 2 * N / nu * RCLike.re (secondMoment X).trace := by
  obtain ⟨h1, h2⟩ := student_near_moment hnu X hS hfix
  have hM : (secondMoment X).PosSemidef := by
    rw [secondMoment_eq]; exact scatter_posSemidef _ (fun _ => zero_le_one) X
  have ht0 : 0 ≤ RCLike.re (secondMoment X).trace :=
    (RCLike.nonneg_iff.1 hM.trace_nonneg).1
  have hNp : (p : ℝ) ≤ N := by exact_mod_cast hpN
  have hp0 : (0 : ℝ) ≤ p := Nat.cast_nonneg _
  have e : S - secondMoment X = (S - ((1 - (N - p) / nu : ℝ) : 𝕜) • secondMoment X) -
      (((N - p) / nu : ℝ) : 𝕜) • secondMoment X := by
    push_cast
    rw [sub_smul, one_smul]
    abel
  have h3 := frob_le_trace h1
  have h4 := h2.trace_le
  have h5 : RCLike.re (S - ((1 - (N - p) / nu : ℝ) : 𝕜) • secondMoment X).trace ≤
      N / nu * RCLike.re (secondMoment X).trace := by
    rw [trace_sub, trace_smul, map_sub, smul_eq_mul, RCLike.re_ofReal_mul]
    rw [trace_smul, smul_eq_mul, RCLike.re_ofReal_mul] at h4
    have e2 : (1 + p / nu) - (1 - (N - p) / nu) = N / nu := by ring
    nlinarith
  have h6 : frob ((((N - p) / nu : ℝ) : 𝕜) • secondMoment X) ≤
      N / nu * RCLike.re (secondMoment X).trace := by
    rw [frob_smul, abs_of_nonneg (div_nonneg (by linarith) hnu.le)]
    exact mul_le_mul (by gcongr; linarith) (frob_le_trace hM) (frob_nonneg _) (by positivity)
  rw [e]
  refine (frob_sub_le _ _).trans ?_
  have e3 : 2 * N / nu * RCLike.re (secondMoment X).trace =
    N / nu * RCLike.re (secondMoment X).trace + N / nu * RCLike.re (secondMoment X).trace := by ring
  linarith

/-- With `ν + p > N` the Student-t estimate of spanning samples exists. -/
theorem student_exists_large {nu : ℝ} (hnu : 0 < nu) (h : (N : ℝ) < nu + p)
    {X : Matrix (Fin N) (Fin p) 𝕜} (hX : Spans X) :
    ∃ S : Matrix (Fin p) (Fin p) 𝕜, S.PosDef ∧ mStep (wStudent nu p) X S = S := by
  have hM := secondMoment_posDef hX
  set a : ℝ := (nu + p - N) / nu with ha
  have ha0 : 0 < a := div_pos (by linarith) hnu
  refine student_exists_of_sub hnu X (A := (a : 𝕜) • secondMoment X)
    (hM.smul (by exact_mod_cast ha0)) ?_
  have h1 : (a : 𝕜) • secondMoment X = scatter (fun _ => a * 1) X := by
    rw [scatter_smul, ← secondMoment_eq]
  have := scatter_mono (w := fun _ => a * 1)
    (w' := fun i => wStudent nu p (qf ((a : 𝕜) • secondMoment X) (sample X i))) (fun i => by
      rw [qf_smul hM ha0, mul_one]
      have h0 := qf_nonneg hM (sample X i)
      have h2 := qf_secondMoment_le hX i
      unfold wStudent
      have h3 : 0 < nu + qf (secondMoment X) (sample X i) / a := by positivity
      rw [le_div_iff₀ h3]
      have h4 : a * (nu + qf (secondMoment X) (sample X i) / a) =
          a * nu + qf (secondMoment X) (sample X i) := by field_simp
      have h5 : a * nu = nu + p - N := by rw [ha]; field_simp
      rw [h4, h5]
      linarith) X
  rw [← h1] at this
  exact this

/-! ### Tyler's estimate -/

theorem student_ge_of_sub {nu : ℝ} (hnu : 0 < nu) (X : Matrix (Fin N) (Fin p) 𝕜)
    {S A : Matrix (Fin p) (Fin p) 𝕜} (hS : S.PosDef) (hA : A.PosDef)
    (hfix : mStep (wStudent nu p) X S = S) (hsub : Loewner A (mStep (wStudent nu p) X A)) :
    Loewner A S := by
  have hall : ∀ k, (mIter (wStudent nu p) X A k).PosDef ∧
      Loewner (mIter (wStudent nu p) X A k) (mIter (wStudent nu p) X A (k + 1)) := by
    intro k
    induction k with
    | zero => exact ⟨hA, hsub⟩
    | succ k ih => exact ⟨ih.2.posDef ih.1, mStep_student_mono hnu X ih.1 ih.2⟩
  have hge : ∀ k, Loewner A (mIter (wStudent nu p) X A k) := by
    intro k
    induction k with
    | zero => exact Loewner.refl _
    | succ k ih => exact ih.trans (hall k).2
  exact Loewner.of_tendsto tendsto_const_nhds (tendsto_of_frob (student_tendsto hnu X hS hA hfix)) hge

theorem student_le_of_super {nu : ℝ} (hnu : 0 < nu) {X : Matrix (Fin N) (Fin p) 𝕜} (hX : Spans X)
    {S A : Matrix (Fin p) (Fin p) 𝕜} (hS : S.PosDef) (hA : A.PosDef)
    (hfix : mStep (wStudent nu p) X S = S) (hsup : Loewner (mStep (wStudent nu p) X A) A) :
    Loewner S A := by
  have hpos : ∀ B : Matrix (Fin p) (Fin p) 𝕜, B.PosDef → (mStep (wStudent nu p) X B).PosDef :=
    fun B hB => mStep_posDef _ X hX B fun i => by
      have := qf_nonneg hB (sample X i)
      unfold wStudent; positivity
  have hall : ∀ k, (mIter (wStudent nu p) X A k).PosDef ∧
      Loewner (mIter (wStudent nu p) X A (k + 1)) (mIter (wStudent nu p) X A k) := by
    intro k
    induction k with
    | zero => exact ⟨hA, hsup⟩
    | succ k ih => exact ⟨hpos _ ih.1, mStep_student_mono hnu X (hpos _ ih.1) ih.2⟩
  have hge : ∀ k, Loewner (mIter (wStudent nu p) X A k) A := by
    intro k
    induction k with
    | zero => exact Loewner.refl _
    | succ k ih => exact (hall k).2.trans ih
  exact Loewner.of_tendsto (tendsto_of_frob (student_tendsto hnu X hS hA hfix)) tendsto_const_nhds hge

theorem student_le_tyler_weight {nu t : ℝ} (hnu : 0 < nu) (ht : 0 < t) :
    (p ≤ t → wTyler p t ≤ wStudent nu p t) ∧ (t ≤ p → wStudent nu p t ≤ wTyler p t) := by
  unfold wTyler wStudent
  constructor
  · intro h
    rw [div_le_div_iff₀ ht (by linarith)]
    nlinarith
  · intro h
    rw [div_le_div_iff₀ (by linarith) ht]
    nlinarith

/-- Whatever `ν`, the Student-t estimate is between two fixed multiples of a Tyler estimate. -/
theorem student_near_tyler {nu : ℝ} (hnu : 0 < nu) {X : Matrix (Fin N) (Fin p) 𝕜} (hX : Spans X)
    (hn : NonzeroSamples X) {S T : Matrix (Fin p) (Fin p) 𝕜} (hS : S.PosDef) (hT : T.PosDef)
    (hfix : mStep (wStudent nu p) X S = S) (hfixT : mStep (wTyler p) X T = T) {a b : ℝ}
    (ha : 0 < a) (hb : 0 < b) (hqa : ∀ i, a * p ≤ qf T (sample X i))
    (hqb : ∀ i, qf T (sample X i) ≤ b * p) :
    Loewner ((a : 𝕜) • T) S ∧ Loewner S ((b : 𝕜) • T) := by
  have haT : ((a : 𝕜) • T).PosDef := hT.smul (by exact_mod_cast ha)
  have hbT : ((b : 𝕜) • T).PosDef := hT.smul (by exact_mod_cast hb)
  have ea : mStep (wTyler p) X ((a : 𝕜) • T) = (a : 𝕜) • T := by
    rw [mStep_tyler_smul X hT ha, hfixT]
  have eb : mStep (wTyler p) X ((b : 𝕜) • T) = (b : 𝕜) • T := by
    rw [mStep_tyler_smul X hT hb, hfixT]
  constructor
  · refine student_ge_of_sub hnu X hS haT hfix ?_
    have := scatter_mono (w := fun i => wTyler p (qf ((a : 𝕜) • T) (sample X i)))
      (w' := fun i => wStudent nu p (qf ((a : 𝕜) • T) (sample X i))) (fun i =>
        (student_le_tyler_weight hnu (qf_pos haT (hn i))).1 (by
          rw [qf_smul hT ha, le_div_iff₀ ha, mul_comm]; exact hqa i)) X
    change Loewner (mStep (wTyler p) X ((a : 𝕜) • T)) _ at this
    rwa [ea] at this
  · refine student_le_of_super hnu hX hS hbT hfix ?_
    have := scatter_mono (w' := fun i => wTyler p (qf ((b : 𝕜) • T) (sample X i)))
      (w := fun i => wStudent nu p (qf ((b : 𝕜) • T) (sample X i))) (fun i =>
        (student_le_tyler_weight hnu (qf_pos hbT (hn i))).2 (by
          rw [qf_smul hT hb, div_le_iff₀ hb, mul_comm]; exact hqb i)) X
    change Loewner _ (mStep (wTyler p) X ((b : 𝕜) • T)) at this
    rwa [eb] at this

/-- A Tyler estimate makes all the Student-t estimates exist. -/
theorem student_exists_of_tyler {nu : ℝ} (hnu : 0 < nu) (hp : 0 < p) {X : Matrix (Fin N) (Fin p) 𝕜}
    (hn : NonzeroSamples X) {T : Matrix (Fin p) (Fin p) 𝕜} (hT : T.PosDef)
    (hfixT : mStep (wTyler p) X T = T) :
    ∃ S : Matrix (Fin p) (Fin p) 𝕜, S.PosDef ∧ mStep (wStudent nu p) X S = S := by
  have hp' : (0 : ℝ) < p := by exact_mod_cast hp
  obtain ⟨e, he, h1⟩ := exists_pos_le fun i => qf T (sample X i)
  have ha : 0 < e / p := div_pos he hp'
  have haT : (((e / p : ℝ) : 𝕜) • T).PosDef := hT.smul (by exact_mod_cast ha)
  have ea : mStep (wTyler p) X (((e / p : ℝ) : 𝕜) • T) = ((e / p : ℝ) : 𝕜) • T := by
    rw [mStep_tyler_smul X hT ha, hfixT]
  refine student_exists_of_sub hnu X haT ?_
  have := scatter_mono (w := fun i => wTyler p (qf (((e / p : ℝ) : 𝕜) • T) (sample X i)))
    (w' := fun i => wStudent nu p (qf (((e / p : ℝ) : 𝕜) • T) (sample X i))) (fun i =>
      (student_le_tyler_weight hnu (qf_pos haT (hn i))).1 (by
        rw [qf_smul hT ha, le_div_iff₀ ha, mul_div_cancel₀ _ hp'.ne']
        exact h1 i (qf_pos hT (hn i)))) X
  change Loewner (mStep (wTyler p) X (((e / p : ℝ) : 𝕜) • T)) _ at this
  rwa [ea] at this

/-- The trace of the Student-t equation. -/
theorem student_balance {nu : ℝ} (hnu : 0 < nu) (hN : 0 < N) (X : Matrix (Fin N) (Fin p) 𝕜)
    {S : Matrix (Fin p) (Fin p) 𝕜} (hS : S.PosDef) (hfix : mStep (wStudent nu p) X S = S) :
    ∑ i, (qf S (sample X i) - p) / (nu + qf S (sample X i)) = 0 := by
  have h := fixed_trace (Q := 1) hN X hS (Matrix.one_mul 1) (by simp) hfix (d := p) (by simp)
  simp only [one_mulVec] at h
  have h1 : ∑ i, (wStudent nu p (qf S (sample X i)) * qf S (sample X i) - p) = 0 := by
    rw [Finset.sum_sub_distrib, h]; simp
  have h2 : ∑ i, nu * ((qf S (sample X i) - p) / (nu + qf S (sample X i))) = 0 := by
    rw [← h1]
    apply Finset.sum_congr rfl; intro i _
    have := qf_nonneg hS (sample X i)
    unfold wStudent
    field_simp
    ring
  rw [← Finset.mul_sum] at h2
  exact (mul_eq_zero.1 h2).resolve_left hnu.ne'

/-- The multiple of Tyler's estimate `T` that the Student-t estimates tend to. -/
noncomputable def tylerScale (X : Matrix (Fin N) (Fin p) 𝕜) (T : Matrix (Fin p) (Fin p) 𝕜) : ℝ :=
  N / (p * ∑ i, (qf T (sample X i))⁻¹)

theorem student_small_seq (hN : 0 < N) (hp : 0 < p) {X : Matrix (Fin N) (Fin p) 𝕜} (hX : Spans X)
    (hn : NonzeroSamples X) (hI : Indecomposable X) {T : Matrix (Fin p) (Fin p) 𝕜} (hT : T.PosDef)
    (hfixT : mStep (wTyler p) X T = T) {nu : ℕ → ℝ} (hnu : ∀ k, 0 < nu k)
    (hlim : Tendsto nu atTop (𝓝 0)) {S : ℕ → Matrix (Fin p) (Fin p) 𝕜} (hS : ∀ k, (S k).PosDef)
    (hfix : ∀ k, mStep (wStudent (nu k) p) X (S k) = S k) :
    ∃ f : ℕ → ℕ, StrictMono f ∧
      Tendsto (S ∘ f) atTop (𝓝 ((tylerScale X T : 𝕜) • T)) := by
  have hp' : (0 : ℝ) < p := by exact_mod_cast hp
  obtain ⟨e, he, h1⟩ := exists_pos_le fun i => qf T (sample X i)
  have hqsum : ∀ i, qf T (sample X i) ≤ ∑ i, qf T (sample X i) := fun i =>
    Finset.single_le_sum (f := fun i => qf T (sample X i)) (fun i _ => qf_nonneg hT _)
      (Finset.mem_univ i)
  have hq0 : 0 < ∑ i, qf T (sample X i) :=
    lt_of_lt_of_le (qf_pos hT (hn ⟨0, hN⟩)) (hqsum _)
  set a : ℝ := e / p
  set b : ℝ := (∑ i, qf T (sample X i)) / p
  have ha : 0 < a := div_pos he hp'
  have hb : 0 < b := div_pos hq0 hp'
  have hsand := fun k => student_near_tyler (hnu k) hX hn (hS k) hT (hfix k) hfixT ha hb
    (fun i => by rw [div_mul_cancel₀ _ hp'.ne']; exact h1 i (qf_pos hT (hn i)))
    (fun i => by rw [div_mul_cancel₀ _ hp'.ne']; exact hqsum i)
  obtain ⟨Q, f, hf, hQ⟩ := bounded_subseq (T := S) (R := RCLike.re ((b : 𝕜) • T).trace)
    fun k => (frob_le_trace (hS k).posSemidef).trans (hsand k).2.trace_le
  have haT : ((a : 𝕜) • T).PosDef := hT.smul (by exact_mod_cast ha)
  have hQP : Q.PosDef := (Loewner.of_tendsto tendsto_const_nhds hQ fun k => (hsand (f k)).1).posDef haT
  have hnf : Tendsto (fun k => nu (f k)) atTop (𝓝 0) := hlim.comp hf.tendsto_atTop
  have hqt : ∀ i, Tendsto (fun k => qf ((S ∘ f) k) (sample X i)) atTop (𝓝 (qf Q (sample X i))) :=
    fun i => tendsto_qf hQ hQP.isUnit _
  have hqp := fun i => qf_pos hQP (hn i)
  -- the limit solves Tyler's equation
  have hfixQ : mStep (wTyler p) X Q = Q := by
    have h2 : Tendsto (fun k => mStep (wStudent (nu (f k)) p) X ((S ∘ f) k)) atTop
        (𝓝 (mStep (wTyler p) X Q)) := by
      unfold mStep scatter
      refine Tendsto.const_smul (tendsto_finsetSum _ fun i _ => Tendsto.smul_const ?_ _) _
      refine (RCLike.continuous_ofReal.tendsto _).comp ?_
      unfold wStudent wTyler
      have h3 := (hnf.add_const (p : ℝ)).div (hnf.add (hqt i)) (by
        rw [zero_add]; exact (hqp i).ne')
      rw [zero_add, zero_add] at h3
      exact h3
    have h3 : (fun k => mStep (wStudent (nu (f k)) p) X ((S ∘ f) k)) = S ∘ f :=
      funext fun k => hfix (f k)
    rw [h3] at h2
    exact tendsto_nhds_unique h2 hQ
  obtain ⟨c, hc, hcQ⟩ := tyler_unique hp X hn hI T Q hT hQP hfixT (by
    have := fixed_point_minimises le_rfl X Q T hQP hT
      (fun i => by rw [zero_add]; exact hqp i) (by rw [← wTyler_eq]; exact hfixQ)
    rwa [← tylerCost_eq, ← tylerCost_eq] at this)
  -- the scale
  have hbal : ∑ i, (qf Q (sample X i) - p) / qf Q (sample X i) = 0 := by
    have h2 : Tendsto (fun k => ∑ i, (qf ((S ∘ f) k) (sample X i) - p) /
        (nu (f k) + qf ((S ∘ f) k) (sample X i))) atTop
        (𝓝 (∑ i, (qf Q (sample X i) - p) / (0 + qf Q (sample X i)))) :=
      tendsto_finsetSum _ fun i _ => ((hqt i).sub_const _).div (hnf.add (hqt i)) (by
        rw [zero_add]; exact (hqp i).ne')
    have h3 : (fun k => ∑ i, (qf ((S ∘ f) k) (sample X i) - p) /
        (nu (f k) + qf ((S ∘ f) k) (sample X i))) = fun _ => (0 : ℝ) :=
      funext fun k => student_balance (hnu (f k)) hN X (hS (f k)) (hfix (f k))
    rw [h3] at h2
    simpa only [zero_add] using (tendsto_nhds_unique h2 tendsto_const_nhds)
  have hscale : c = tylerScale X T := by
    have h2 : ∀ i, (qf Q (sample X i) - p) / qf Q (sample X i) =
        1 - c * p * (qf T (sample X i))⁻¹ := fun i => by
      have h3 := (qf_pos hT (hn i)).ne'
      rw [hcQ, qf_smul hT hc]
      field_simp
    rw [Finset.sum_congr rfl fun i _ => h2 i, Finset.sum_sub_distrib, ← Finset.mul_sum] at hbal
    simp only [Finset.sum_const, Finset.card_univ, Fintype.card_fin, nsmul_eq_mul, mul_one] at hbal
    have hs : 0 < ∑ i, (qf T (sample X i))⁻¹ :=
      Finset.sum_pos (fun i _ => inv_pos.2 (qf_pos hT (hn i))) ⟨⟨0, hN⟩, Finset.mem_univ _⟩
    unfold tylerScale
    rw [eq_div_iff (by positivity)]
    linarith
  exact ⟨f, hf, by rw [← hscale, ← hcQ]; exact hQ⟩

/-- With `ν` small, every Student-t estimate is close to Tyler's, suitably scaled. -/
theorem student_small (hN : 0 < N) (hp : 0 < p) {X : Matrix (Fin N) (Fin p) 𝕜} (hX : Spans X)
    (hn : NonzeroSamples X) (hI : Indecomposable X) {T : Matrix (Fin p) (Fin p) 𝕜} (hT : T.PosDef)
    (hfixT : mStep (wTyler p) X T = T) {ε : ℝ} (hε : 0 < ε) :
    ∃ δ : ℝ, 0 < δ ∧ ∀ nu : ℝ, 0 < nu → nu ≤ δ → ∀ S : Matrix (Fin p) (Fin p) 𝕜, S.PosDef →
      mStep (wStudent nu p) X S = S → frob (S - (tylerScale X T : 𝕜) • T) < ε := by
  by_contra hcon
  push Not at hcon
  choose nu hnu hle S hS hfix hfar using fun k : ℕ => hcon (1 / ((k : ℝ) + 1)) (by positivity)
  obtain ⟨f, hf, h⟩ := student_small_seq hN hp hX hn hI hT hfixT hnu
    (squeeze_zero (fun k => (hnu k).le) hle tendsto_one_div_add_atTop_nhds_zero_nat) hS hfix
  have := (frob_of_tendsto h).eventually (gt_mem_nhds hε)
  obtain ⟨k, hk⟩ := this.exists
  exact absurd hk (not_lt.2 (hfar (f k)))

end
end RS
