import Verif.Lemmas.Converge
import Mathlib.Topology.Instances.Matrix
import Mathlib.Topology.Algebra.Order.LiminfLimsup

/-! Limits of matrix sequences: continuity of the M-step and of the costs, monotone limits. -/
set_option autoImplicit false

namespace RS
open Matrix ComplexOrder Filter Topology

section
variable {𝕜 : Type} [RCLike 𝕜] {N p : ℕ}

theorem tendsto_of_frob {T : ℕ → Matrix (Fin p) (Fin p) 𝕜} {S : Matrix (Fin p) (Fin p) 𝕜}
    (h : Tendsto (fun k => frob (T k - S)) atTop (𝓝 0)) : Tendsto T atTop (𝓝 S) := by
  refine tendsto_pi_nhds.2 fun i => tendsto_pi_nhds.2 fun j => ?_
  rw [tendsto_iff_norm_sub_tendsto_zero]
  exact squeeze_zero (fun _ => norm_nonneg _) (fun k => norm_entry_le (T k - S) i j) h

theorem frob_of_tendsto {T : ℕ → Matrix (Fin p) (Fin p) 𝕜} {S : Matrix (Fin p) (Fin p) 𝕜}
    (h : Tendsto T atTop (𝓝 S)) : Tendsto (fun k => frob (T k - S)) atTop (𝓝 0) := by
  have hc : Continuous fun A : Matrix (Fin p) (Fin p) 𝕜 => frob (A - S) := by
    unfold frob
    fun_prop
  have := (hc.tendsto S).comp h
  rw [sub_self, show frob (0 : Matrix (Fin p) (Fin p) 𝕜) = 0 by simp [frob]] at this
  exact this

theorem tendsto_inv {T : ℕ → Matrix (Fin p) (Fin p) 𝕜} {S : Matrix (Fin p) (Fin p) 𝕜}
    (h : Tendsto T atTop (𝓝 S)) (hS : IsUnit S) : Tendsto (fun k => (T k)⁻¹) atTop (𝓝 S⁻¹) := by
  have hd : S.det ≠ 0 := ((Matrix.isUnit_iff_isUnit_det S).1 hS).ne_zero
  simp only [Matrix.inv_def, Ring.inverse_eq_inv']
  have h1 : Tendsto (fun k => (T k).det) atTop (𝓝 S.det) :=
    ((continuous_id.matrix_det).tendsto S).comp h
  have h2 : Tendsto (fun k => (T k).adjugate) atTop (𝓝 S.adjugate) :=
    ((continuous_id.matrix_adjugate).tendsto S).comp h
  exact (h1.inv₀ hd).smul h2

theorem tendsto_qf {T : ℕ → Matrix (Fin p) (Fin p) 𝕜} {S : Matrix (Fin p) (Fin p) 𝕜}
    (h : Tendsto T atTop (𝓝 S)) (hS : IsUnit S) (x : Fin p → 𝕜) :
    Tendsto (fun k => qf (T k) x) atTop (𝓝 (qf S x)) := by
  have hc : Continuous fun A : Matrix (Fin p) (Fin p) 𝕜 => RCLike.re (star x ⬝ᵥ (A *ᵥ x)) := by
    fun_prop
  exact (hc.tendsto S⁻¹).comp (tendsto_inv h hS)

theorem tendsto_mStep {w : ℝ → ℝ} (X : Matrix (Fin N) (Fin p) 𝕜)
    {T : ℕ → Matrix (Fin p) (Fin p) 𝕜} {S : Matrix (Fin p) (Fin p) 𝕜}
    (h : Tendsto T atTop (𝓝 S)) (hS : IsUnit S)
    (hw : ∀ i, ContinuousAt w (qf S (sample X i))) :
    Tendsto (fun k => mStep w X (T k)) atTop (𝓝 (mStep w X S)) := by
  unfold mStep scatter
  refine Tendsto.const_smul (tendsto_finsetSum _ fun i _ => Tendsto.smul_const ?_ _) _
  exact (RCLike.continuous_ofReal.tendsto _).comp ((hw i).tendsto.comp (tendsto_qf h hS _))

theorem wStudent_continuousAt {nu t : ℝ} (h : nu + t ≠ 0) : ContinuousAt (wStudent nu p) t := by
  unfold wStudent
  fun_prop (disch := assumption)

theorem tendsto_studentCost {nu : ℝ} (X : Matrix (Fin N) (Fin p) 𝕜)
    {T : ℕ → Matrix (Fin p) (Fin p) 𝕜} {S : Matrix (Fin p) (Fin p) 𝕜}
    (h : Tendsto T atTop (𝓝 S)) (hS : S.PosDef)
    (hpos : ∀ i, 0 < nu + qf S (sample X i)) :
    Tendsto (fun k => studentCost nu X (T k)) atTop (𝓝 (studentCost nu X S)) := by
  unfold studentCost
  refine Tendsto.add (Tendsto.const_mul _ (tendsto_finsetSum _ fun i _ => ?_)) (Tendsto.const_mul _ ?_)
  · exact ((tendsto_qf h hS.isUnit _).const_add nu).log (hpos i).ne'
  · refine Tendsto.log ?_ (posDef_det_pos hS).1.ne'
    exact (RCLike.continuous_re.tendsto _).comp (((continuous_id.matrix_det).tendsto S).comp h)

theorem posSemidef_of_tendsto {T : ℕ → Matrix (Fin p) (Fin p) 𝕜} {S : Matrix (Fin p) (Fin p) 𝕜}
    (h : Tendsto T atTop (𝓝 S)) (hT : ∀ k, (T k).PosSemidef) : S.PosSemidef := by
  refine PosSemidef.of_dotProduct_mulVec_nonneg ?_ fun x => ?_
  · have h1 : Tendsto (fun k => (T k)ᴴ) atTop (𝓝 Sᴴ) :=
      ((continuous_id.matrix_conjTranspose).tendsto S).comp h
    have h2 : (fun k => (T k)ᴴ) = T := funext fun k => (hT k).1
    rw [h2] at h1
    exact tendsto_nhds_unique h1 h
  · have hc : Continuous fun A : Matrix (Fin p) (Fin p) 𝕜 => star x ⬝ᵥ (A *ᵥ x) := by fun_prop
    have h1 := (hc.tendsto S).comp h
    exact ge_of_tendsto' h1 fun k => (posSemidef_iff_dotProduct_mulVec.1 (hT k)).2 x

theorem Loewner.of_tendsto {A B : ℕ → Matrix (Fin p) (Fin p) 𝕜} {a b : Matrix (Fin p) (Fin p) 𝕜}
    (hA : Tendsto A atTop (𝓝 a)) (hB : Tendsto B atTop (𝓝 b)) (h : ∀ k, Loewner (A k) (B k)) :
    Loewner a b := posSemidef_of_tendsto (hB.sub hA) h

theorem Loewner.trace_le {A B : Matrix (Fin p) (Fin p) 𝕜} (h : Loewner A B) :
    RCLike.re A.trace ≤ RCLike.re B.trace := by
  have := (RCLike.nonneg_iff.1 (PosSemidef.trace_nonneg h)).1
  rw [trace_sub, map_sub] at this
  linarith

/-- An increasing sequence of matrices bounded above converges. -/
theorem monotone_limit {T : ℕ → Matrix (Fin p) (Fin p) 𝕜} {B : Matrix (Fin p) (Fin p) 𝕜}
    (hmono : ∀ k, Loewner (T k) (T (k + 1))) (hB : ∀ k, Loewner (T k) B) :
    ∃ S, Tendsto T atTop (𝓝 S) := by
  have hle : ∀ k m, k ≤ m → Loewner (T k) (T m) := fun k m hkm =>
    Nat.le_induction (Loewner.refl _) (fun n _ ih => ih.trans (hmono n)) m hkm
  have htr : Monotone fun k => RCLike.re (T k).trace := fun k m hkm => (hle k m hkm).trace_le
  have hbd : BddAbove (Set.range fun k => RCLike.re (T k).trace) :=
    ⟨RCLike.re B.trace, by rintro _ ⟨k, rfl⟩; exact (hB k).trace_le⟩
  have hcau := (tendsto_atTop_ciSup htr hbd).cauchySeq
  have hent : ∀ i j, ∃ s, Tendsto (fun k => T k i j) atTop (𝓝 s) := by
    intro i j
    apply cauchySeq_tendsto_of_complete
    rw [Metric.cauchySeq_iff'] at hcau ⊢
    intro e he
    obtain ⟨K, hK⟩ := hcau e he
    refine ⟨K, fun n hn => ?_⟩
    have h1 := hK n hn
    rw [Real.dist_eq] at h1
    rw [dist_eq_norm]
    have h2 : (T n - T K).PosSemidef := hle K n hn
    have h3 := (norm_entry_le (T n - T K) i j).trans (frob_le_trace h2)
    rw [trace_sub, map_sub] at h3
    exact lt_of_le_of_lt h3 (lt_of_le_of_lt (le_abs_self _) h1)
  choose s hs using hent
  exact ⟨of s, tendsto_pi_nhds.2 fun i => tendsto_pi_nhds.2 fun j => hs i j⟩

theorem wStudent_le {nu t : ℝ} (hnu : 0 < nu) (ht : 0 ≤ t) : wStudent nu p t ≤ (nu + p) / nu := by
  unfold wStudent
  exact div_le_div_of_nonneg_left (by positivity) hnu (by linarith)

/-- If the Student iteration started at `A` goes up, it has a fixed point. -/
theorem student_exists_of_sub {nu : ℝ} (hnu : 0 < nu) (X : Matrix (Fin N) (Fin p) 𝕜)
    {A : Matrix (Fin p) (Fin p) 𝕜} (hA : A.PosDef)
    (hsub : Loewner A (mStep (wStudent nu p) X A)) :
    ∃ S : Matrix (Fin p) (Fin p) 𝕜, S.PosDef ∧ mStep (wStudent nu p) X S = S := by
  have hall : ∀ k, (mIter (wStudent nu p) X A k).PosDef ∧
      Loewner (mIter (wStudent nu p) X A k) (mIter (wStudent nu p) X A (k + 1)) := by
    intro k
    induction k with
    | zero => exact ⟨hA, hsub⟩
    | succ k ih =>
      exact ⟨ih.2.posDef ih.1, mStep_student_mono hnu X ih.1 ih.2⟩
  have hge : ∀ k, Loewner A (mIter (wStudent nu p) X A k) := by
    intro k
    induction k with
    | zero => exact Loewner.refl _
    | succ k ih => exact ih.trans (hall k).2
  have hB : ∀ k, Loewner (mIter (wStudent nu p) X A k) (scatter (fun _ => (nu + p) / nu) X) := by
    have h1 : ∀ k, Loewner (mIter (wStudent nu p) X A (k + 1)) (scatter (fun _ => (nu + p) / nu) X) :=
      fun k => scatter_mono (fun i => wStudent_le hnu (qf_nonneg (hall k).1 (sample X i))) X
    exact fun k => (hall k).2.trans (h1 k)
  obtain ⟨S, hS⟩ := monotone_limit (fun k => (hall k).2) hB
  have hSP : S.PosDef := (Loewner.of_tendsto tendsto_const_nhds hS hge).posDef hA
  refine ⟨S, hSP, ?_⟩
  have h1 := tendsto_mStep X hS hSP.isUnit (w := wStudent nu p) fun i =>
    wStudent_continuousAt (by have := qf_nonneg hSP (sample X i); positivity)
  have h2 : Tendsto (fun k => mIter (wStudent nu p) X A (k + 1)) atTop (𝓝 S) :=
    hS.comp (tendsto_add_atTop_nat 1)
  exact tendsto_nhds_unique h1 h2

/-- The Student fixed point exists if (and only if) some positive definite `A` is strictly below
`(nu+p)/p` times its Tyler step. -/
theorem student_exists_iff {nu : ℝ} (hnu : 0 < nu) (hp : 0 < p) (X : Matrix (Fin N) (Fin p) 𝕜)
    (hX : Spans X) (hn : NonzeroSamples X) :
    (∃ S : Matrix (Fin p) (Fin p) 𝕜, S.PosDef ∧ mStep (wStudent nu p) X S = S) ↔
    ∃ A : Matrix (Fin p) (Fin p) 𝕜, A.PosDef ∧
      ((((nu + p) / p : ℝ) : 𝕜) • mStep (wTyler p) X A - A).PosDef := by
  have hp' : (0 : ℝ) < p := by exact_mod_cast hp
  have hty : ∀ A : Matrix (Fin p) (Fin p) 𝕜, (((nu + p) / p : ℝ) : 𝕜) • mStep (wTyler p) X A =
      scatter (fun i => (nu + p) / qf A (sample X i)) X := fun A => by
    unfold mStep
    rw [← scatter_smul]
    congr 1
    funext i
    unfold wTyler
    field_simp
  have hsub : ∀ w w' : Fin N → ℝ, scatter w' X - scatter w X = scatter (fun i => w' i - w i) X :=
    fun w w' => by
      unfold scatter
      rw [← smul_sub, ← Finset.sum_sub_distrib]
      congr 1
      apply Finset.sum_congr rfl
      intro i _
      rw [← sub_smul]
      push_cast
      rfl
  constructor
  · rintro ⟨S, hS, hfix⟩
    refine ⟨S, hS, ?_⟩
    rw [hty]
    nth_rw 2 [← hfix]
    unfold mStep
    rw [hsub]
    apply scatter_posDef _ _ X hX
    intro i
    have h0 := qf_pos hS (hn i)
    rw [sub_pos, wStudent]
    exact div_lt_div_of_pos_left (by positivity) h0 (by linarith)
  · rintro ⟨A, hA, hlt⟩
    -- room: (1 - d) M >= A
    have hM : ((((nu + p) / p : ℝ) : 𝕜) • mStep (wTyler p) X A).PosDef := by
      have := hlt.add hA
      rwa [sub_add_cancel] at this
    obtain ⟨c, hc, h1, -⟩ := exists_between hM hlt
    set M := (((nu + p) / p : ℝ) : 𝕜) • mStep (wTyler p) X A with hMdef
    have hc0 : 0 < c := by linarith
    -- A <= (1 - 1/c) M
    have hA1 : Loewner A (((1 - c⁻¹ : ℝ) : 𝕜) • M) := by
      unfold Loewner at h1 ⊢
      have e : ((1 - c⁻¹ : ℝ) : 𝕜) • M - A = M - A - ((c⁻¹ : ℝ) : 𝕜) • M := by
        rw [RCLike.ofReal_sub, sub_smul, RCLike.ofReal_one, one_smul]
        abel
      rw [e]; exact h1
    -- all quadratic forms are at least some m > 0
    obtain ⟨m, hm, hmle⟩ : ∃ m : ℝ, 0 < m ∧ ∀ i, m ≤ qf A (sample X i) := by
      have hN := nat_pos_of_spans hp hX
      have : Nonempty (Fin N) := ⟨⟨0, hN⟩⟩
      obtain ⟨i0, hi0⟩ := Finite.exists_min fun i => qf A (sample X i)
      exact ⟨_, qf_pos hA (hn i0), hi0⟩
    set e : ℝ := c⁻¹ * m / nu with he
    have he0 : 0 < e := by positivity
    have hAe : (((e : ℝ) : 𝕜) • A).PosDef := hA.smul (by exact_mod_cast he0)
    refine student_exists_of_sub hnu X hAe ?_
    have key : ∀ i, e * ((1 - c⁻¹) * ((nu + p) / qf A (sample X i))) ≤
        wStudent nu p (qf (((e : ℝ) : 𝕜) • A) (sample X i)) := fun i => by
      have hq := qf_pos hA (hn i)
      rw [qf_smul hA he0, wStudent]
      have e1 : (nu + p) / (nu + qf A (sample X i) / e) = e * ((nu + p) / (e * nu + qf A (sample X i))) := by
        field_simp
      rw [e1]
      apply mul_le_mul_of_nonneg_left _ he0.le
      rw [mul_div_assoc', div_le_div_iff₀ hq (by positivity)]
      have e2 : e * nu = c⁻¹ * m := by rw [he]; field_simp
      rw [e2]
      have hci : 0 < c⁻¹ := inv_pos.2 hc0
      have hci1 : c⁻¹ ≤ 1 := inv_le_one_of_one_le₀ hc
      have h3 : (1 - c⁻¹) * (c⁻¹ * m + qf A (sample X i)) ≤ qf A (sample X i) := by
        nlinarith [mul_nonneg (mul_pos hci hci).le hm.le, mul_le_mul_of_nonneg_left (hmle i) hci.le]
      have hpp : (0 : ℝ) < nu + p := by positivity
      nlinarith [mul_le_mul_of_nonneg_left h3 hpp.le]
    have h4 := scatter_mono key X
    have h5 : scatter (fun i => e * ((1 - c⁻¹) * ((nu + p) / qf A (sample X i)))) X =
        (e : 𝕜) • (((1 - c⁻¹ : ℝ) : 𝕜) • M) := by
      rw [hty] at hMdef
      rw [scatter_smul e, scatter_smul (1 - c⁻¹), hMdef]
    rw [h5] at h4
    exact (hA1.smul he0.le).trans h4

end
end RS
