import Verif.Lemmas.Limits
import Mathlib.Topology.MetricSpace.Sequences

/-! Convergence of Tyler's iteration. -/
set_option autoImplicit false

namespace RS
open Matrix ComplexOrder Filter Topology

section
variable {𝕜 : Type} [RCLike 𝕜] {N p : ℕ}

theorem mStep_tyler_mono (X : Matrix (Fin N) (Fin p) 𝕜) (hn : NonzeroSamples X)
    {A B : Matrix (Fin p) (Fin p) 𝕜} (hA : A.PosDef) (h : Loewner A B) :
    Loewner (mStep (wTyler p) X A) (mStep (wTyler p) X B) :=
  scatter_mono (fun i => by
    rw [wTyler_eq]
    exact wStudent_anti le_rfl (by linarith [qf_pos (h.posDef hA) (hn i)]) (qf_anti hA h _)) X

theorem mStep_tyler_smul (X : Matrix (Fin N) (Fin p) 𝕜) {A : Matrix (Fin p) (Fin p) 𝕜}
    (hA : A.PosDef) {c : ℝ} (hc : 0 < c) :
    mStep (wTyler p) X ((c : 𝕜) • A) = (c : 𝕜) • mStep (wTyler p) X A := by
  unfold mStep
  rw [← scatter_smul]
  congr 1
  funext i
  rw [qf_smul hA hc]
  unfold wTyler
  rw [div_div_eq_mul_div]
  ring

theorem hermitian_le_frob {E : Matrix (Fin p) (Fin p) 𝕜} (hE : E.IsHermitian) :
    Loewner E ((frob E : 𝕜) • (1 : Matrix (Fin p) (Fin p) 𝕜)) := by
  obtain ⟨U, l, hU, hU', hEU⟩ : ∃ (U : Matrix (Fin p) (Fin p) 𝕜) (l : Fin p → ℝ), Uᴴ * U = 1 ∧
      U * Uᴴ = 1 ∧ E = U * diagonal (fun j => (l j : 𝕜)) * Uᴴ :=
    ⟨hE.eigenvectorUnitary, hE.eigenvalues,
      (Matrix.mem_unitaryGroup_iff').1 hE.eigenvectorUnitary.2,
      (Matrix.mem_unitaryGroup_iff).1 hE.eigenvectorUnitary.2, hE.spectral_theorem⟩
  have hf : frob E = frob (diagonal fun j => (l j : 𝕜)) := by
    rw [hEU, frob_unitary U _ hU]
  have hl : ∀ j, l j ≤ frob E := fun j => by
    rw [hf]
    have := norm_entry_le (diagonal fun j => (l j : 𝕜)) j j
    rw [diagonal_apply_eq, RCLike.norm_ofReal] at this
    exact (le_abs_self _).trans this
  have h1 : (frob E : 𝕜) • (1 : Matrix (Fin p) (Fin p) 𝕜) =
      U * (diagonal fun _ => (frob E : 𝕜)) * Uᴴ := by
    have : (diagonal fun _ : Fin p => (frob E : 𝕜)) = (frob E : 𝕜) • (1 : Matrix (Fin p) (Fin p) 𝕜) := by
      ext a b
      simp only [Matrix.smul_apply, Matrix.one_apply, diagonal_apply, smul_eq_mul]
      split_ifs <;> simp
    rw [this, Matrix.mul_smul, Matrix.smul_mul, Matrix.mul_one, hU']
  rw [h1]
  nth_rw 1 [hEU]
  exact ((loewner_diagonal (m := fun _ => frob E)).2 hl).congr U

/-- A sequence converging to a positive definite matrix is eventually squeezed. -/
theorem eventually_squeezed {T : ℕ → Matrix (Fin p) (Fin p) 𝕜} {Q : Matrix (Fin p) (Fin p) 𝕜}
    (hQ : Q.PosDef) (hT : ∀ k, (T k).IsHermitian) (h : Tendsto T atTop (𝓝 Q)) {e : ℝ} (he : 0 < e) :
    ∀ᶠ k in atTop, Loewner (((1 - e : ℝ) : 𝕜) • Q) (T k) ∧ Loewner (T k) (((1 + e : ℝ) : 𝕜) • Q) := by
  obtain ⟨c, hc, -, h2⟩ := exists_between hQ PosDef.one
  have hc0 : 0 < c := by linarith
  have hev := (frob_of_tendsto h).eventually (gt_mem_nhds (show (0 : ℝ) < e / c by positivity))
  filter_upwards [hev] with k hk
  have hle : Loewner ((frob (T k - Q) : 𝕜) • (1 : Matrix (Fin p) (Fin p) 𝕜)) ((e : 𝕜) • Q) := by
    refine (h2.smul (frob_nonneg _)).trans ?_
    rw [smul_smul, ← RCLike.ofReal_mul]
    apply loewner_smul_le hQ.posSemidef
    rw [lt_div_iff₀ hc0] at hk
    exact hk.le
  have hH : (T k - Q).IsHermitian := (hT k).sub hQ.1
  have hH' : (Q - T k).IsHermitian := hQ.1.sub (hT k)
  constructor
  · have := (hermitian_le_frob hH').trans (by rw [frob_sub_comm]; exact hle)
    unfold Loewner at this ⊢
    convert this using 1
    rw [RCLike.ofReal_sub, sub_smul, RCLike.ofReal_one, one_smul]
    abel
  · have := (hermitian_le_frob hH).trans hle
    unfold Loewner at this ⊢
    convert this using 1
    rw [RCLike.ofReal_add, add_smul, RCLike.ofReal_one, one_smul]
    abel

theorem bounded_subseq {T : ℕ → Matrix (Fin p) (Fin p) 𝕜} {R : ℝ} (h : ∀ k, frob (T k) ≤ R) :
    ∃ (S : Matrix (Fin p) (Fin p) 𝕜) (f : ℕ → ℕ), StrictMono f ∧ Tendsto (T ∘ f) atTop (𝓝 S) := by
  have hR : 0 ≤ R := (frob_nonneg _).trans (h 0)
  obtain ⟨S, -, f, hf, hlim⟩ := tendsto_subseq_of_bounded
    (x := fun k => (fun i j => T k i j : Fin p → Fin p → 𝕜)) (s := Metric.closedBall (0 : Fin p → Fin p → 𝕜) R)
    Metric.isBounded_closedBall (fun k => by
      rw [mem_closedBall_zero_iff]
      refine (pi_norm_le_iff_of_nonneg hR).2 fun i => (pi_norm_le_iff_of_nonneg hR).2 fun j => ?_
      exact (norm_entry_le (T k) i j).trans (h k))
  exact ⟨S, f, hf, hlim⟩

/-- On spanning data that cannot be split, Tyler's iteration converges to a multiple of the fixed
point from every starting point. -/
theorem tyler_tendsto (hp : 0 < p) (X : Matrix (Fin N) (Fin p) 𝕜) (hX : Spans X)
    (hn : NonzeroSamples X) (hI : Indecomposable X) {S init : Matrix (Fin p) (Fin p) 𝕜}
    (hS : S.PosDef) (hi : init.PosDef) (hfix : mStep (wTyler p) X S = S) :
    ∃ c : ℝ, 0 < c ∧ Tendsto (mIter (wTyler p) X init) atTop (𝓝 ((c : 𝕜) • S)) := by
  have hN := nat_pos_of_spans hp hX
  set T := mIter (wTyler p) X init with hT
  have hTP : ∀ k, (T k).PosDef := fun k =>
    mIter_posDef hX (fun S hS i => wTyler_pos hn hS i) hi k
  have hpos0 : ∀ A : Matrix (Fin p) (Fin p) 𝕜, A.PosDef → ∀ i, 0 < 0 + qf A (sample X i) :=
    fun A hA i => by linarith [qf_pos hA (hn i)]
  have hsm : ∀ d : ℝ, 0 < d → ((d : 𝕜) • S).PosDef := fun d hd => hS.smul (by exact_mod_cast hd)
  -- squeezing is preserved
  have hlow : ∀ (d : ℝ) (k : ℕ), 0 < d → Loewner ((d : 𝕜) • S) (T k) →
      ∀ m, k ≤ m → Loewner ((d : 𝕜) • S) (T m) := fun d k hd h m hkm =>
    Nat.le_induction h (fun n _ ih => by
      have := mStep_tyler_mono X hn (hsm d hd) ih
      rwa [mStep_tyler_smul X hS hd, hfix] at this) m hkm
  have hupp : ∀ (d : ℝ) (k : ℕ), 0 < d → Loewner (T k) ((d : 𝕜) • S) →
      ∀ m, k ≤ m → Loewner (T m) ((d : 𝕜) • S) := fun d k hd h m hkm =>
    Nat.le_induction h (fun n _ ih => by
      have := mStep_tyler_mono X hn (hTP n) ih
      rwa [mStep_tyler_smul X hS hd, hfix] at this) m hkm
  obtain ⟨c0, hc0, h1, h2⟩ := exists_between hS hi
  have hc0' : 0 < c0 := by linarith
  have hl0 : ∀ m, Loewner (((c0⁻¹ : ℝ) : 𝕜) • S) (T m) := fun m =>
    hlow _ 0 (inv_pos.2 hc0') h1 m (Nat.zero_le m)
  have hu0 : ∀ m, Loewner (T m) ((c0 : 𝕜) • S) := fun m => hupp _ 0 hc0' h2 m (Nat.zero_le m)
  obtain ⟨Q, f, hf, hlim⟩ := bounded_subseq (T := T) (R := RCLike.re ((c0 : 𝕜) • S).trace)
    fun k => (frob_le_trace (hTP k).posSemidef).trans (hu0 k).trace_le
  have hQ : Q.PosDef :=
    (Loewner.of_tendsto tendsto_const_nhds hlim fun k => hl0 (f k)).posDef (hsm _ (inv_pos.2 hc0'))
  -- the cost converges
  have hanti : Antitone fun k => studentCost 0 X (T k) := antitone_nat_of_succ_le fun k => by
    have := tyler_mono hX hn (hTP k)
    rwa [tylerCost_eq, tylerCost_eq] at this
  have hfix0 : mStep (wStudent 0 p) X S = S := by rw [← wTyler_eq]; exact hfix
  have hbd : BddBelow (Set.range fun k => studentCost 0 X (T k)) :=
    ⟨studentCost 0 X S, by
      rintro _ ⟨k, rfl⟩
      exact fixed_point_minimises le_rfl X S (T k) hS (hTP k) (hpos0 S hS) hfix0⟩
  have hL := tendsto_atTop_ciInf hanti hbd
  set L := ⨅ k, studentCost 0 X (T k)
  have hc1 : studentCost 0 X Q = L :=
    tendsto_nhds_unique (tendsto_studentCost X hlim hQ (hpos0 Q hQ)) (hL.comp hf.tendsto_atTop)
  have hstep : Tendsto (fun k => T (f k + 1)) atTop (𝓝 (mStep (wTyler p) X Q)) := by
    have := tendsto_mStep (w := wTyler p) X hlim hQ.isUnit fun i => by
      rw [wTyler_eq]; exact wStudent_continuousAt (hpos0 Q hQ i).ne'
    exact this
  have hQ' : (mStep (wTyler p) X Q).PosDef := mStep_posDef _ X hX Q fun i => wTyler_pos hn hQ i
  have hc2 : studentCost 0 X (mStep (wTyler p) X Q) = L :=
    tendsto_nhds_unique (tendsto_studentCost X hstep hQ' (hpos0 _ hQ'))
      (hL.comp ((tendsto_add_atTop_nat 1).comp hf.tendsto_atTop))
  have hQfix : mStep (wStudent 0 p) X Q = Q :=
    student_step_eq le_rfl hN hp X hX hpos0 Q hQ (by rw [← wTyler_eq, hc1, hc2])
  obtain ⟨c, hc, hQc⟩ := tyler_unique hp X hn hI S Q hS hQ hfix (by
    rw [tylerCost_eq, tylerCost_eq]
    exact fixed_point_minimises le_rfl X Q S hQ hS (hpos0 Q hQ) hQfix)
  refine ⟨c, hc, ?_⟩
  rw [← hQc]
  apply tendsto_of_frob
  -- full convergence
  rw [Metric.tendsto_atTop]
  intro e he
  have htr : 0 ≤ RCLike.re Q.trace := (RCLike.nonneg_iff.1 hQ.posSemidef.trace_nonneg).1
  obtain ⟨d, hd, hd1, hde⟩ : ∃ d : ℝ, 0 < d ∧ d < 1 ∧ 3 * d * RCLike.re Q.trace < e := by
    refine ⟨min (1 / 2) (e / (6 * (RCLike.re Q.trace + 1))), by positivity,
      lt_of_le_of_lt (min_le_left _ _) (by norm_num), ?_⟩
    have h3 : min (1 / 2) (e / (6 * (RCLike.re Q.trace + 1))) ≤ e / (6 * (RCLike.re Q.trace + 1)) :=
      min_le_right _ _
    rw [le_div_iff₀ (by positivity)] at h3
    have h4 : (0 : ℝ) ≤ min (1 / 2) (e / (6 * (RCLike.re Q.trace + 1))) := by positivity
    nlinarith
  obtain ⟨k, hk1, hk2⟩ := (eventually_squeezed hQ (fun k => (hTP (f k)).1) hlim hd).exists
  refine ⟨f k, fun m hm => ?_⟩
  have e1 : ∀ x : ℝ, (x : 𝕜) • Q = ((x * c : ℝ) : 𝕜) • S := fun x => by
    rw [hQc, smul_smul, RCLike.ofReal_mul]
  rw [e1] at hk1 hk2
  have hm1 := hlow _ (f k) (mul_pos (by linarith) hc) hk1 m hm
  have hm2 := hupp _ (f k) (mul_pos (by linarith) hc) hk2 m hm
  rw [← e1] at hm1 hm2
  have hfr : frob (T m - Q) ≤ 3 * d * RCLike.re Q.trace := by
    refine frob_squeeze' hQ hd.le hm1 hm2
  rw [Real.dist_eq, sub_zero, abs_of_nonneg (frob_nonneg _)]
  exact lt_of_le_of_lt hfr hde

end
end RS
