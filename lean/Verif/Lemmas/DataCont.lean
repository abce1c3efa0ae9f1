import Verif.Lemmas.Consist
import Verif.Lemmas.Unique
import Mathlib.Analysis.Normed.Module.FiniteDimension

/-! The Tyler and Student-t estimates as functions of the data: the conditions for their existence
are open, and the estimates are continuous. -/
set_option autoImplicit false

namespace RS
open Matrix ComplexOrder Filter Topology

section
variable {𝕜 : Type} [RCLike 𝕜] {N p : ℕ}

/-- The rank of every subset of the samples is lower semicontinuous. -/
theorem rank_open (X : Matrix (Fin N) (Fin p) 𝕜) :
    ∀ᶠ Y in 𝓝 X, ∀ I : Set (Fin N),
      Module.finrank 𝕜 (Submodule.span 𝕜 (sample X '' I)) ≤
        Module.finrank 𝕜 (Submodule.span 𝕜 (sample Y '' I)) := by
  rw [eventually_all]
  intro I
  obtain ⟨b, hb, hspan, hli⟩ := exists_linearIndependent 𝕜 (sample X '' I)
  have hpre : ∀ y : b, ∃ i ∈ I, sample X i = y := fun y => hb y.2
  choose g hgI hg using hpre
  have hfin : Finite b := (Set.toFinite (sample X '' I)).subset hb
  have : Fintype b := Fintype.ofFinite b
  have hliX : LinearIndependent 𝕜 fun y : b => sample X (g y) := by
    have : (fun y : b => sample X (g y)) = fun y : b => (y : Fin p → 𝕜) := funext hg
    rw [this]; exact hli
  have hcont : Continuous fun Y : Matrix (Fin N) (Fin p) 𝕜 => fun y : b => sample Y (g y) := by
    refine continuous_pi fun y => continuous_pi fun j => ?_
    exact continuous_id.matrix_elem (g y) j
  filter_upwards [hcont.continuousAt.eventually hliX.eventually] with Y hY
  have h1 : Module.finrank 𝕜 (Submodule.span 𝕜 (sample X '' I)) = Fintype.card b := by
    rw [← hspan]
    have := finrank_span_eq_card hli
    rwa [Subtype.range_coe] at this
  have h2 := finrank_span_eq_card hY
  rw [h1, ← h2]
  refine Submodule.finrank_mono (Submodule.span_mono ?_)
  rintro _ ⟨y, rfl⟩
  exact ⟨g y, hgI y, rfl⟩

theorem nonzero_open {X : Matrix (Fin N) (Fin p) 𝕜} (hn : NonzeroSamples X) :
    ∀ᶠ Y in 𝓝 X, NonzeroSamples Y := by
  unfold NonzeroSamples
  rw [eventually_all]
  intro i
  have hc : Continuous fun Y : Matrix (Fin N) (Fin p) 𝕜 => sample Y i :=
    continuous_pi fun j => continuous_id.matrix_elem i j
  exact hc.continuousAt.eventually_ne (hn i)

theorem samplesIn_span_le (X Y : Matrix (Fin N) (Fin p) 𝕜) (V : Submodule 𝕜 (Fin p → 𝕜)) :
    samplesIn Y V ≤ samplesIn X (Submodule.span 𝕜 (sample X '' {i | sample Y i ∈ V})) := by
  unfold samplesIn
  refine Nat.card_le_card_of_injective
    (fun i => ⟨i.1, Submodule.subset_span ⟨i.1, i.2, rfl⟩⟩) fun a b h => ?_
  exact Subtype.ext (Subtype.mk.inj h)

theorem span_rank_le (Y : Matrix (Fin N) (Fin p) 𝕜) (V : Submodule 𝕜 (Fin p → 𝕜)) :
    Module.finrank 𝕜 (Submodule.span 𝕜 (sample Y '' {i | sample Y i ∈ V})) ≤
      Module.finrank 𝕜 V := by
  refine Submodule.finrank_mono (Submodule.span_le.2 ?_)
  rintro _ ⟨i, hi, rfl⟩
  exact hi

/-- The condition for a Student-t estimate holds for all data close to `X`. -/
theorem student_count_open {nu : ℝ} {X : Matrix (Fin N) (Fin p) 𝕜}
    (H : ∀ V : Submodule 𝕜 (Fin p → 𝕜), V ≠ ⊤ →
      (nu + p) * samplesIn X V < N * (nu + Module.finrank 𝕜 V)) (hnu : 0 < nu) :
    ∀ᶠ Y in 𝓝 X, ∀ V : Submodule 𝕜 (Fin p → 𝕜), V ≠ ⊤ →
      (nu + p) * samplesIn Y V < N * (nu + Module.finrank 𝕜 V) := by
  filter_upwards [rank_open X] with Y hY V hV
  set W := Submodule.span 𝕜 (sample X '' {i | sample Y i ∈ V}) with hW
  have hle : Module.finrank 𝕜 W ≤ Module.finrank 𝕜 V := (hY _).trans (span_rank_le Y V)
  have hVlt : Module.finrank 𝕜 V < Module.finrank 𝕜 (Fin p → 𝕜) := Submodule.finrank_lt hV
  have hWt : W ≠ ⊤ := fun h => by
    rw [h, finrank_top] at hle
    omega
  have h1 := H W hWt
  have h2 : (samplesIn Y V : ℝ) ≤ samplesIn X W := by exact_mod_cast samplesIn_span_le X Y V
  have h3 : (Module.finrank 𝕜 W : ℝ) ≤ Module.finrank 𝕜 V := by exact_mod_cast hle
  have h4 : (0 : ℝ) ≤ nu + p := by positivity
  calc (nu + p) * (samplesIn Y V : ℝ) ≤ (nu + p) * samplesIn X W := by gcongr
    _ < N * (nu + Module.finrank 𝕜 W) := h1
    _ ≤ N * (nu + Module.finrank 𝕜 V) := by gcongr

/-- The condition for a Tyler estimate unique up to scale holds for all data close to `X`. -/
theorem tyler_count_open {X : Matrix (Fin N) (Fin p) 𝕜} (hN : 0 < N) (hn : NonzeroSamples X)
    (H : ∀ V : Submodule 𝕜 (Fin p → 𝕜), V ≠ ⊥ → V ≠ ⊤ →
      p * samplesIn X V < N * Module.finrank 𝕜 V) :
    ∀ᶠ Y in 𝓝 X, ∀ V : Submodule 𝕜 (Fin p → 𝕜), V ≠ ⊥ → V ≠ ⊤ →
      p * samplesIn Y V < N * Module.finrank 𝕜 V := by
  filter_upwards [rank_open X] with Y hY V hV0 hV
  set W := Submodule.span 𝕜 (sample X '' {i | sample Y i ∈ V}) with hW
  have hle : Module.finrank 𝕜 W ≤ Module.finrank 𝕜 V := (hY _).trans (span_rank_le Y V)
  have hVlt : Module.finrank 𝕜 V < Module.finrank 𝕜 (Fin p → 𝕜) := Submodule.finrank_lt hV
  have hWt : W ≠ ⊤ := fun h => by
    rw [h, finrank_top] at hle
    omega
  have h2 : samplesIn Y V ≤ samplesIn X W := samplesIn_span_le X Y V
  by_cases hW0 : W = ⊥
  · have h5 : samplesIn X W = 0 := by
      unfold samplesIn
      rw [Nat.card_eq_zero]
      left
      refine ⟨fun ⟨i, hi⟩ => hn i ?_⟩
      rwa [hW0, Submodule.mem_bot] at hi
    have h6 : samplesIn Y V = 0 := by omega
    rw [h6, Nat.mul_zero]
    refine Nat.mul_pos hN (Nat.pos_of_ne_zero fun h => hV0 ?_)
    exact Submodule.finrank_eq_zero.1 h
  · calc p * samplesIn Y V ≤ p * samplesIn X W := Nat.mul_le_mul_left _ h2
      _ < N * Module.finrank 𝕜 W := H W hW0 hWt
      _ ≤ N * Module.finrank 𝕜 V := Nat.mul_le_mul_left _ hle

/-- The cost difference is continuous in the coordinates and the sample. -/
theorem psi_continuousAt {nu : ℝ} (hnu : 0 ≤ nu) (U : Matrix (Fin p) (Fin p) 𝕜) (hU : Uᴴ * U = 1)
    (m : Fin p → ℝ) (y : Fin p → 𝕜) (hy : 0 < nu + ∑ j, ‖y j‖ ^ 2) :
    ContinuousAt (fun z : (Matrix (Fin p) (Fin p) 𝕜 × (Fin p → ℝ)) × (Fin p → 𝕜) =>
      psi nu z.1.1 z.1.2 z.2) ((U, m), y) := by
  have hpos := lt_of_lt_of_le (mul_pos (Real.exp_pos _) hy) (exp_sum_pos hnu hU m y).1
  have hU' : Continuous fun z : (Matrix (Fin p) (Fin p) 𝕜 × (Fin p → ℝ)) × (Fin p → 𝕜) =>
      z.1.1ᴴ *ᵥ z.2 :=
    Continuous.matrix_mulVec (continuous_fst.fst.matrix_conjTranspose) continuous_snd
  have h1 : Continuous fun z : (Matrix (Fin p) (Fin p) 𝕜 × (Fin p → ℝ)) × (Fin p → 𝕜) =>
      nu + ∑ j, ‖(z.1.1ᴴ *ᵥ z.2) j‖ ^ 2 * Real.exp (-z.1.2 j) := by
    have := fun j => (continuous_apply j).comp hU'
    refine continuous_const.add (continuous_finsetSum _ fun j _ => ?_)
    refine ((this j).norm.pow 2).mul (Real.continuous_exp.comp ?_)
    exact ((continuous_apply j).comp continuous_fst.snd).neg
  have h2 : Continuous fun z : (Matrix (Fin p) (Fin p) 𝕜 × (Fin p → ℝ)) × (Fin p → 𝕜) =>
      nu + ∑ j, ‖z.2 j‖ ^ 2 :=
    continuous_const.add (continuous_finsetSum _ fun j _ =>
      ((continuous_apply j).comp continuous_snd).norm.pow 2)
  have h3 : Continuous fun z : (Matrix (Fin p) (Fin p) 𝕜 × (Fin p → ℝ)) × (Fin p → 𝕜) =>
      ∑ j, z.1.2 j := continuous_finsetSum _ fun j _ => (continuous_apply j).comp continuous_fst.snd
  have l1 := h1.continuousAt (x := ((U, m), y)) |>.log hpos.ne'
  have l2 := h2.continuousAt (x := ((U, m), y)) |>.log hy.ne'
  exact ((l1.sub l2).const_mul (nu + p)).add h3.continuousAt

/-- Positivity of the cost difference on a sphere around the estimate is an open condition on the
data. -/
theorem sphere_open {nu : ℝ} (hnu : 0 ≤ nu) {X : Matrix (Fin N) (Fin p) 𝕜}
    (R : Matrix (Fin p) (Fin p) 𝕜) (hX : ∀ i, 0 < nu + ∑ j, ‖(R *ᵥ sample X i) j‖ ^ 2)
    (M : Submodule ℝ (Fin p → ℝ)) {δ : ℝ}
    (hpos : ∀ (U : Matrix (Fin p) (Fin p) 𝕜) (m : Fin p → ℝ), Uᴴ * U = 1 → m ∈ M → ‖m‖ = δ →
      0 < ∑ i, psi nu U m (R *ᵥ sample X i)) :
    ∀ᶠ Y in 𝓝 X, ∀ (U : Matrix (Fin p) (Fin p) 𝕜) (m : Fin p → ℝ), Uᴴ * U = 1 → m ∈ M → ‖m‖ = δ →
      0 < ∑ i, psi nu U m (R *ᵥ sample Y i) := by
  have key := (isCompact_sphere_param (𝕜 := 𝕜) M δ).eventually_forall_of_forall_eventually
    (x₀ := X) (P := fun Y z => 0 < ∑ i, psi nu z.1 z.2 (R *ᵥ sample Y i)) (by
      rintro ⟨U, m⟩ ⟨hU, hm, hd⟩
      have hc : ContinuousAt (fun w : Matrix (Fin N) (Fin p) 𝕜 ×
          (Matrix (Fin p) (Fin p) 𝕜 × (Fin p → ℝ)) =>
          ∑ i, psi nu w.2.1 w.2.2 (R *ᵥ sample w.1 i)) (X, (U, m)) := by
        refine tendsto_finsetSum _ fun i _ => ?_
        have hin : Continuous fun w : Matrix (Fin N) (Fin p) 𝕜 ×
            (Matrix (Fin p) (Fin p) 𝕜 × (Fin p → ℝ)) => ((w.2.1, w.2.2), R *ᵥ sample w.1 i) := by
          refine (continuous_snd.fst.prodMk continuous_snd.snd).prodMk
            (Continuous.matrix_mulVec continuous_const ?_)
          exact continuous_pi fun j => continuous_fst.matrix_elem i j
        exact ContinuousAt.comp (f := fun w : Matrix (Fin N) (Fin p) 𝕜 ×
            (Matrix (Fin p) (Fin p) 𝕜 × (Fin p → ℝ)) => ((w.2.1, w.2.2), R *ᵥ sample w.1 i))
          (x := (X, (U, m))) (psi_continuousAt hnu U hU m _ (hX i)) hin.continuousAt
      exact hc.eventually (lt_mem_nhds (hpos U m hU hm hd)))
  filter_upwards [key] with Y hY U m hU hm hd
  exact hY (U, m) ⟨hU, hm, hd⟩

theorem sphere_to_ball_fin {nu : ℝ} (hnu : 0 ≤ nu) {R U : Matrix (Fin p) (Fin p) 𝕜}
    (hU : Uᴴ * U = 1) {Y : Matrix (Fin N) (Fin p) 𝕜}
    (hy : ∀ i, 0 < nu + ∑ j, ‖(R *ᵥ sample Y i) j‖ ^ 2)
    {M : Submodule ℝ (Fin p → ℝ)} {δ : ℝ} (hδ : 0 < δ)
    (hs : ∀ m ∈ M, ‖m‖ = δ → 0 < ∑ i, psi nu U m (R *ᵥ sample Y i))
    {m : Fin p → ℝ} (hm : m ∈ M) (hle : ∑ i, psi nu U m (R *ᵥ sample Y i) ≤ 0) : ‖m‖ < δ := by
  by_contra hcon
  push Not at hcon
  have hm0 : 0 < ‖m‖ := hδ.trans_le hcon
  have ht0 : 0 ≤ δ / ‖m‖ := (div_pos hδ hm0).le
  have h1 := hs ((δ / ‖m‖) • m) (M.smul_mem _ hm) (by
    rw [norm_smul, Real.norm_of_nonneg ht0, div_mul_cancel₀ _ hm0.ne'])
  have h2 : ∑ i, psi nu U ((δ / ‖m‖) • m) (R *ᵥ sample Y i) ≤
      ∑ i, δ / ‖m‖ * psi nu U m (R *ᵥ sample Y i) :=
    Finset.sum_le_sum fun i _ => psi_convex hnu hU m _ (hy i) ht0 ((div_le_one hm0).2 hcon)
  rw [← Finset.mul_sum] at h2
  nlinarith

theorem factor_exists {S : Matrix (Fin p) (Fin p) 𝕜} (hS : S.PosDef) :
    ∃ R : Matrix (Fin p) (Fin p) 𝕜, IsUnit R ∧ S = R * Rᴴ := by
  obtain ⟨V, l, hV, hl, hSe⟩ := spectral_exists S hS
  set R : Matrix (Fin p) (Fin p) 𝕜 := V * diagonal (fun j => ((Real.sqrt (l j) : ℝ) : 𝕜)) with hRdef
  have hRS : S = R * Rᴴ := by
    rw [hSe, hRdef, conjTranspose_mul, diagonal_conjTranspose, Matrix.mul_assoc, Matrix.mul_assoc V,
      ← Matrix.mul_assoc (diagonal _) (diagonal _), diagonal_mul_diagonal]
    congr 3
    funext j
    simp only [Pi.star_apply, RCLike.star_def, RCLike.conj_ofReal]
    rw [← RCLike.ofReal_mul, Real.mul_self_sqrt (hl j).le]
  refine ⟨R, ?_, hRS⟩
  rw [Matrix.isUnit_iff_isUnit_det, isUnit_iff_ne_zero]
  intro h0
  have := (posDef_det_pos hS).1
  rw [hRS, det_mul, h0, zero_mul, map_zero] at this
  exact lt_irrefl _ this

theorem param_eq_smul {R U : Matrix (Fin p) (Fin p) 𝕜} (hR : IsUnit R) (hU : Uᴴ * U = 1)
    {m : Fin p → ℝ} {c : ℝ}
    (h : R * (U * diagonal (fun j => ((Real.exp (m j) : ℝ) : 𝕜)) * Uᴴ) * Rᴴ = (c : 𝕜) • (R * Rᴴ))
    (j : Fin p) : Real.exp (m j) = c := by
  have hRd := (Matrix.isUnit_iff_isUnit_det R).1 hR
  have h1 : U * diagonal (fun j => ((Real.exp (m j) : ℝ) : 𝕜)) * Uᴴ = (c : 𝕜) • 1 := by
    apply congr_injective hR
    rw [h, Matrix.mul_smul, Matrix.mul_one, Matrix.smul_mul]
  have h2 : diagonal (fun j => ((Real.exp (m j) : ℝ) : 𝕜)) = (c : 𝕜) • (1 : Matrix (Fin p) (Fin p) 𝕜) := by
    have := congrArg (fun A => Uᴴ * A * U) h1
    simp only [Matrix.mul_smul, Matrix.smul_mul, Matrix.mul_one, hU] at this
    rw [← this, Matrix.mul_assoc U, ← Matrix.mul_assoc Uᴴ, hU, Matrix.one_mul, Matrix.mul_assoc, hU,
      Matrix.mul_one]
  have h3 := congrFun (congrFun h2 j) j
  simp only [diagonal_apply_eq, Matrix.smul_apply, one_apply_eq, smul_eq_mul, mul_one] at h3
  exact_mod_cast h3

/-- Minimisers of the cost, rescaled so that their coordinates lie in `M`, depend continuously on the
data at a data set whose minimiser is strict. -/
theorem minimiser_tendsto {nu : ℝ} (hnu : 0 ≤ nu) {X : Matrix (Fin N) (Fin p) 𝕜}
    {S R : Matrix (Fin p) (Fin p) 𝕜} (hR : IsUnit R) (hRS : S = R * Rᴴ)
    (hX : ∀ᶠ Y in 𝓝 X, ∀ i, 0 < nu + ∑ j, ‖(R⁻¹ *ᵥ sample Y i) j‖ ^ 2)
    (M : Submodule ℝ (Fin p → ℝ))
    (hstrict : ∀ (U : Matrix (Fin p) (Fin p) 𝕜) (m : Fin p → ℝ), Uᴴ * U = 1 → m ∈ M → m ≠ 0 →
      0 < ∑ i, psi nu U m (R⁻¹ *ᵥ sample X i))
    (Q : Matrix (Fin N) (Fin p) 𝕜 → Matrix (Fin p) (Fin p) 𝕜)
    (hQ : ∀ᶠ Y in 𝓝 X, (Q Y).PosDef ∧ studentCost nu Y (Q Y) ≤ studentCost nu Y S ∧
      ∀ (U : Matrix (Fin p) (Fin p) 𝕜) (m : Fin p → ℝ), Uᴴ * U = 1 →
        Q Y = R * (U * diagonal (fun j => ((Real.exp (m j) : ℝ) : 𝕜)) * Uᴴ) * Rᴴ → m ∈ M) :
    Tendsto Q (𝓝 X) (𝓝 S) := by
  classical
  have hex : ∀ Y, ∃ (U : Matrix (Fin p) (Fin p) 𝕜) (m : Fin p → ℝ), Uᴴ * U = 1 ∧
      ((Q Y).PosDef → Q Y = R * (U * diagonal (fun j => ((Real.exp (m j) : ℝ) : 𝕜)) * Uᴴ) * Rᴴ) := by
    intro Y
    by_cases hY : (Q Y).PosDef
    · obtain ⟨U, m, hU, he⟩ := param_exists hR hY
      exact ⟨U, m, hU, fun _ => he⟩
    · exact ⟨1, 0, by simp, fun h => absurd h hY⟩
  choose U m hU hQe using hex
  have hm : Tendsto m (𝓝 X) (𝓝 0) := by
    rw [tendsto_zero_iff_norm_tendsto_zero, Metric.tendsto_nhds]
    intro ε hε
    have hs := sphere_open hnu R⁻¹ hX.self_of_nhds M (δ := ε) fun U m hU hm hd =>
      hstrict U m hU hm fun h0 => by rw [h0, norm_zero] at hd; linarith
    filter_upwards [hs, hX, hQ] with Y h1 h2 ⟨h3, h4, h5⟩
    have hle : ∑ i, psi nu (U Y) (m Y) (R⁻¹ *ᵥ sample Y i) ≤ 0 := by
      rw [← cost_psi Y hR (hU Y) (m Y), ← hRS, ← hQe Y h3]
      linarith
    have := sphere_to_ball_fin hnu (hU Y) h2 hε (fun m hm hd => h1 (U Y) m (hU Y) hm hd)
      (h5 (U Y) (m Y) (hU Y) (hQe Y h3)) hle
    simpa using this
  have hlim := param_tendsto R hU hm
  rw [← hRS] at hlim
  refine hlim.congr' ?_
  filter_upwards [hQ] with Y hY
  exact (hQe Y hY.1).symm

/-- The Student-t estimate is continuous in the data. -/
theorem student_data_tendsto {nu : ℝ} (hnu : 0 < nu) (hp : 0 < p) {X : Matrix (Fin N) (Fin p) 𝕜}
    {S : Matrix (Fin p) (Fin p) 𝕜} (hS : S.PosDef) (hfix : mStep (wStudent nu p) X S = S)
    (Q : Matrix (Fin N) (Fin p) 𝕜 → Matrix (Fin p) (Fin p) 𝕜)
    (hQ : ∀ᶠ Y in 𝓝 X, (Q Y).PosDef ∧ mStep (wStudent nu p) Y (Q Y) = Q Y) :
    Tendsto Q (𝓝 X) (𝓝 S) := by
  obtain ⟨R, hR, hRS⟩ := factor_exists hS
  have hpos : ∀ (Y : Matrix (Fin N) (Fin p) 𝕜) i, 0 < nu + ∑ j, ‖(R⁻¹ *ᵥ sample Y i) j‖ ^ 2 :=
    fun Y i => by positivity
  refine minimiser_tendsto hnu.le hR hRS (Eventually.of_forall hpos) ⊤ ?_ Q ?_
  · intro U m hU _ hm
    by_contra hcon
    push Not at hcon
    rw [← cost_psi X hR hU m, ← hRS] at hcon
    have heq := student_unique hnu hp X S _ hS (param_posDef hR hU m) hfix (by linarith)
    refine hm (funext fun j => ?_)
    have := param_eq_smul hR hU (c := 1) (by rw [heq, hRS, RCLike.ofReal_one, one_smul]) j
    rwa [Real.exp_eq_one_iff] at this
  · filter_upwards [hQ] with Y hY
    exact ⟨hY.1, fixed_point_minimises hnu.le _ _ _ hY.1 hS
      (fun i => by linarith [qf_nonneg hY.1 (sample Y i)]) hY.2, fun _ _ _ _ => trivial⟩

/-- Tyler's estimate, suitably rescaled, is continuous in the data. -/
theorem tyler_data_tendsto (hp : 0 < p) {X : Matrix (Fin N) (Fin p) 𝕜} (hn : NonzeroSamples X)
    (hI : Indecomposable X) {S : Matrix (Fin p) (Fin p) 𝕜} (hS : S.PosDef)
    (hfix : mStep (wTyler p) X S = S)
    (Q : Matrix (Fin N) (Fin p) 𝕜 → Matrix (Fin p) (Fin p) 𝕜)
    (hQ : ∀ᶠ Y in 𝓝 X, (Q Y).PosDef ∧ mStep (wTyler p) Y (Q Y) = Q Y) :
    ∃ c : Matrix (Fin N) (Fin p) 𝕜 → ℝ, (∀ Y, 0 < c Y) ∧
      Tendsto (fun Y => (c Y : 𝕜) • Q Y) (𝓝 X) (𝓝 S) := by
  obtain ⟨R, hR, hRS⟩ := factor_exists hS
  have hp' : (0 : ℝ) < p := by exact_mod_cast hp
  let c : Matrix (Fin N) (Fin p) 𝕜 → ℝ := fun Y =>
    Real.exp ((Real.log (RCLike.re S.det) - Real.log (RCLike.re (Q Y).det)) / p)
  have hc : ∀ Y, 0 < c Y := fun Y => Real.exp_pos _
  refine ⟨c, hc, minimiser_tendsto le_rfl hR hRS ?_ (traceless p) ?_ _ ?_⟩
  · filter_upwards [nonzero_open hn] with Y hY i using nsq_pos le_rfl hR (hY i)
  · intro U m hU hm hm0
    by_contra hcon
    push Not at hcon
    rw [← cost_psi X hR hU m, ← hRS] at hcon
    obtain ⟨a, ha, heq⟩ := tyler_unique hp X hn hI S _ hS (param_posDef hR hU m) hfix (by
      rw [tylerCost_eq, tylerCost_eq]; linarith)
    have h1 := param_eq_smul hR hU (c := a) (by rw [heq, hRS])
    have h2 : ∀ j, m j = Real.log a := fun j => by rw [← h1 j, Real.log_exp]
    have h3 : ∑ j, m j = 0 := hm
    simp only [h2, Finset.sum_const, Finset.card_univ, Fintype.card_fin, nsmul_eq_mul,
      mul_eq_zero, hp'.ne', false_or] at h3
    exact hm0 (funext fun j => by rw [h2, h3]; rfl)
  · filter_upwards [hQ, nonzero_open hn] with Y hY hnY
    have hcP : ((c Y : 𝕜) • Q Y).PosDef := hY.1.smul (by exact_mod_cast hc Y)
    refine ⟨hcP, ?_, ?_⟩
    · have h1 := fixed_point_minimises le_rfl Y (Q Y) S hY.1 hS
        (fun i => by rw [zero_add]; exact qf_pos hY.1 (hnY i)) (by rw [← wTyler_eq]; exact hY.2)
      rw [← tylerCost_eq, ← tylerCost_eq] at h1 ⊢
      rw [tylerCost_smul hnY hY.1 (hc Y)]
      exact h1
    · intro U m hU he
      have h1 := param_logdet hR hU m
      rw [← he, ← hRS, det_smul, Fintype.card_fin, ← RCLike.ofReal_pow, RCLike.re_ofReal_mul,
        Real.log_mul (pow_pos (hc Y) p).ne' (posDef_det_pos hY.1).1.ne', Real.log_pow, Real.log_exp,
        mul_div_cancel₀ _ hp'.ne'] at h1
      show ∑ j, m j = 0
      linarith

/-- Neighbourhoods of a data set, entry by entry. -/
theorem nhds_entries {X : Matrix (Fin N) (Fin p) 𝕜} {P : Matrix (Fin N) (Fin p) 𝕜 → Prop}
    (h : ∀ᶠ Y in 𝓝 X, P Y) :
    ∃ δ : ℝ, 0 < δ ∧ ∀ Y : Matrix (Fin N) (Fin p) 𝕜, (∀ i j, ‖Y i j - X i j‖ < δ) → P Y := by
  have h' : ∀ᶠ Y : Fin N → Fin p → 𝕜 in 𝓝 (X : Fin N → Fin p → 𝕜), P Y := h
  obtain ⟨δ, hδ, hP⟩ := Metric.eventually_nhds_iff.1 h'
  refine ⟨δ, hδ, fun Y hY => hP ?_⟩
  refine (dist_pi_lt_iff hδ).2 fun i => (dist_pi_lt_iff hδ).2 fun j => ?_
  rw [dist_eq_norm]
  exact hY i j

theorem frob_eventually {ι : Type} {f : Filter ι} {Q : ι → Matrix (Fin p) (Fin p) 𝕜}
    {S : Matrix (Fin p) (Fin p) 𝕜} (h : Tendsto Q f (𝓝 S)) {ε : ℝ} (hε : 0 < ε) :
    ∀ᶠ Y in f, frob (Q Y - S) < ε := by
  have hc : Continuous fun A : Matrix (Fin p) (Fin p) 𝕜 => frob (A - S) := by
    unfold frob
    fun_prop
  have h1 := (hc.tendsto S).comp h
  have h0 : frob (S - S) = 0 := by rw [sub_self]; exact (frob_eq_zero 0).2 rfl
  rw [h0] at h1
  exact h1.eventually (gt_mem_nhds hε)

/-- All data close to `X` have a Student-t estimate close to that of `X`. -/
theorem student_well_posed {nu : ℝ} (hnu : 0 < nu) (hp : 0 < p) {X : Matrix (Fin N) (Fin p) 𝕜}
    (H : ∀ V : Submodule 𝕜 (Fin p → 𝕜), V ≠ ⊤ →
      (nu + p) * samplesIn X V < N * (nu + Module.finrank 𝕜 V))
    {S : Matrix (Fin p) (Fin p) 𝕜} (hS : S.PosDef) (hfix : mStep (wStudent nu p) X S = S)
    {ε : ℝ} (hε : 0 < ε) :
    ∃ δ : ℝ, 0 < δ ∧ ∀ Y : Matrix (Fin N) (Fin p) 𝕜, (∀ i j, ‖Y i j - X i j‖ < δ) →
      (∀ V : Submodule 𝕜 (Fin p → 𝕜), V ≠ ⊤ →
        (nu + p) * samplesIn Y V < N * (nu + Module.finrank 𝕜 V)) ∧
      ∃ Q : Matrix (Fin p) (Fin p) 𝕜, Q.PosDef ∧ mStep (wStudent nu p) Y Q = Q ∧
        frob (Q - S) < ε := by
  classical
  have hex : ∀ Y : Matrix (Fin N) (Fin p) 𝕜, ∃ Q : Matrix (Fin p) (Fin p) 𝕜,
      (∀ V : Submodule 𝕜 (Fin p → 𝕜), V ≠ ⊤ →
        (nu + p) * samplesIn Y V < N * (nu + Module.finrank 𝕜 V)) →
      Q.PosDef ∧ mStep (wStudent nu p) Y Q = Q := fun Y => by
    by_cases h : ∀ V : Submodule 𝕜 (Fin p → 𝕜), V ≠ ⊤ →
        (nu + p) * samplesIn Y V < N * (nu + Module.finrank 𝕜 V)
    · obtain ⟨Q, h1, h2⟩ := student_exists hnu hp Y h
      exact ⟨Q, fun _ => ⟨h1, h2⟩⟩
    · exact ⟨0, fun h' => absurd h' h⟩
  choose Q hQ using hex
  have ho := student_count_open H hnu
  have ht := student_data_tendsto hnu hp hS hfix Q (ho.mono hQ)
  refine nhds_entries ?_
  filter_upwards [ho, frob_eventually ht hε] with Y h1 h2
  exact ⟨h1, Q Y, (hQ Y h1).1, (hQ Y h1).2, h2⟩

/-- All data close to `X` have a Tyler estimate that, rescaled, is close to that of `X`. -/
theorem tyler_well_posed (hN : 0 < N) (hp : 0 < p) {X : Matrix (Fin N) (Fin p) 𝕜}
    (hn : NonzeroSamples X)
    (H : ∀ V : Submodule 𝕜 (Fin p → 𝕜), V ≠ ⊥ → V ≠ ⊤ →
      p * samplesIn X V < N * Module.finrank 𝕜 V)
    {S : Matrix (Fin p) (Fin p) 𝕜} (hS : S.PosDef) (hfix : mStep (wTyler p) X S = S)
    {ε : ℝ} (hε : 0 < ε) :
    ∃ δ : ℝ, 0 < δ ∧ ∀ Y : Matrix (Fin N) (Fin p) 𝕜, (∀ i j, ‖Y i j - X i j‖ < δ) →
      NonzeroSamples Y ∧
      (∀ V : Submodule 𝕜 (Fin p → 𝕜), V ≠ ⊥ → V ≠ ⊤ →
        p * samplesIn Y V < N * Module.finrank 𝕜 V) ∧
      ∃ (Q : Matrix (Fin p) (Fin p) 𝕜) (c : ℝ), Q.PosDef ∧ mStep (wTyler p) Y Q = Q ∧ 0 < c ∧
        frob ((c : 𝕜) • Q - S) < ε := by
  classical
  have hex : ∀ Y : Matrix (Fin N) (Fin p) 𝕜, ∃ Q : Matrix (Fin p) (Fin p) 𝕜,
      (NonzeroSamples Y ∧ ∀ V : Submodule 𝕜 (Fin p → 𝕜), V ≠ ⊥ → V ≠ ⊤ →
        p * samplesIn Y V < N * Module.finrank 𝕜 V) →
      Q.PosDef ∧ mStep (wTyler p) Y Q = Q := fun Y => by
    by_cases h : NonzeroSamples Y ∧ ∀ V : Submodule 𝕜 (Fin p → 𝕜), V ≠ ⊥ → V ≠ ⊤ →
        p * samplesIn Y V < N * Module.finrank 𝕜 V
    · obtain ⟨Q, h1, h2⟩ := tyler_exists hp hN Y h.1 h.2
      exact ⟨Q, fun _ => ⟨h1, h2⟩⟩
    · exact ⟨0, fun h' => absurd h' h⟩
  choose Q hQ using hex
  have ho := (nonzero_open hn).and (tyler_count_open hN hn H)
  obtain ⟨c, hc, ht⟩ := tyler_data_tendsto hp hn (count_indecomposable X H) hS hfix Q (ho.mono hQ)
  refine nhds_entries ?_
  filter_upwards [ho, frob_eventually ht hε] with Y h1 h2
  exact ⟨h1.1, h1.2, Q Y, c Y, (hQ Y h1).1, (hQ Y h1).2, hc Y, h2⟩

end
end RS
