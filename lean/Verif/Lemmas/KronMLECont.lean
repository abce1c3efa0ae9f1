import Verif.Lemmas.KronMLE
import Verif.Lemmas.DataCont
import Verif.Lemmas.KronConsist
import Verif.Lemmas.Affine

/-
The Kronecker product of least Student cost depends continuously on the data.
-/
set_option autoImplicit false

namespace RS
open Matrix ComplexOrder Filter Topology

section
variable {𝕜 : Type} [RCLike 𝕜] {N p : ℕ}

/-- The condition on the data does not depend on the coordinates nor on the order of the samples. -/
theorem student_condition_mul {nu : ℝ} (X : Matrix (Fin N) (Fin p) 𝕜)
    (H : ∀ V : Submodule 𝕜 (Fin p → 𝕜), V ≠ ⊤ →
      (nu + p) * samplesIn X V < N * (nu + Module.finrank 𝕜 V)) (T : Matrix (Fin p) (Fin p) 𝕜)
    (hT : IsUnit T) (σ : Equiv.Perm (Fin N)) :
    ∀ V : Submodule 𝕜 (Fin p → 𝕜), V ≠ ⊤ →
      (nu + p) * samplesIn (fun i => T *ᵥ X (σ i) : Matrix (Fin N) (Fin p) 𝕜) V <
        N * (nu + Module.finrank 𝕜 V) := by
  classical
  intro V h2
  have e : samplesIn (fun i => T *ᵥ X (σ i) : Matrix (Fin N) (Fin p) 𝕜) V =
      samplesIn X (V.comap (Matrix.mulVecLin T)) := by
    unfold samplesIn sample
    exact Nat.card_congr (σ.subtypeEquiv fun i => Iff.rfl)
  rw [e, ← toLin_finrank T hT V]
  exact H _ (comap_ne_top hT h2)

/-- As `sphere_open`, for directions in a compact set of unitary matrices. -/
theorem sphere_open_of {nu : ℝ} (hnu : 0 ≤ nu) {X : Matrix (Fin N) (Fin p) 𝕜}
    (R : Matrix (Fin p) (Fin p) 𝕜) (hX : ∀ i, 0 < nu + ∑ j, ‖(R *ᵥ sample X i) j‖ ^ 2)
    {C : Set (Matrix (Fin p) (Fin p) 𝕜)} (hC : IsCompact C) (hCU : ∀ U ∈ C, Uᴴ * U = 1)
    (M : Submodule ℝ (Fin p → ℝ)) {δ : ℝ}
    (hpos : ∀ U ∈ C, ∀ m ∈ M, ‖m‖ = δ → 0 < ∑ i, psi nu U m (R *ᵥ sample X i)) :
    ∀ᶠ Y in 𝓝 X, ∀ U ∈ C, ∀ m ∈ M, ‖m‖ = δ → 0 < ∑ i, psi nu U m (R *ᵥ sample Y i) := by
  have hK : IsCompact (C ×ˢ {m : Fin p → ℝ | m ∈ M ∧ ‖m‖ = δ}) := by
    refine hC.prod (((isCompact_closedBall (0 : Fin p → ℝ) δ).of_isClosed_subset ?_ ?_))
    · exact (M.closed_of_finiteDimensional).inter (isClosed_eq continuous_norm continuous_const)
    · rintro m ⟨-, hm⟩
      simpa using hm.le
  have key := hK.eventually_forall_of_forall_eventually
    (x₀ := X) (P := fun Y z => 0 < ∑ i, psi nu z.1 z.2 (R *ᵥ sample Y i)) (by
      rintro ⟨U, m⟩ ⟨hU, hm, hd⟩
      have hc : ContinuousAt (fun w : Matrix (Fin N) (Fin p) 𝕜 ×
          (Matrix (Fin p) (Fin p) 𝕜 × (Fin p → ℝ)) =>
          ∑ i, psi nu w.2.1 w.2.2 (R *ᵥ sample w.1 i)) (X, (U, m)) := by
        refine tendsto_finsetSum _ fun i _ => ?_
        have hin : Continuous fun w : Matrix (Fin N) (Fin p) 𝕜 ×
            (Matrix (Fin p) (Fin p) 𝕜 × (Fin p → ℝ)) => ((w.2.1, w.2.2), R *ᵥ sample w.1 i) := by
          refine (continuous_snd.fst.prodMk continuous_snd.snd).prodMk
            (Continuous.matrix_mulVec continuous_const ?_)
          exact continuous_pi fun j => continuous_fst.matrix_elem i j
        exact ContinuousAt.comp (f := fun w : Matrix (Fin N) (Fin p) 𝕜 ×
            (Matrix (Fin p) (Fin p) 𝕜 × (Fin p → ℝ)) => ((w.2.1, w.2.2), R *ᵥ sample w.1 i))
          (x := (X, (U, m))) (psi_continuousAt hnu U (hCU U hU) m _ (hX i)) hin.continuousAt
      exact hc.eventually (lt_mem_nhds (hpos U hU m hm hd)))
  filter_upwards [key] with Y hY U hU m hm hd
  exact hY (U, m) ⟨hU, hm, hd⟩

/-- Minimisers among the matrices with directions in `C` and logarithmic coordinates in `M`. -/
theorem minimiser_tendsto_of {nu : ℝ} (hnu : 0 < nu) {X : Matrix (Fin N) (Fin p) 𝕜}
    {S R : Matrix (Fin p) (Fin p) 𝕜} (hR : IsUnit R) (hRS : S = R * Rᴴ)
    {C : Set (Matrix (Fin p) (Fin p) 𝕜)} (hC : IsCompact C) (hCU : ∀ U ∈ C, Uᴴ * U = 1)
    (hC1 : 1 ∈ C) (M : Submodule ℝ (Fin p → ℝ))
    (hstrict : ∀ U ∈ C, ∀ m ∈ M, m ≠ 0 → 0 < ∑ i, psi nu U m (R⁻¹ *ᵥ sample X i))
    (Q : Matrix (Fin N) (Fin p) 𝕜 → Matrix (Fin p) (Fin p) 𝕜)
    (hQ : ∀ᶠ Y in 𝓝 X, studentCost nu Y (Q Y) ≤ studentCost nu Y S ∧ ∃ U ∈ C, ∃ m ∈ M,
      Q Y = R * (U * diagonal (fun j => ((Real.exp (m j) : ℝ) : 𝕜)) * Uᴴ) * Rᴴ) :
    Tendsto Q (𝓝 X) (𝓝 S) := by
  classical
  have hex : ∀ Y, ∃ U ∈ C, ∃ m ∈ M,
      ((∃ U ∈ C, ∃ m ∈ M, Q Y = R * (U * diagonal (fun j => ((Real.exp (m j) : ℝ) : 𝕜)) * Uᴴ) * Rᴴ) →
        Q Y = R * (U * diagonal (fun j => ((Real.exp (m j) : ℝ) : 𝕜)) * Uᴴ) * Rᴴ) := by
    intro Y
    by_cases hY : ∃ U ∈ C, ∃ m ∈ M,
        Q Y = R * (U * diagonal (fun j => ((Real.exp (m j) : ℝ) : 𝕜)) * Uᴴ) * Rᴴ
    · obtain ⟨U, hU, m, hm, he⟩ := hY
      exact ⟨U, hU, m, hm, fun _ => he⟩
    · exact ⟨1, hC1, 0, M.zero_mem, fun h => absurd h hY⟩
  choose U hU m hmM hQe using hex
  have hpos : ∀ (Y : Matrix (Fin N) (Fin p) 𝕜) i, 0 < nu + ∑ j, ‖(R⁻¹ *ᵥ sample Y i) j‖ ^ 2 :=
    fun Y i => by positivity
  have hm : Tendsto m (𝓝 X) (𝓝 0) := by
    rw [tendsto_zero_iff_norm_tendsto_zero, Metric.tendsto_nhds]
    intro ε hε
    have hs := sphere_open_of hnu.le R⁻¹ (hpos X) hC hCU M (δ := ε) fun U hU m hm hd =>
      hstrict U hU m hm fun h0 => by rw [h0, norm_zero] at hd; linarith
    filter_upwards [hs, hQ] with Y h1 ⟨h4, h5⟩
    have hle : ∑ i, psi nu (U Y) (m Y) (R⁻¹ *ᵥ sample Y i) ≤ 0 := by
      rw [← cost_psi Y hR (hCU _ (hU Y)) (m Y), ← hRS, ← hQe Y h5]
      linarith
    have := sphere_to_ball_fin hnu.le (hCU _ (hU Y)) (hpos Y) hε
      (fun m hm hd => h1 (U Y) (hU Y) m hm hd) (hmM Y) hle
    simpa using this
  have hlim := param_tendsto R (fun Y => hCU _ (hU Y)) hm
  rw [← hRS] at hlim
  refine hlim.congr' ?_
  filter_upwards [hQ] with Y hY
  exact (hQe Y hY.2).symm

end

section
variable {𝕜 : Type} [RCLike 𝕜] {N a b : ℕ}

/-- Kronecker products of unitary matrices. -/
def kronUnitary (𝕜 : Type) [RCLike 𝕜] (a b : ℕ) : Set (Matrix (Fin (a * b)) (Fin (a * b)) 𝕜) :=
  (fun z : Matrix (Fin a) (Fin a) 𝕜 × Matrix (Fin b) (Fin b) 𝕜 => kron z.1 z.2) ''
    ({U | Uᴴ * U = 1} ×ˢ {U | Uᴴ * U = 1})

theorem unitary_compact (p : ℕ) : IsCompact {U : Matrix (Fin p) (Fin p) 𝕜 | Uᴴ * U = 1} := by
  have := (isCompact_sphere_param (𝕜 := 𝕜) (⊤ : Submodule ℝ (Fin p → ℝ)) 0).image continuous_fst
  convert this using 1
  ext U
  constructor
  · intro h
    exact ⟨(U, 0), ⟨h, trivial, norm_zero⟩, rfl⟩
  · rintro ⟨z, hz, rfl⟩
    exact hz.1

theorem kronUnitary_compact : IsCompact (kronUnitary 𝕜 a b) :=
  ((unitary_compact a).prod (unitary_compact b)).image kron_continuous

theorem kronUnitary_unitary {U : Matrix (Fin (a * b)) (Fin (a * b)) 𝕜} (h : U ∈ kronUnitary 𝕜 a b) :
    Uᴴ * U = 1 := by
  obtain ⟨⟨V, W⟩, ⟨hV, hW⟩, rfl⟩ := h
  show (kron V W)ᴴ * kron V W = 1
  rw [kron_conjTranspose, kron_mul, show Vᴴ * V = 1 from hV, show Wᴴ * W = 1 from hW, kron_one_one]

theorem kronUnitary_one : (1 : Matrix (Fin (a * b)) (Fin (a * b)) 𝕜) ∈ kronUnitary 𝕜 a b :=
  ⟨(1, 1), ⟨by simp, by simp⟩, kron_one_one⟩

/-- Sums `x_c + y_r`. -/
def kronSums (a b : ℕ) : Submodule ℝ (Fin (a * b) → ℝ) where
  carrier := {m | ∃ (x : Fin a → ℝ) (y : Fin b → ℝ),
    m = fun j => x (finProdFinEquiv.symm j).1 + y (finProdFinEquiv.symm j).2}
  zero_mem' := ⟨0, 0, by funext j; simp⟩
  add_mem' := by
    rintro _ _ ⟨x, y, rfl⟩ ⟨x', y', rfl⟩
    exact ⟨x + x', y + y', by funext j; simp only [Pi.add_apply]; ring⟩
  smul_mem' := by
    rintro c _ ⟨x, y, rfl⟩
    exact ⟨c • x, c • y, by funext j; simp only [Pi.smul_apply, smul_eq_mul]; ring⟩

theorem kron_param (Ra V : Matrix (Fin a) (Fin a) 𝕜) (Rb W : Matrix (Fin b) (Fin b) 𝕜)
    (x : Fin a → ℝ) (y : Fin b → ℝ) :
    kron Ra Rb * (kron V W * diagonal (fun j => ((Real.exp (x (finProdFinEquiv.symm j).1 +
      y (finProdFinEquiv.symm j).2) : ℝ) : 𝕜)) * (kron V W)ᴴ) * (kron Ra Rb)ᴴ =
    kron (Ra * (V * diagonal (fun j => ((Real.exp (x j) : ℝ) : 𝕜)) * Vᴴ) * Raᴴ)
      (Rb * (W * diagonal (fun j => ((Real.exp (y j) : ℝ) : 𝕜)) * Wᴴ) * Rbᴴ) := by
  have e : diagonal (fun j => ((Real.exp (x (finProdFinEquiv.symm j).1 +
      y (finProdFinEquiv.symm j).2) : ℝ) : 𝕜)) =
      kron (diagonal (fun j => ((Real.exp (x j) : ℝ) : 𝕜)))
        (diagonal (fun j => ((Real.exp (y j) : ℝ) : 𝕜))) := by
    rw [kron_diagonal]
    congr 1
    funext j
    rw [Real.exp_add, RCLike.ofReal_mul]
  rw [e, kron_conjTranspose, kron_conjTranspose, kron_mul, kron_mul, kron_mul, kron_mul]

/-- Near a data set with a unique Kronecker product of least cost, those of other data sets are near
it. -/
theorem kron_student_tendsto {nu : ℝ} (hnu : 0 < nu) {X : Matrix (Fin N) (Fin (a * b)) 𝕜}
    (hX : Spans X) {A : Matrix (Fin a) (Fin a) 𝕜} {B : Matrix (Fin b) (Fin b) 𝕜} (hA : A.PosDef)
    (hB : B.PosDef) (hmin : ∀ (C : Matrix (Fin a) (Fin a) 𝕜) (D : Matrix (Fin b) (Fin b) 𝕜),
      C.PosDef → D.PosDef → studentCost nu X (kron A B) ≤ studentCost nu X (kron C D))
    (Q : Matrix (Fin N) (Fin (a * b)) 𝕜 → Matrix (Fin (a * b)) (Fin (a * b)) 𝕜)
    (hQ : ∀ᶠ Y in 𝓝 X, studentCost nu Y (Q Y) ≤ studentCost nu Y (kron A B) ∧
      ∃ (C : Matrix (Fin a) (Fin a) 𝕜) (D : Matrix (Fin b) (Fin b) 𝕜), C.PosDef ∧ D.PosDef ∧
        Q Y = kron C D) :
    Tendsto Q (𝓝 X) (𝓝 (kron A B)) := by
  obtain ⟨Ra, hRa, ea⟩ := factor_exists hA
  obtain ⟨Rb, hRb, eb⟩ := factor_exists hB
  have hR : IsUnit (kron Ra Rb) := by
    rw [Matrix.isUnit_iff_isUnit_det, det_kron]
    exact (((Matrix.isUnit_iff_isUnit_det Ra).1 hRa).pow b).mul
      (((Matrix.isUnit_iff_isUnit_det Rb).1 hRb).pow a)
  have hRS : kron A B = kron Ra Rb * (kron Ra Rb)ᴴ := by
    rw [kron_conjTranspose, kron_mul, ← ea, ← eb]
  refine minimiser_tendsto_of hnu hR hRS kronUnitary_compact (fun U => kronUnitary_unitary)
    kronUnitary_one (kronSums a b) ?_ Q ?_
  · rintro U hU m ⟨x, y, hm⟩ hm0
    have hUU := kronUnitary_unitary hU
    by_contra hcon
    push Not at hcon
    rw [← cost_psi X hR hUU m, ← hRS] at hcon
    obtain ⟨⟨V, W⟩, ⟨hV, hW⟩, hVW⟩ := hU
    have hVW' : U = kron V W := hVW.symm
    have e := kron_param Ra V Rb W x y
    rw [← hVW'] at e
    subst hm
    rw [e] at hcon
    have heq := kron_student_unique hnu X hX hA hB (param_posDef hRa hV x) (param_posDef hRb hW y)
      hmin fun C D hC hD => by linarith [hmin C D hC hD]
    rw [← e] at heq
    refine hm0 (funext fun j => ?_)
    have := param_eq_smul hR hUU (c := 1) (by rw [heq, hRS, RCLike.ofReal_one, one_smul]) j
    rwa [Real.exp_eq_one_iff] at this
  · filter_upwards [hQ] with Y ⟨h1, C, D, hC, hD, h2⟩
    obtain ⟨V, x, hV, hx⟩ := param_exists hRa hC
    obtain ⟨W, y, hW, hy⟩ := param_exists hRb hD
    exact ⟨h1, kron V W, ⟨(V, W), ⟨hV, hW⟩, rfl⟩, _, ⟨x, y, rfl⟩, by
      rw [kron_param, ← hx, ← hy, h2]⟩

end

end RS
