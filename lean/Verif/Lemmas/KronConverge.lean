import Verif.Lemmas.Structured
import Verif.Lemmas.TylerConverge
import Verif.Lemmas.Exist
import Mathlib.Analysis.MeanInequalities

/-! Convergence of the Kronecker MM iteration: coercivity of the cost around a stationary pair that
is unique up to scale, monotone determinants, limit points. -/
set_option autoImplicit false

namespace RS
open Matrix ComplexOrder Filter Topology

section
variable {𝕜 : Type} [RCLike 𝕜] {N a b : ℕ}

/-- The squared entries of a sample in given bases. -/
noncomputable def kronTau (M : Matrix (Fin b) (Fin a) 𝕜) (G : Matrix (Fin a) (Fin a) 𝕜)
    (H : Matrix (Fin b) (Fin b) 𝕜) (c : Fin a) (r : Fin b) : ℝ := ‖(H * M * Gᴴ) r c‖ ^ 2

/-- The cost in given bases, as a function of the logarithms of the eigenvalues. -/
noncomputable def kronF (M : Fin N → Matrix (Fin b) (Fin a) 𝕜) (G : Matrix (Fin a) (Fin a) 𝕜)
    (H : Matrix (Fin b) (Fin b) 𝕜) (x : Fin a → ℝ) (y : Fin b → ℝ) : ℝ :=
  a * b * ∑ i, (Real.log (∑ c, ∑ r, kronTau (M i) G H c r * Real.exp (-(x c + y r))) -
    Real.log (∑ c, ∑ r, kronTau (M i) G H c r)) + N * (b * ∑ c, x c + a * ∑ r, y r)

theorem kronTau_nonneg (M : Matrix (Fin b) (Fin a) 𝕜) (G : Matrix (Fin a) (Fin a) 𝕜)
    (H : Matrix (Fin b) (Fin b) 𝕜) (c : Fin a) (r : Fin b) : 0 ≤ kronTau M G H c r := by
  unfold kronTau; positivity

theorem kronTau_pos {M : Matrix (Fin b) (Fin a) 𝕜} {G : Matrix (Fin a) (Fin a) 𝕜}
    {H : Matrix (Fin b) (Fin b) 𝕜} (hM : M ≠ 0) (hG : IsUnit G) (hH : IsUnit H)
    (f : Fin a → Fin b → ℝ) (hf : ∀ c r, 0 < f c r) :
    0 < ∑ c, ∑ r, kronTau M G H c r * f c r := by
  have h0 : ∀ c r, 0 ≤ kronTau M G H c r * f c r := fun c r =>
    mul_nonneg (kronTau_nonneg M G H c r) (hf c r).le
  have h1 : 0 ≤ ∑ c, ∑ r, kronTau M G H c r * f c r :=
    Finset.sum_nonneg fun c _ => Finset.sum_nonneg fun r _ => h0 c r
  refine lt_of_le_of_ne h1 fun h => hM ?_
  have hz : H * M * Gᴴ = 0 := by
    ext r c
    have h2 := (Finset.sum_eq_zero_iff_of_nonneg fun c _ =>
      Finset.sum_nonneg fun r _ => h0 c r).1 h.symm c (Finset.mem_univ c)
    have h3 := (Finset.sum_eq_zero_iff_of_nonneg fun r _ => h0 c r).1 h2 r (Finset.mem_univ r)
    rcases mul_eq_zero.1 h3 with h4 | h4
    · unfold kronTau at h4
      simpa using h4
    · exact absurd h4 (hf c r).ne'
  have hGu := (isUnit_iff_isUnit_det G).1 hG
  have hHu := (isUnit_iff_isUnit_det H).1 hH
  have hGH : IsUnit Gᴴ.det := by rw [det_conjTranspose]; exact hGu.star
  have h5 := congrArg (fun Z => H⁻¹ * Z * (Gᴴ)⁻¹) hz
  simpa [Matrix.mul_assoc, mul_nonsing_inv _ hGH, ← Matrix.mul_assoc H⁻¹ H,
    nonsing_inv_mul _ hHu] using h5

theorem kronTau_sum_pos {M : Matrix (Fin b) (Fin a) 𝕜} {G : Matrix (Fin a) (Fin a) 𝕜}
    {H : Matrix (Fin b) (Fin b) 𝕜} (hM : M ≠ 0) (hG : IsUnit G) (hH : IsUnit H) :
    0 < ∑ c, ∑ r, kronTau M G H c r := by
  have := kronTau_pos hM hG hH (fun _ _ => 1) fun _ _ => one_pos
  simpa using this

theorem unstack_ne_zero {x : Fin (a * b) → 𝕜} (h0 : x ≠ 0) :
    (unstack x : Matrix (Fin b) (Fin a) 𝕜) ≠ 0 := fun h => h0 (by
  ext j
  have := congrFun (congrFun h (finProdFinEquiv.symm j).2) (finProdFinEquiv.symm j).1
  simpa [unstack, -finProdFinEquiv_symm_apply] using this)

theorem kronF_eq (X : Matrix (Fin N) (Fin (a * b)) 𝕜)
    {A A' G : Matrix (Fin a) (Fin a) 𝕜} {B B' H : Matrix (Fin b) (Fin b) 𝕜} (hA : A.PosDef)
    (hB : B.PosDef) (hA' : A'.PosDef) (hB' : B'.PosDef) (hG : IsUnit G) (hH : IsUnit H)
    (x : Fin a → ℝ) (y : Fin b → ℝ) (g1 : G * A * Gᴴ = 1) (k1 : H * B * Hᴴ = 1)
    (g2 : G * A' * Gᴴ = diagonal fun j => ((Real.exp (x j) : ℝ) : 𝕜))
    (k2 : H * B' * Hᴴ = diagonal fun j => ((Real.exp (y j) : ℝ) : 𝕜)) :
    tylerCost X (kron A'ᵀ B') =
      tylerCost X (kron Aᵀ B) + kronF (fun i => unstack (X i)) G H x y := by
  have hd : ∀ i, trace (A⁻¹ * ((unstack (X i))ᴴ * B⁻¹ * unstack (X i))) =
      ((∑ c, ∑ r, kronTau (unstack (X i)) G H c r : ℝ) : 𝕜) := fun i => by
    have := trace_diag_form (l := fun _ => 1) (m := fun _ => 1) hG hH (fun _ => one_pos)
      (fun _ => one_pos) (by rw [g1]; simp) (by rw [k1]; simp) (unstack (X i))
    simpa [kronTau] using this
  have he : ∀ i, trace (A'⁻¹ * ((unstack (X i))ᴴ * B'⁻¹ * unstack (X i))) =
      ((∑ c, ∑ r, kronTau (unstack (X i)) G H c r * Real.exp (-(x c + y r)) : ℝ) : 𝕜) := fun i => by
    rw [trace_diag_form hG hH (fun j => Real.exp_pos (x j)) (fun j => Real.exp_pos (y j)) g2 k2
      (unstack (X i))]
    congr 1
    refine Finset.sum_congr rfl fun c _ => Finset.sum_congr rfl fun r _ => ?_
    rw [Real.exp_neg, Real.exp_add, div_eq_mul_inv, kronTau]
  have ld1 := log_det_diff hA hA' hG (fun j => Real.exp_pos (x j)) g1 g2
  have ld2 := log_det_diff hB hB' hH (fun j => Real.exp_pos (y j)) k1 k2
  simp only [Real.log_exp] at ld1 ld2
  rw [tylerCost_kron X hA hB _ hd, tylerCost_kron X hA' hB' _ he, ld1, ld2, kronF,
    Finset.sum_sub_distrib]
  ring

theorem kronF_ray (M : Fin N → Matrix (Fin b) (Fin a) 𝕜) {G : Matrix (Fin a) (Fin a) 𝕜}
    {H : Matrix (Fin b) (Fin b) 𝕜} (hM : ∀ i, M i ≠ 0) (hG : IsUnit G) (hH : IsUnit H)
    (x : Fin a → ℝ) (y : Fin b → ℝ) {s : ℝ} (hs : 1 ≤ s) :
    s * kronF M G H x y ≤ kronF M G H (s • x) (s • y) := by
  have key : ∀ i, s * (Real.log (∑ c, ∑ r, kronTau (M i) G H c r * Real.exp (-(x c + y r))) -
        Real.log (∑ c, ∑ r, kronTau (M i) G H c r)) ≤
      Real.log (∑ c, ∑ r, kronTau (M i) G H c r * Real.exp (-((s • x) c + (s • y) r))) -
        Real.log (∑ c, ∑ r, kronTau (M i) G H c r) := fun i => by
    set T := ∑ c, ∑ r, kronTau (M i) G H c r with hT
    have hTp : 0 < T := kronTau_sum_pos (hM i) hG hH
    have h1 := kronTau_pos (hM i) hG hH (fun c r => Real.exp (-(x c + y r)))
      fun _ _ => Real.exp_pos _
    have h2 := kronTau_pos (hM i) hG hH (fun c r => Real.exp (-((s • x) c + (s • y) r)))
      fun _ _ => Real.exp_pos _
    have hsum : ∀ f : Fin a → Fin b → ℝ, ∑ q : Fin a × Fin b, kronTau (M i) G H q.1 q.2 / T *
        f q.1 q.2 = (∑ c, ∑ r, kronTau (M i) G H c r * f c r) / T := fun f => by
      rw [Fintype.sum_prod_type, Finset.sum_div]
      refine Finset.sum_congr rfl fun c _ => ?_
      rw [Finset.sum_div]
      exact Finset.sum_congr rfl fun r _ => by ring
    have hj := Real.rpow_arith_mean_le_arith_mean_rpow (Finset.univ : Finset (Fin a × Fin b))
      (fun q => kronTau (M i) G H q.1 q.2 / T) (fun q => Real.exp (-(x q.1 + y q.2)))
      (fun q _ => div_nonneg (kronTau_nonneg _ _ _ _ _) hTp.le)
      (by
        have := hsum fun _ _ => 1
        simp only [mul_one] at this
        rw [this, ← hT, div_self hTp.ne'])
      (fun q _ => (Real.exp_pos _).le) hs
    rw [hsum fun c r => Real.exp (-(x c + y r))] at hj
    have e : ∀ q : Fin a × Fin b, Real.exp (-(x q.1 + y q.2)) ^ s =
        Real.exp (-((s • x) q.1 + (s • y) q.2)) := fun q => by
      rw [← Real.exp_mul]
      congr 1
      simp only [Pi.smul_apply, smul_eq_mul]
      ring
    simp only [e] at hj
    rw [hsum fun c r => Real.exp (-((s • x) c + (s • y) r))] at hj
    have hl := Real.log_le_log (Real.rpow_pos_of_pos (div_pos h1 hTp) s) hj
    rw [Real.log_rpow (div_pos h1 hTp), Real.log_div h1.ne' hTp.ne',
      Real.log_div h2.ne' hTp.ne'] at hl
    exact hl
  unfold kronF
  have h1 := Finset.sum_le_sum fun i (_ : i ∈ Finset.univ) => key i
  rw [← Finset.mul_sum] at h1
  have hab : (0 : ℝ) ≤ a * b := by positivity
  have h2 := mul_le_mul_of_nonneg_left h1 hab
  have e1 : ∑ c, (s • x) c = s * ∑ c, x c := by simp [Finset.mul_sum]
  have e2 : ∑ c, (s • y) c = s * ∑ c, y c := by simp [Finset.mul_sum]
  rw [e1, e2]
  linarith

/-- Shifting all logarithms of eigenvalues does not change the cost. -/
theorem kronF_shift (M : Fin N → Matrix (Fin b) (Fin a) 𝕜) {G : Matrix (Fin a) (Fin a) 𝕜}
    {H : Matrix (Fin b) (Fin b) 𝕜} (hM : ∀ i, M i ≠ 0) (hG : IsUnit G) (hH : IsUnit H)
    (x : Fin a → ℝ) (y : Fin b → ℝ) (u v : ℝ) :
    kronF M G H (fun c => x c + u) (fun r => y r + v) = kronF M G H x y := by
  unfold kronF
  have e : ∀ i, Real.log (∑ c, ∑ r, kronTau (M i) G H c r *
      Real.exp (-(x c + u + (y r + v)))) =
      Real.log (∑ c, ∑ r, kronTau (M i) G H c r * Real.exp (-(x c + y r))) - (u + v) := fun i => by
    have h1 := kronTau_pos (hM i) hG hH (fun c r => Real.exp (-(x c + y r)))
      fun _ _ => Real.exp_pos _
    have h2 : ∑ c, ∑ r, kronTau (M i) G H c r * Real.exp (-(x c + u + (y r + v))) =
        (∑ c, ∑ r, kronTau (M i) G H c r * Real.exp (-(x c + y r))) * Real.exp (-(u + v)) := by
      rw [Finset.sum_mul]
      refine Finset.sum_congr rfl fun c _ => ?_
      rw [Finset.sum_mul]
      refine Finset.sum_congr rfl fun r _ => ?_
      rw [mul_assoc, ← Real.exp_add]
      congr 2
      ring
    rw [h2, Real.log_mul h1.ne' (Real.exp_pos _).ne', Real.log_exp]
    ring
  simp only [e, Finset.sum_add_distrib, Finset.sum_sub_distrib, Finset.sum_const,
    Finset.card_univ, Fintype.card_fin, nsmul_eq_mul]
  ring

theorem isCompact_whitening {A : Matrix (Fin a) (Fin a) 𝕜} (hA : A.PosDef) :
    IsCompact {G : Matrix (Fin a) (Fin a) 𝕜 | G * A * Gᴴ = 1} := by
  obtain ⟨R, hR, hRR⟩ := exists_pd_root hA
  have hu := (isUnit_iff_isUnit_det R).1 hR.isUnit
  have : {G : Matrix (Fin a) (Fin a) 𝕜 | G * A * Gᴴ = 1} =
      (fun U : Matrix (Fin a) (Fin a) 𝕜 => Uᴴ * R⁻¹) '' {U | Uᴴ * U = 1} := by
    ext G
    simp only [Set.mem_ofPred_eq, Set.mem_image]
    constructor
    · intro h
      refine ⟨(G * R)ᴴ, ?_, ?_⟩
      · rw [conjTranspose_conjTranspose, conjTranspose_mul, hR.1.eq, ← h, ← hRR]
        simp only [Matrix.mul_assoc]
      · rw [conjTranspose_conjTranspose, Matrix.mul_assoc, mul_nonsing_inv _ hu, Matrix.mul_one]
    · rintro ⟨U, hU, rfl⟩
      rw [conjTranspose_mul, conjTranspose_conjTranspose, hR.inv.1.eq, ← hRR]
      calc Uᴴ * R⁻¹ * (R * R) * (R⁻¹ * U) = Uᴴ * (R⁻¹ * R) * (R * R⁻¹) * U := by
            simp only [Matrix.mul_assoc]
        _ = 1 := by rw [nonsing_inv_mul _ hu, mul_nonsing_inv _ hu, Matrix.mul_one,
            Matrix.mul_one, hU]
  rw [this]
  exact isCompact_unitary.image (by fun_prop)

theorem whitening_isUnit {A G : Matrix (Fin a) (Fin a) 𝕜} (h : G * A * Gᴴ = 1) : IsUnit G :=
  IsUnit.of_mul_eq_one (A * Gᴴ) (by rw [← Matrix.mul_assoc]; exact h)

/-- The matrix with given eigenvalues in a given basis. -/
theorem exists_unwhiten {G : Matrix (Fin a) (Fin a) 𝕜} (hG : IsUnit G) (x : Fin a → ℝ) :
    ∃ A' : Matrix (Fin a) (Fin a) 𝕜, A'.PosDef ∧
      G * A' * Gᴴ = diagonal fun j => ((Real.exp (x j) : ℝ) : 𝕜) := by
  have hGu := (isUnit_iff_isUnit_det G).1 hG
  have hGH : IsUnit Gᴴ.det := by rw [det_conjTranspose]; exact hGu.star
  have hD : (diagonal fun j => ((Real.exp (x j) : ℝ) : 𝕜)).PosDef :=
    PosDef.diagonal fun j => by exact_mod_cast Real.exp_pos (x j)
  refine ⟨G⁻¹ * (diagonal fun j => ((Real.exp (x j) : ℝ) : 𝕜)) * (G⁻¹)ᴴ,
    hD.mul_mul_conjTranspose_same (vecMul_injective_of_isUnit (by
      rw [isUnit_iff_isUnit_det, det_nonsing_inv]
      exact hGu.ringInverse)), ?_⟩
  rw [conjTranspose_nonsing_inv]
  calc G * (G⁻¹ * (diagonal fun j => ((Real.exp (x j) : ℝ) : 𝕜)) * (Gᴴ)⁻¹) * Gᴴ =
      (G * G⁻¹) * (diagonal fun j => ((Real.exp (x j) : ℝ) : 𝕜)) * ((Gᴴ)⁻¹ * Gᴴ) := by
        simp only [Matrix.mul_assoc]
    _ = _ := by rw [mul_nonsing_inv _ hGu, nonsing_inv_mul _ hGH, Matrix.one_mul, Matrix.mul_one]

theorem exp_const_zero {G A A' : Matrix (Fin a) (Fin a) 𝕜} {x : Fin a → ℝ} {s : ℝ}
    (g1 : G * A * Gᴴ = 1) (g2 : G * A' * Gᴴ = diagonal fun j => ((Real.exp (x j) : ℝ) : 𝕜))
    (h : A' = (s : 𝕜) • A) (hx : ∑ c, x c = 0) : x = 0 := by
  have h1 : ∀ c, Real.exp (x c) = s := fun c => by
    rw [h, Matrix.mul_smul, Matrix.smul_mul, g1] at g2
    have := congrFun (congrFun g2 c) c
    rw [Matrix.smul_apply, one_apply_eq, diagonal_apply_eq, smul_eq_mul, mul_one] at this
    exact (RCLike.ofReal_injective this).symm
  funext c
  have h2 : ∀ d, x d = x c := fun d => Real.exp_injective ((h1 d).trans (h1 c).symm)
  rw [Finset.sum_congr rfl fun d _ => h2 d] at hx
  simp only [Finset.sum_const, Finset.card_univ, Fintype.card_fin, nsmul_eq_mul] at hx
  rcases mul_eq_zero.1 hx with h3 | h3
  · have h4 : a = 0 := by exact_mod_cast h3
    subst h4
    exact c.elim0
  · exact h3

/-- The cost grows at least linearly away from a minimiser that is unique up to scale. -/
theorem kron_linear_growth (X : Matrix (Fin N) (Fin (a * b)) 𝕜) (h0 : ∀ i, X i ≠ 0)
    {A : Matrix (Fin a) (Fin a) 𝕜} {B : Matrix (Fin b) (Fin b) 𝕜} (hA : A.PosDef) (hB : B.PosDef)
    (hmin : ∀ (A' : Matrix (Fin a) (Fin a) 𝕜) (B' : Matrix (Fin b) (Fin b) 𝕜), A'.PosDef →
      B'.PosDef → tylerCost X (kron Aᵀ B) ≤ tylerCost X (kron A'ᵀ B'))
    (huniq : ∀ (A' : Matrix (Fin a) (Fin a) 𝕜) (B' : Matrix (Fin b) (Fin b) 𝕜), A'.PosDef →
      B'.PosDef → tylerCost X (kron A'ᵀ B') = tylerCost X (kron Aᵀ B) →
      ∃ s t : ℝ, A' = (s : 𝕜) • A ∧ B' = (t : 𝕜) • B) :
    ∃ δ : ℝ, 0 < δ ∧ ∀ (G : Matrix (Fin a) (Fin a) 𝕜) (H : Matrix (Fin b) (Fin b) 𝕜)
      (x : Fin a → ℝ) (y : Fin b → ℝ), G * A * Gᴴ = 1 → H * B * Hᴴ = 1 → ∑ c, x c = 0 →
      ∑ r, y r = 0 → 1 ≤ ‖(x, y)‖ →
      δ * ‖(x, y)‖ ≤ kronF (fun i => unstack (X i)) G H x y := by
  set M : Fin N → Matrix (Fin b) (Fin a) 𝕜 := fun i => unstack (X i) with hMdef
  have hM : ∀ i, M i ≠ 0 := fun i => unstack_ne_zero (h0 i)
  set K : Set (Matrix (Fin a) (Fin a) 𝕜 × Matrix (Fin b) (Fin b) 𝕜 ×
      ((Fin a → ℝ) × (Fin b → ℝ))) :=
    {G | G * A * Gᴴ = 1} ×ˢ {H | H * B * Hᴴ = 1} ×ˢ
      (Metric.sphere 0 1 ∩ {z | ∑ c, z.1 c = 0 ∧ ∑ r, z.2 r = 0}) with hK
  have hKc : IsCompact K := by
    refine (isCompact_whitening hA).prod ((isCompact_whitening hB).prod
      ((isCompact_sphere _ _).inter_right ?_))
    exact (isClosed_eq (by fun_prop) continuous_const).inter
      (isClosed_eq (by fun_prop) continuous_const)
  have hpos : ∀ q ∈ K, 0 < kronF M q.1 q.2.1 q.2.2.1 q.2.2.2 := by
    rintro ⟨G, H, x, y⟩ ⟨hG, hH, hz, hx, hy⟩
    simp only [Set.mem_ofPred_eq] at hG hH hx hy
    obtain ⟨A', hA', g2⟩ := exists_unwhiten (whitening_isUnit hG) x
    obtain ⟨B', hB', k2⟩ := exists_unwhiten (whitening_isUnit hH) y
    have e := kronF_eq X hA hB hA' hB' (whitening_isUnit hG) (whitening_isUnit hH) x y hG hH g2 k2
    have hle := hmin A' B' hA' hB'
    refine lt_of_le_of_ne (by simp only; linarith) fun h => ?_
    obtain ⟨s, t, h1, h2⟩ := huniq A' B' hA' hB' (by rw [e, ← hMdef]; simp only at h; linarith)
    have hx0 := exp_const_zero hG g2 h1 hx
    have hy0 := exp_const_zero hH k2 h2 hy
    rw [mem_sphere_zero_iff_norm, hx0, hy0] at hz
    simp at hz
  have hcont : ContinuousOn (fun q : Matrix (Fin a) (Fin a) 𝕜 × Matrix (Fin b) (Fin b) 𝕜 ×
      ((Fin a → ℝ) × (Fin b → ℝ)) => kronF M q.1 q.2.1 q.2.2.1 q.2.2.2) K := by
    unfold kronF
    refine ContinuousOn.add (ContinuousOn.mul continuousOn_const
      (continuousOn_finsetSum _ fun i _ => (ContinuousOn.log ?_ ?_).sub
        (ContinuousOn.log ?_ ?_))) ?_
    · apply Continuous.continuousOn
      unfold kronTau
      fun_prop
    · rintro ⟨G, H, x, y⟩ ⟨hG, hH, -⟩
      exact (kronTau_pos (hM i) (whitening_isUnit hG) (whitening_isUnit hH) _
        fun _ _ => Real.exp_pos _).ne'
    · apply Continuous.continuousOn
      unfold kronTau
      fun_prop
    · rintro ⟨G, H, x, y⟩ ⟨hG, hH, -⟩
      exact (kronTau_sum_pos (hM i) (whitening_isUnit hG) (whitening_isUnit hH)).ne'
    · fun_prop
  have hδ : ∃ δ : ℝ, 0 < δ ∧ ∀ q ∈ K, δ ≤ kronF M q.1 q.2.1 q.2.2.1 q.2.2.2 := by
    rcases K.eq_empty_or_nonempty with he | hne
    · exact ⟨1, one_pos, fun q hq => by rw [he] at hq; exact absurd hq (Set.notMem_empty q)⟩
    · obtain ⟨q, hq, hmin⟩ := hKc.exists_isMinOn hne hcont
      exact ⟨_, hpos q hq, fun q' hq' => hmin hq'⟩
  obtain ⟨δ, hδ0, hδ⟩ := hδ
  refine ⟨δ, hδ0, fun G H x y hG hH hx hy hn => ?_⟩
  have hn0 : (0 : ℝ) < ‖(x, y)‖ := by linarith
  have hmem : (G, H, (‖(x, y)‖⁻¹ • x, ‖(x, y)‖⁻¹ • y)) ∈ K := by
    refine ⟨hG, hH, ?_, ?_, ?_⟩
    · rw [mem_sphere_zero_iff_norm, ← Prod.smul_mk, norm_smul, norm_inv, norm_norm,
        inv_mul_cancel₀ hn0.ne']
    · simp [← Finset.mul_sum, hx]
    · simp [← Finset.mul_sum, hy]
  have h1 := hδ _ hmem
  simp only at h1
  have h2 := kronF_ray M hM (whitening_isUnit hG) (whitening_isUnit hH) (‖(x, y)‖⁻¹ • x)
    (‖(x, y)‖⁻¹ • y) hn
  rw [smul_smul, smul_smul, mul_inv_cancel₀ hn0.ne', one_smul, one_smul] at h2
  nlinarith

theorem whitened_between {A A' G : Matrix (Fin a) (Fin a) 𝕜} (hG : IsUnit G) {x : Fin a → ℝ}
    (g1 : G * A * Gᴴ = 1) (g2 : G * A' * Gᴴ = diagonal fun j => ((Real.exp (x j) : ℝ) : 𝕜))
    {R : ℝ} (h : ∀ c, |x c| ≤ R) :
    Loewner (((Real.exp (-R) : ℝ) : 𝕜) • A) A' ∧ Loewner A' (((Real.exp R : ℝ) : 𝕜) • A) := by
  have e : ∀ u : ℝ, G * ((u : 𝕜) • A) * Gᴴ = diagonal fun _ => (u : 𝕜) := fun u => by
    rw [Matrix.mul_smul, Matrix.smul_mul, g1, smul_one_eq_diagonal]
  constructor
  · rw [← Loewner.congr_iff hG, e, g2, loewner_diagonal]
    exact fun j => Real.exp_le_exp.2 (abs_le.1 (h j)).1
  · rw [← Loewner.congr_iff hG, e, g2, loewner_diagonal (l := fun j => Real.exp (x j))
      (m := fun _ => Real.exp R)]
    exact fun j => Real.exp_le_exp.2 (abs_le.1 (h j)).2

theorem simultaneous_exp (A A' : Matrix (Fin a) (Fin a) 𝕜) (hA : A.PosDef) (hA' : A'.PosDef) :
    ∃ (G : Matrix (Fin a) (Fin a) 𝕜) (x : Fin a → ℝ), G * A * Gᴴ = 1 ∧
      G * A' * Gᴴ = diagonal fun j => ((Real.exp (x j) : ℝ) : 𝕜) := by
  obtain ⟨G, l, -, hl, g1, g2⟩ := simultaneous A A' hA hA'
  refine ⟨G, fun j => Real.log (l j), g1, ?_⟩
  rw [g2]
  congr 1
  funext j
  rw [Real.exp_log (hl j)]

theorem sub_mean_sum (x : Fin a → ℝ) : ∑ c, (x c + -((∑ c, x c) / a)) = 0 := by
  rw [Finset.sum_add_distrib]
  simp only [Finset.sum_const, Finset.card_univ, Fintype.card_fin, nsmul_eq_mul]
  rcases Nat.eq_zero_or_pos a with h | h
  · subst h; simp
  · have : (a : ℝ) ≠ 0 := by exact_mod_cast h.ne'
    field_simp
    ring

theorem abs_mean_le (x : Fin a → ℝ) {D : ℝ} (hD : |∑ c, x c| ≤ D) : |(∑ c, x c) / a| ≤ D := by
  rcases Nat.eq_zero_or_pos a with h | h
  · subst h; simpa using hD
  · rw [abs_div, Nat.abs_cast]
    have : (1 : ℝ) ≤ a := by exact_mod_cast h
    exact (div_le_self (abs_nonneg _) this).trans hD

/-- Sublevel sets of the cost with bounded determinants are bounded, away from singular matrices. -/
theorem kron_between (X : Matrix (Fin N) (Fin (a * b)) 𝕜) (h0 : ∀ i, X i ≠ 0)
    {A : Matrix (Fin a) (Fin a) 𝕜} {B : Matrix (Fin b) (Fin b) 𝕜} (hA : A.PosDef) (hB : B.PosDef)
    (hmin : ∀ (A' : Matrix (Fin a) (Fin a) 𝕜) (B' : Matrix (Fin b) (Fin b) 𝕜), A'.PosDef →
      B'.PosDef → tylerCost X (kron Aᵀ B) ≤ tylerCost X (kron A'ᵀ B'))
    (huniq : ∀ (A' : Matrix (Fin a) (Fin a) 𝕜) (B' : Matrix (Fin b) (Fin b) 𝕜), A'.PosDef →
      B'.PosDef → tylerCost X (kron A'ᵀ B') = tylerCost X (kron Aᵀ B) →
      ∃ s t : ℝ, A' = (s : 𝕜) • A ∧ B' = (t : 𝕜) • B) (C D : ℝ) :
    ∃ R : ℝ, ∀ (A' : Matrix (Fin a) (Fin a) 𝕜) (B' : Matrix (Fin b) (Fin b) 𝕜), A'.PosDef →
      B'.PosDef → tylerCost X (kron A'ᵀ B') ≤ C →
      |Real.log (RCLike.re A'.det) - Real.log (RCLike.re A.det)| ≤ D →
      |Real.log (RCLike.re B'.det) - Real.log (RCLike.re B.det)| ≤ D →
      (Loewner (((Real.exp (-R) : ℝ) : 𝕜) • A) A' ∧ Loewner A' (((Real.exp R : ℝ) : 𝕜) • A)) ∧
      (Loewner (((Real.exp (-R) : ℝ) : 𝕜) • B) B' ∧ Loewner B' (((Real.exp R : ℝ) : 𝕜) • B)) := by
  obtain ⟨δ, hδ, hgrow⟩ := kron_linear_growth X h0 hA hB hmin huniq
  refine ⟨max 1 ((C - tylerCost X (kron Aᵀ B)) / δ) + D, fun A' B' hA' hB' hC hDA hDB => ?_⟩
  obtain ⟨G, x, g1, g2⟩ := simultaneous_exp A A' hA hA'
  obtain ⟨H, y, k1, k2⟩ := simultaneous_exp B B' hB hB'
  have hG := whitening_isUnit g1
  have hH := whitening_isUnit k1
  have e := kronF_eq X hA hB hA' hB' hG hH x y g1 k1 g2 k2
  have ld1 := log_det_diff hA hA' hG (fun j => Real.exp_pos (x j)) g1 g2
  have ld2 := log_det_diff hB hB' hH (fun j => Real.exp_pos (y j)) k1 k2
  simp only [Real.log_exp] at ld1 ld2
  have hsx : |∑ c, x c| ≤ D := by rwa [ld1, add_sub_cancel_left] at hDA
  have hsy : |∑ r, y r| ≤ D := by rwa [ld2, add_sub_cancel_left] at hDB
  have hs := kronF_shift (fun i => (unstack (X i) : Matrix (Fin b) (Fin a) 𝕜))
    (fun i => unstack_ne_zero (h0 i)) hG hH x y (-((∑ c, x c) / a)) (-((∑ r, y r) / b))
  set x' : Fin a → ℝ := fun c => x c + -((∑ c, x c) / a) with hx'
  set y' : Fin b → ℝ := fun r => y r + -((∑ r, y r) / b) with hy'
  have hnorm : ‖(x', y')‖ ≤ max 1 ((C - tylerCost X (kron Aᵀ B)) / δ) := by
    rcases le_or_gt 1 ‖(x', y')‖ with h1 | h1
    · have h2 := hgrow G H x' y' g1 k1 (sub_mean_sum x) (sub_mean_sum y) h1
      rw [hs] at h2
      refine le_max_of_le_right ?_
      rw [le_div_iff₀ hδ]
      linarith
    · exact le_max_of_le_left h1.le
  have bx : ∀ c, |x c| ≤ max 1 ((C - tylerCost X (kron Aᵀ B)) / δ) + D := fun c => by
    have h1 : |x' c| ≤ ‖(x', y')‖ := by
      rw [← Real.norm_eq_abs]
      exact (norm_le_pi_norm x' c).trans (norm_fst_le (x', y'))
    have h2 : x c = x' c + (∑ c, x c) / a := by simp only [hx']; ring
    rw [h2]
    exact (abs_add_le _ _).trans (add_le_add (h1.trans hnorm) (abs_mean_le x hsx))
  have bY : ∀ c, |y c| ≤ max 1 ((C - tylerCost X (kron Aᵀ B)) / δ) + D := fun c => by
    have h1 : |y' c| ≤ ‖(x', y')‖ := by
      rw [← Real.norm_eq_abs]
      exact (norm_le_pi_norm y' c).trans (norm_snd_le (x', y'))
    have h2 : y c = y' c + (∑ c, y c) / b := by simp only [hy']; ring
    rw [h2]
    exact (abs_add_le _ _).trans (add_le_add (h1.trans hnorm) (abs_mean_le y hsy))
  exact ⟨whitened_between hG g1 g2 bx, whitened_between hH k1 k2 bY⟩

/-! ## Determinants decrease -/

/-- One half-step lowers the determinant and the sum of the logarithms. -/
theorem geo_monotone {n : ℕ} {A A' : Matrix (Fin n) (Fin n) 𝕜} (hA : A.PosDef) (hA' : A'.PosDef)
    (C : Fin N → Matrix (Fin n) (Fin n) 𝕜) (d e : Fin N → ℝ)
    (hd : ∀ i, trace (A⁻¹ * C i) = (d i : 𝕜)) (hd0 : ∀ i, 0 < d i)
    (he : ∀ i, trace (A'⁻¹ * C i) = (e i : 𝕜)) (he0 : ∀ i, 0 < e i) (hN : 0 < N)
    (hS : A' * A⁻¹ * A' = ((n : 𝕜) / N) • ∑ i, (trace (A⁻¹ * C i))⁻¹ • C i) :
    n * ∑ i, Real.log (e i) ≤ n * ∑ i, Real.log (d i) ∧
      Real.log (RCLike.re A'.det) ≤ Real.log (RCLike.re A.det) := by
  have hN' : (0 : ℝ) < N := by exact_mod_cast hN
  set T := RCLike.re (trace (A⁻¹ * A')) with hT
  have hu := (isUnit_iff_isUnit_det A').1 hA'.isUnit
  have tr : ∀ P : Matrix (Fin n) (Fin n) 𝕜, ∀ f : Fin N → ℝ, (∀ i, trace (P * C i) = (f i : 𝕜)) →
      RCLike.re (trace (P * (A' * A⁻¹ * A'))) = n / N * ∑ i, f i / d i := fun P f hf => by
    rw [hS, Matrix.mul_smul, trace_smul, Matrix.mul_sum, trace_sum]
    have : ∀ i, trace (P * ((trace (A⁻¹ * C i))⁻¹ • C i)) = ((f i / d i : ℝ) : 𝕜) := fun i => by
      rw [Matrix.mul_smul, trace_smul, hd, hf, smul_eq_mul]
      push_cast
      rw [div_eq_inv_mul]
    simp only [this, smul_eq_mul]
    rw [← RCLike.ofReal_sum, show ((n : 𝕜) / N) = ((n / N : ℝ) : 𝕜) by push_cast; rfl,
      ← RCLike.ofReal_mul, RCLike.ofReal_re]
  have h1 := tr A⁻¹ d hd
  have h2 := tr A'⁻¹ e he
  have h3 : RCLike.re (trace (A'⁻¹ * (A' * A⁻¹ * A'))) = T := by
    rw [Matrix.mul_assoc A', ← Matrix.mul_assoc A'⁻¹, nonsing_inv_mul _ hu, Matrix.one_mul]
  have h4 : ∑ i, d i / d i = N := by
    rw [Finset.sum_congr rfl fun i _ => div_self (hd0 i).ne']; simp
  rw [h3] at h2
  rw [h4, div_mul_cancel₀ _ hN'.ne'] at h1
  have h5 := trace_sq_ge hA hA'
  rw [h1, ← hT] at h5
  have h6 : (n : ℝ) * ∑ i, e i / d i = N * T := by rw [h2]; field_simp
  have h7 : ∑ i, Real.log (e i) ≤ ∑ i, (Real.log (d i) + (e i - d i) / d i) :=
    Finset.sum_le_sum fun i _ => log_tangent (hd0 i) (he0 i)
  have h8 : ∑ i, (Real.log (d i) + (e i - d i) / d i) =
      ∑ i, Real.log (d i) + ∑ i, e i / d i - N := by
    rw [Finset.sum_add_distrib]
    simp only [sub_div, Finset.sum_sub_distrib, h4]
    ring
  have h9 := log_det_le A A' hA hA'
  rw [← hT] at h9
  have hn : (0 : ℝ) ≤ n := Nat.cast_nonneg n
  have m1 := mul_le_mul_of_nonneg_left (h7.trans_eq h8) hn
  constructor
  · nlinarith
  · linarith

/-- Along a step both determinants and the sum of the logarithms decrease. -/
theorem kron_monotone (X : Matrix (Fin N) (Fin (a * b)) 𝕜) (hN : 0 < N) (h0 : ∀ i, X i ≠ 0)
    {A A' : Matrix (Fin a) (Fin a) 𝕜} {B B' : Matrix (Fin b) (Fin b) 𝕜} (hA : A.PosDef)
    (hB : B.PosDef) (h : KronUpdate (fun i => unstack (X i)) A A' B B') :
    Real.log (RCLike.re A'.det) ≤ Real.log (RCLike.re A.det) ∧
    Real.log (RCLike.re B'.det) ≤ Real.log (RCLike.re B.det) ∧
    tylerCost X (kron A'ᵀ B') -
        N * (b * Real.log (RCLike.re A'.det) + a * Real.log (RCLike.re B'.det)) ≤
      tylerCost X (kron Aᵀ B) -
        N * (b * Real.log (RCLike.re A.det) + a * Real.log (RCLike.re B.det)) := by
  have hne : ∀ i, unstack (X i) ≠ 0 := fun i => unstack_ne_zero (h0 i)
  choose d d1 d2 d3 using fun i => trace_den hA hB (unstack (X i))
  choose e e1 e2 e3 using fun i => trace_den h.posA hB (unstack (X i))
  choose f f1 f2 f3 using fun i => trace_den h.posA h.posB (unstack (X i))
  rw [tylerCost_kron X hA hB d d1, tylerCost_kron X h.posA h.posB f f1]
  obtain ⟨m1, m2⟩ := geo_monotone hA h.posA (fun i => (unstack (X i))ᴴ * B⁻¹ * unstack (X i)) d e d1
    (fun i => d3 i (hne i)) e1 (fun i => e3 i (hne i)) hN h.eqA
  obtain ⟨m3, m4⟩ := geo_monotone hB h.posB (fun i => unstack (X i) * A'⁻¹ * (unstack (X i))ᴴ) e f
    (fun i => by rw [← trace_swap, e1]) (fun i => e3 i (hne i))
    (fun i => by rw [← trace_swap, f1]) (fun i => f3 i (hne i)) hN
    (by rw [h.eqB]; simp only [scatterB, trace_swap])
  refine ⟨m2, m4, ?_⟩
  have ha : (0 : ℝ) ≤ a := Nat.cast_nonneg a
  have hb : (0 : ℝ) ≤ b := Nat.cast_nonneg b
  have k1 := mul_le_mul_of_nonneg_left m1 hb
  have k2 := mul_le_mul_of_nonneg_left m3 ha
  nlinarith

theorem kronUpdate_exists {M : Fin N → Matrix (Fin b) (Fin a) 𝕜} (hM : KronData M) (ha : 0 < a)
    (hb : 0 < b) {A : Matrix (Fin a) (Fin a) 𝕜} {B : Matrix (Fin b) (Fin b) 𝕜} (hA : A.PosDef)
    (hB : B.PosDef) : ∃ A' B', KronUpdate M A A' B B' := by
  classical
  obtain ⟨A', B', -, u⟩ := kronStep_ok (fun n S => if h : S.PosDef then
    .ok (exists_pd_root h).choose else .error .valueError) (fun n S hS =>
      ⟨(exists_pd_root hS).choose, by simp only [dif_pos hS], (exists_pd_root hS).choose_spec⟩)
    hM ha hb hA hB
  exact ⟨A', B', u⟩

/-- A pair of equal cost with its successor is stationary. -/
theorem kron_stationary (X : Matrix (Fin N) (Fin (a * b)) 𝕜)
    (hX : KronData fun i => (unstack (X i) : Matrix (Fin b) (Fin a) 𝕜)) (ha : 0 < a) (hb : 0 < b)
    {A A' : Matrix (Fin a) (Fin a) 𝕜} {B B' : Matrix (Fin b) (Fin b) 𝕜} (hA : A.PosDef)
    (hB : B.PosDef) (u : KronUpdate (fun i => unstack (X i)) A A' B B')
    (h : tylerCost X (kron Aᵀ B) ≤ tylerCost X (kron A'ᵀ B')) :
    scatterA (fun i => unstack (X i)) A B = A ∧ scatterB (fun i => unstack (X i)) A B = B := by
  have hr : ∀ i, X i ≠ 0 := fun i h => hX.nonzero i (by ext r c; simp [unstack, h])
  obtain ⟨e1, e2⟩ := kron_mm_eq X (kronData_pos hX ha) hr ha hb hA hB u h
  have h1 := u.eqA
  have h2 := u.eqB
  rw [e1, mul_nonsing_inv _ ((isUnit_iff_isUnit_det A).1 hA.isUnit), Matrix.one_mul] at h1
  rw [e2, e1, mul_nonsing_inv _ ((isUnit_iff_isUnit_det B).1 hB.isUnit), Matrix.one_mul] at h2
  exact ⟨h1.symm, h2.symm⟩

/-! ## Continuity -/

theorem tendsto_map₂ {U V W : Type*} [TopologicalSpace U] [TopologicalSpace V] [TopologicalSpace W]
    (F : U → V → W) (hF : Continuous fun q : U × V => F q.1 q.2) {u : ℕ → U} {v : ℕ → V} {x : U}
    {y : V} (hu : Tendsto u atTop (𝓝 x)) (hv : Tendsto v atTop (𝓝 y)) :
    Tendsto (fun k => F (u k) (v k)) atTop (𝓝 (F x y)) :=
  (hF.tendsto (x, y)).comp (hu.prodMk_nhds hv)

theorem tendsto_den {P : ℕ → Matrix (Fin a) (Fin a) 𝕜} {Q : ℕ → Matrix (Fin b) (Fin b) 𝕜}
    {A : Matrix (Fin a) (Fin a) 𝕜} {B : Matrix (Fin b) (Fin b) 𝕜} (hP : Tendsto P atTop (𝓝 A))
    (hQ : Tendsto Q atTop (𝓝 B)) (hA : A.PosDef) (hB : B.PosDef) (M : Matrix (Fin b) (Fin a) 𝕜) :
    Tendsto (fun k => trace ((P k)⁻¹ * (Mᴴ * (Q k)⁻¹ * M))) atTop
      (𝓝 (trace (A⁻¹ * (Mᴴ * B⁻¹ * M)))) := by
  exact tendsto_map₂ (fun (S : Matrix (Fin a) (Fin a) 𝕜) (T : Matrix (Fin b) (Fin b) 𝕜) =>
    trace (S * (Mᴴ * T * M))) (by fun_prop) (tendsto_inv hP hA.isUnit) (tendsto_inv hQ hB.isUnit)

theorem den_ne_zero {A : Matrix (Fin a) (Fin a) 𝕜} {B : Matrix (Fin b) (Fin b) 𝕜}
    (hA : A.PosDef) (hB : B.PosDef) {M : Matrix (Fin b) (Fin a) 𝕜} (hM : M ≠ 0) :
    trace (A⁻¹ * (Mᴴ * B⁻¹ * M)) ≠ 0 := by
  obtain ⟨r, h1, -, h3⟩ := trace_den hA hB M
  rw [h1, Ne, RCLike.ofReal_eq_zero]
  exact (h3 hM).ne'

theorem tendsto_scatterA {M : Fin N → Matrix (Fin b) (Fin a) 𝕜} (hM : ∀ i, M i ≠ 0)
    {P : ℕ → Matrix (Fin a) (Fin a) 𝕜} {Q : ℕ → Matrix (Fin b) (Fin b) 𝕜}
    {A : Matrix (Fin a) (Fin a) 𝕜} {B : Matrix (Fin b) (Fin b) 𝕜} (hP : Tendsto P atTop (𝓝 A))
    (hQ : Tendsto Q atTop (𝓝 B)) (hA : A.PosDef) (hB : B.PosDef) :
    Tendsto (fun k => scatterA M (P k) (Q k)) atTop (𝓝 (scatterA M A B)) := by
  unfold scatterA
  refine Tendsto.const_smul (tendsto_finsetSum _ fun i _ => Tendsto.smul
    ((tendsto_den hP hQ hA hB (M i)).inv₀ (den_ne_zero hA hB (hM i))) ?_) _
  have hc : Continuous fun q : Matrix (Fin b) (Fin b) 𝕜 => (M i)ᴴ * q * M i := by fun_prop
  exact (hc.tendsto B⁻¹).comp (tendsto_inv hQ hB.isUnit)

theorem tendsto_scatterB {M : Fin N → Matrix (Fin b) (Fin a) 𝕜} (hM : ∀ i, M i ≠ 0)
    {P : ℕ → Matrix (Fin a) (Fin a) 𝕜} {Q : ℕ → Matrix (Fin b) (Fin b) 𝕜}
    {A : Matrix (Fin a) (Fin a) 𝕜} {B : Matrix (Fin b) (Fin b) 𝕜} (hP : Tendsto P atTop (𝓝 A))
    (hQ : Tendsto Q atTop (𝓝 B)) (hA : A.PosDef) (hB : B.PosDef) :
    Tendsto (fun k => scatterB M (P k) (Q k)) atTop (𝓝 (scatterB M A B)) := by
  unfold scatterB
  refine Tendsto.const_smul (tendsto_finsetSum _ fun i _ => Tendsto.smul
    ((tendsto_den hP hQ hA hB (M i)).inv₀ (den_ne_zero hA hB (hM i))) ?_) _
  have hc : Continuous fun q : Matrix (Fin a) (Fin a) 𝕜 => M i * q * (M i)ᴴ := by fun_prop
  exact (hc.tendsto A⁻¹).comp (tendsto_inv hP hA.isUnit)

theorem tendsto_kronCost (X : Matrix (Fin N) (Fin (a * b)) 𝕜) (h0 : ∀ i, X i ≠ 0)
    {P : ℕ → Matrix (Fin a) (Fin a) 𝕜} {Q : ℕ → Matrix (Fin b) (Fin b) 𝕜}
    {A : Matrix (Fin a) (Fin a) 𝕜} {B : Matrix (Fin b) (Fin b) 𝕜} (hP : Tendsto P atTop (𝓝 A))
    (hQ : Tendsto Q atTop (𝓝 B)) (hA : A.PosDef) (hB : B.PosDef) :
    Tendsto (fun k => tylerCost X (kron (P k)ᵀ (Q k))) atTop (𝓝 (tylerCost X (kron Aᵀ B))) := by
  simp only [tylerCost_eq]
  have hc : Continuous fun q : Matrix (Fin a) (Fin a) 𝕜 × Matrix (Fin b) (Fin b) 𝕜 =>
      kron q.1ᵀ q.2 := by
    refine continuous_matrix fun i j => ?_
    simp only [kron, submatrix_apply, kroneckerMap_apply, transpose_apply]
    fun_prop
  refine tendsto_studentCost X (tendsto_map₂ (fun (S : Matrix (Fin a) (Fin a) 𝕜)
    (T : Matrix (Fin b) (Fin b) 𝕜) => kron Sᵀ T) hc hP hQ) (kron_posDef hA.transpose hB) fun i => ?_
  rw [zero_add]
  exact qf_pos (kron_posDef hA.transpose hB) (h0 i)

theorem tendsto_logdet {P : ℕ → Matrix (Fin a) (Fin a) 𝕜} {A : Matrix (Fin a) (Fin a) 𝕜}
    (hP : Tendsto P atTop (𝓝 A)) (hA : A.PosDef) :
    Tendsto (fun k => Real.log (RCLike.re (P k).det)) atTop (𝓝 (Real.log (RCLike.re A.det))) := by
  refine Tendsto.log ?_ (posDef_det_pos hA).1.ne'
  exact (RCLike.continuous_re.tendsto _).comp (((continuous_id.matrix_det).tendsto A).comp hP)

theorem logdet_smul {A : Matrix (Fin a) (Fin a) 𝕜} (hA : A.PosDef) {s : ℝ} (hs : 0 < s) :
    Real.log (RCLike.re ((s : 𝕜) • A).det) = a * Real.log s + Real.log (RCLike.re A.det) := by
  have h1 := posDef_det_pos hA
  rw [det_smul, ← h1.2, Fintype.card_fin, ← RCLike.ofReal_pow, ← RCLike.ofReal_mul,
    RCLike.ofReal_re, RCLike.ofReal_re, Real.log_mul (pow_pos hs _).ne' h1.1.ne', Real.log_pow]

theorem smul_posDef_pos {A : Matrix (Fin a) (Fin a) 𝕜} (ha : 0 < a) (hA : A.PosDef) {s : ℝ}
    (h : ((s : 𝕜) • A).PosDef) : 0 < s := by
  have h1 : (0 : 𝕜) < ((s : 𝕜) • A) ⟨0, ha⟩ ⟨0, ha⟩ := h.diag_pos
  have h2 : (0 : 𝕜) < A ⟨0, ha⟩ ⟨0, ha⟩ := hA.diag_pos
  rw [Matrix.smul_apply, smul_eq_mul] at h1
  have := (pos_iff_pos_of_mul_pos h1).2 h2
  exact_mod_cast this

/-- Convergence of the iteration from every starting pair to multiples of a stationary pair that is
unique up to scale. -/
theorem kron_tendsto (X : Matrix (Fin N) (Fin (a * b)) 𝕜)
    (hX : KronData fun i => (unstack (X i) : Matrix (Fin b) (Fin a) 𝕜)) (ha : 0 < a) (hb : 0 < b)
    {A : Matrix (Fin a) (Fin a) 𝕜} {B : Matrix (Fin b) (Fin b) 𝕜} (hA : A.PosDef) (hB : B.PosDef)
    (hfA : scatterA (fun i => unstack (X i)) A B = A)
    (hfB : scatterB (fun i => unstack (X i)) A B = B)
    (huniq : ∀ (A' : Matrix (Fin a) (Fin a) 𝕜) (B' : Matrix (Fin b) (Fin b) 𝕜), A'.PosDef →
      B'.PosDef → scatterA (fun i => unstack (X i)) A' B' = A' →
      scatterB (fun i => unstack (X i)) A' B' = B' →
      ∃ s t : ℝ, A' = (s : 𝕜) • A ∧ B' = (t : 𝕜) • B)
    {P : ℕ → Matrix (Fin a) (Fin a) 𝕜} {Q : ℕ → Matrix (Fin b) (Fin b) 𝕜} (hP0 : (P 0).PosDef)
    (hQ0 : (Q 0).PosDef)
    (hstep : ∀ k, KronUpdate (fun i => unstack (X i)) (P k) (P (k + 1)) (Q k) (Q (k + 1))) :
    ∃ s t : ℝ, 0 < s ∧ 0 < t ∧ Tendsto P atTop (𝓝 ((s : 𝕜) • A)) ∧
      Tendsto Q atTop (𝓝 ((t : 𝕜) • B)) := by
  have hN := kronData_pos hX ha
  have hr : ∀ i, X i ≠ 0 := fun i h => hX.nonzero i (by ext r c; simp [unstack, h])
  have ha' : (0 : ℝ) < a := by exact_mod_cast ha
  have hb' : (0 : ℝ) < b := by exact_mod_cast hb
  have hN' : (0 : ℝ) < N := by exact_mod_cast hN
  have hP : ∀ k, (P k).PosDef := fun k => by cases k; exacts [hP0, (hstep _).posA]
  have hQ : ∀ k, (Q k).PosDef := fun k => by cases k; exacts [hQ0, (hstep _).posB]
  have hmin : ∀ (A' : Matrix (Fin a) (Fin a) 𝕜) (B' : Matrix (Fin b) (Fin b) 𝕜), A'.PosDef →
      B'.PosDef → tylerCost X (kron Aᵀ B) ≤ tylerCost X (kron A'ᵀ B') := fun A' B' hA' hB' =>
    kron_fixed_minimises X hN hr hA hB hfA hfB hA' hB'
  have huniq' : ∀ (A' : Matrix (Fin a) (Fin a) 𝕜) (B' : Matrix (Fin b) (Fin b) 𝕜), A'.PosDef →
      B'.PosDef → tylerCost X (kron A'ᵀ B') = tylerCost X (kron Aᵀ B) →
      ∃ s t : ℝ, A' = (s : 𝕜) • A ∧ B' = (t : 𝕜) • B := fun A' B' hA' hB' he => by
    obtain ⟨A'', B'', u⟩ := kronUpdate_exists hX ha hb hA' hB'
    obtain ⟨h1, h2⟩ := kron_stationary X hX ha hb hA' hB' u (by
      rw [he]; exact hmin A'' B'' u.posA u.posB)
    exact huniq A' B' hA' hB' h1 h2
  set α : ℕ → ℝ := fun k => Real.log (RCLike.re (P k).det) with hα
  set β : ℕ → ℝ := fun k => Real.log (RCLike.re (Q k).det) with hβ
  set L : ℕ → ℝ := fun k => tylerCost X (kron (P k)ᵀ (Q k)) with hL
  have mono := fun k => kron_monotone X hN hr (hP k) (hQ k) (hstep k)
  have αanti : Antitone α := antitone_nat_of_succ_le fun k => (mono k).1
  have βanti : Antitone β := antitone_nat_of_succ_le fun k => (mono k).2.1
  have Santi : Antitone fun k => L k - N * (b * α k + a * β k) :=
    antitone_nat_of_succ_le fun k => (mono k).2.2
  have Lanti : Antitone L := antitone_nat_of_succ_le fun k => kron_mm X hN hr (hP k) (hQ k) (hstep k)
  have Llow : ∀ k, tylerCost X (kron Aᵀ B) ≤ L k := fun k => hmin _ _ (hP k) (hQ k)
  -- lower bounds for the determinants
  obtain ⟨lo, hlo⟩ : ∃ lo : ℝ, ∀ k, lo ≤ α k ∧ lo ≤ β k := by
    set c := tylerCost X (kron Aᵀ B) - (L 0 - N * (b * α 0 + a * β 0)) with hc
    have key : ∀ k, c ≤ N * (b * α k + a * β k) := fun k => by
      have h1 := Santi (Nat.zero_le k)
      have h2 := Llow k
      simp only at h1
      linarith
    refine ⟨min ((c / N - a * β 0) / b) ((c / N - b * α 0) / a), fun k => ⟨?_, ?_⟩⟩
    · refine (min_le_left _ _).trans ?_
      rw [div_le_iff₀ hb', sub_le_iff_le_add, div_le_iff₀ hN']
      have h1 := key k
      have h2 := mul_le_mul_of_nonneg_left (βanti (Nat.zero_le k)) (mul_pos hN' ha').le
      nlinarith
    · refine (min_le_right _ _).trans ?_
      rw [div_le_iff₀ ha', sub_le_iff_le_add, div_le_iff₀ hN']
      have h1 := key k
      have h2 := mul_le_mul_of_nonneg_left (αanti (Nat.zero_le k)) (mul_pos hN' hb').le
      nlinarith
  have hαlim := tendsto_atTop_ciInf αanti ⟨lo, by rintro _ ⟨k, rfl⟩; exact (hlo k).1⟩
  have hβlim := tendsto_atTop_ciInf βanti ⟨lo, by rintro _ ⟨k, rfl⟩; exact (hlo k).2⟩
  have hLlim := tendsto_atTop_ciInf Lanti ⟨_, by rintro _ ⟨k, rfl⟩; exact Llow k⟩
  set αi := ⨅ k, α k
  set βi := ⨅ k, β k
  set Li := ⨅ k, L k
  -- the iterates stay in a compact set
  set α' := Real.log (RCLike.re A.det) with hα'
  set β' := Real.log (RCLike.re B.det) with hβ'
  obtain ⟨R, hR⟩ := kron_between X hr hA hB hmin huniq' (L 0)
    (|α 0 - α'| + |β 0 - β'| + |lo - α'| + |lo - β'|)
  have hbd := fun k => hR (P k) (Q k) (hP k) (hQ k) (Lanti (Nat.zero_le k))
    (by
      have h1 := αanti (Nat.zero_le k)
      have h2 := (hlo k).1
      have := abs_nonneg (β 0 - β')
      have := abs_nonneg (lo - β')
      refine abs_le.2 ⟨?_, ?_⟩
      · have := neg_abs_le (lo - α')
        have := abs_nonneg (α 0 - α')
        simp only [hα] at *
        linarith
      · have := le_abs_self (α 0 - α')
        have := abs_nonneg (lo - α')
        simp only [hα] at *
        linarith)
    (by
      have h1 := βanti (Nat.zero_le k)
      have h2 := (hlo k).2
      have := abs_nonneg (α 0 - α')
      have := abs_nonneg (lo - α')
      refine abs_le.2 ⟨?_, ?_⟩
      · have := neg_abs_le (lo - β')
        have := abs_nonneg (β 0 - β')
        simp only [hβ] at *
        linarith
      · have := le_abs_self (β 0 - β')
        have := abs_nonneg (lo - β')
        simp only [hβ] at *
        linarith)
  have fP : ∀ k, frob (P k) ≤ RCLike.re (((Real.exp R : ℝ) : 𝕜) • A).trace := fun k =>
    (frob_le_trace (hP k).posSemidef).trans (hbd k).1.2.trace_le
  have fQ : ∀ k, frob (Q k) ≤ RCLike.re (((Real.exp R : ℝ) : 𝕜) • B).trace := fun k =>
    (frob_le_trace (hQ k).posSemidef).trans (hbd k).2.2.trace_le
  have smA : (((Real.exp (-R) : ℝ) : 𝕜) • A).PosDef := hA.smul (by exact_mod_cast Real.exp_pos _)
  have smB : (((Real.exp (-R) : ℝ) : 𝕜) • B).PosDef := hB.smul (by exact_mod_cast Real.exp_pos _)
  refine ⟨Real.exp ((αi - α') / a), Real.exp ((βi - β') / b), Real.exp_pos _, Real.exp_pos _, ?_⟩
  have main : Tendsto (fun k => (P k, Q k)) atTop
      (𝓝 (((Real.exp ((αi - α') / a) : ℝ) : 𝕜) • A, ((Real.exp ((βi - β') / b) : ℝ) : 𝕜) • B)) := by
    refine tendsto_of_subseq_tendsto fun ns hns => ?_
    obtain ⟨A1, f1, hf1, t1⟩ := bounded_subseq (T := fun k => P (ns k)) fun k => fP (ns k)
    obtain ⟨B1, f2, hf2, t2⟩ := bounded_subseq (T := fun k => Q (ns (f1 k))) fun k => fQ _
    obtain ⟨A2, f3, hf3, t3⟩ := bounded_subseq (T := fun k => P (ns (f1 (f2 k)) + 1)) fun k => fP _
    obtain ⟨B2, f4, hf4, t4⟩ := bounded_subseq (T := fun k => Q (ns (f1 (f2 (f3 k))) + 1))
      fun k => fQ _
    set m : ℕ → ℕ := fun k => f1 (f2 (f3 (f4 k))) with hm
    have hmt : Tendsto m atTop atTop := (hf1.comp (hf2.comp (hf3.comp hf4))).tendsto_atTop
    have hnm : Tendsto (fun k => ns (m k)) atTop atTop := hns.comp hmt
    have s1 : Tendsto (fun k => P (ns (m k))) atTop (𝓝 A1) :=
      t1.comp (hf2.comp (hf3.comp hf4)).tendsto_atTop
    have s2 : Tendsto (fun k => Q (ns (m k))) atTop (𝓝 B1) := t2.comp (hf3.comp hf4).tendsto_atTop
    have s3 : Tendsto (fun k => P (ns (m k) + 1)) atTop (𝓝 A2) := t3.comp hf4.tendsto_atTop
    have s4 : Tendsto (fun k => Q (ns (m k) + 1)) atTop (𝓝 B2) := t4
    have hA1 : A1.PosDef := (Loewner.of_tendsto tendsto_const_nhds s1 fun k => (hbd _).1.1).posDef smA
    have hA2 : A2.PosDef := (Loewner.of_tendsto tendsto_const_nhds s3 fun k => (hbd _).1.1).posDef smA
    have hB1 : B1.PosDef := (Loewner.of_tendsto tendsto_const_nhds s2 fun k => (hbd _).2.1).posDef smB
    have hB2 : B2.PosDef := (Loewner.of_tendsto tendsto_const_nhds s4 fun k => (hbd _).2.1).posDef smB
    have eA : A2 * A1⁻¹ * A2 = scatterA (fun i => unstack (X i)) A1 B1 := by
      refine tendsto_nhds_unique ?_ (tendsto_scatterA hX.nonzero s1 s2 hA1 hB1)
      refine Tendsto.congr (fun k => (hstep (ns (m k))).eqA) ?_
      exact tendsto_map₂ (fun S T : Matrix (Fin a) (Fin a) 𝕜 => S * T * S) (by fun_prop)
        s3 (tendsto_inv s1 hA1.isUnit)
    have eB : B2 * B1⁻¹ * B2 = scatterB (fun i => unstack (X i)) A2 B1 := by
      refine tendsto_nhds_unique ?_ (tendsto_scatterB hX.nonzero s3 s2 hA2 hB1)
      refine Tendsto.congr (fun k => (hstep (ns (m k))).eqB) ?_
      exact tendsto_map₂ (fun S T : Matrix (Fin b) (Fin b) 𝕜 => S * T * S) (by fun_prop)
        s4 (tendsto_inv s2 hB1.isUnit)
    obtain ⟨A', B', u⟩ := kronUpdate_exists hX ha hb hA1 hB1
    obtain rfl := u.uniqA A2 hA2 eA
    obtain rfl := u.uniqB B2 hB2 eB
    have c1 : tylerCost X (kron A1ᵀ B1) = Li :=
      tendsto_nhds_unique (tendsto_kronCost X hr s1 s2 hA1 hB1) (hLlim.comp hnm)
    have c2 : tylerCost X (kron A2ᵀ B2) = Li :=
      tendsto_nhds_unique (tendsto_kronCost X hr s3 s4 hA2 hB2)
        (hLlim.comp ((tendsto_add_atTop_nat 1).comp hnm))
    obtain ⟨k1, k2⟩ := kron_stationary X hX ha hb hA1 hB1 u (by rw [c1, c2])
    obtain ⟨s, t, e1, e2⟩ := huniq A1 B1 hA1 hB1 k1 k2
    have hs : 0 < s := smul_posDef_pos ha hA (e1 ▸ hA1)
    have ht : 0 < t := smul_posDef_pos hb hB (e2 ▸ hB1)
    have d1 : Real.log (RCLike.re A1.det) = αi :=
      tendsto_nhds_unique (tendsto_logdet s1 hA1) (hαlim.comp hnm)
    have d2 : Real.log (RCLike.re B1.det) = βi :=
      tendsto_nhds_unique (tendsto_logdet s2 hB1) (hβlim.comp hnm)
    have e3 : Real.exp ((αi - α') / a) = s := by
      rw [← d1, e1, logdet_smul hA hs, add_sub_cancel_right, mul_div_cancel_left₀ _ ha'.ne',
        Real.exp_log hs]
    have e4 : Real.exp ((βi - β') / b) = t := by
      rw [← d2, e2, logdet_smul hB ht, add_sub_cancel_right, mul_div_cancel_left₀ _ hb'.ne',
        Real.exp_log ht]
    refine ⟨m, ?_⟩
    rw [e3, e4, ← e1, ← e2]
    exact s1.prodMk_nhds s2
  exact ⟨(continuous_fst.tendsto _).comp main, (continuous_snd.tendsto _).comp main⟩

/-! ## Uniqueness up to scale -/

theorem jensen_prod_eq (t : Fin a → Fin b → ℝ) (l : Fin a → ℝ) (m : Fin b → ℝ)
    (ht : ∀ c r, 0 ≤ t c r) (hl : ∀ j, 0 < l j) (hm : ∀ j, 0 < m j)
    (hpos : 0 < ∑ c, ∑ r, t c r)
    (heq : Real.log (∑ c, ∑ r, t c r / (l c * m r)) ≤ Real.log (∑ c, ∑ r, t c r) -
      (∑ c, ∑ r, t c r * (Real.log (l c) + Real.log (m r))) / (∑ c, ∑ r, t c r)) :
    ∃ ρ : ℝ, 0 < ρ ∧ ∀ c r, 0 < t c r → l c * m r = ρ := by
  have e : ∀ f : Fin a → Fin b → ℝ, ∑ j : Fin (a * b), f (finProdFinEquiv.symm j).1
      (finProdFinEquiv.symm j).2 = ∑ c, ∑ r, f c r := fun f => by
    rw [← Equiv.sum_comp finProdFinEquiv, Fintype.sum_prod_type]
    simp only [Equiv.symm_apply_apply]
  have h2 : ∀ c r, Real.log (l c * m r) = Real.log (l c) + Real.log (m r) := fun c r =>
    Real.log_mul (hl c).ne' (hm r).ne'
  obtain ⟨ρ, h3, h4, -⟩ := jensen_log_eq (p := a * b) (nu := 0) le_rfl
    (fun j => t (finProdFinEquiv.symm j).1 (finProdFinEquiv.symm j).2)
    (fun j => l (finProdFinEquiv.symm j).1 * m (finProdFinEquiv.symm j).2)
    (fun j => ht _ _) (fun j => mul_pos (hl _) (hm _)) (by rw [e, zero_add]; exact hpos)
    (by
      rw [zero_add, zero_add, e t, e fun c r => t c r / (l c * m r),
        e fun c r => t c r * Real.log (l c * m r)]
      simpa only [h2] using heq)
  refine ⟨ρ, h3, fun c r hcr => ?_⟩
  have := h4 (finProdFinEquiv (c, r))
  simp only [Equiv.symm_apply_apply] at this
  exact this hcr

theorem scalar_of_conj {G A A' : Matrix (Fin a) (Fin a) 𝕜} (hG : IsUnit G) {l : Fin a → ℝ}
    (hl : ∀ j, 0 < l j) (g1 : G * A * Gᴴ = 1) (g2 : G * A' * Gᴴ = diagonal fun j => (l j : 𝕜))
    {s : 𝕜} (h : ∀ c, ((Real.log (l c) : ℝ) : 𝕜) = s) : ∃ u : ℝ, A' = (u : 𝕜) • A := by
  have h1 : ∀ c d, l c = l d := fun c d =>
    Real.log_injOn_pos (hl c) (hl d) (RCLike.ofReal_injective ((h c).trans (h d).symm))
  have hGu := (isUnit_iff_isUnit_det G).1 hG
  have hGH : IsUnit Gᴴ.det := by rw [det_conjTranspose]; exact hGu.star
  obtain ⟨u, hu⟩ : ∃ u : ℝ, ∀ c, l c = u := by
    rcases isEmpty_or_nonempty (Fin a) with _ | ⟨⟨c⟩⟩
    · exact ⟨0, fun c => isEmptyElim c⟩
    · exact ⟨l c, fun d => h1 d c⟩
  refine ⟨u, ?_⟩
  have e : G * A' * Gᴴ = G * ((u : 𝕜) • A) * Gᴴ := by
    rw [g2, Matrix.mul_smul, Matrix.smul_mul, g1, smul_one_eq_diagonal]
    congr 1
    funext j
    rw [hu]
  have e2 := congrArg (fun S => G⁻¹ * S * Gᴴ⁻¹) e
  rw [Matrix.mul_assoc G A', Matrix.mul_assoc G _ Gᴴ, nonsing_inv_mul_cancel_left _ _ hGu,
    nonsing_inv_mul_cancel_left _ _ hGu, mul_nonsing_inv_cancel_right _ _ hGH,
    mul_nonsing_inv_cancel_right _ _ hGH] at e2
  exact e2

theorem kron_unique (X : Matrix (Fin N) (Fin (a * b)) 𝕜)
    (hX : KronData fun i => (unstack (X i) : Matrix (Fin b) (Fin a) 𝕜)) (ha : 0 < a) (hb : 0 < b)
    (hI : KronIrreducible fun i => (unstack (X i) : Matrix (Fin b) (Fin a) 𝕜))
    {A A' : Matrix (Fin a) (Fin a) 𝕜} {B B' : Matrix (Fin b) (Fin b) 𝕜} (hA : A.PosDef)
    (hB : B.PosDef) (hfA : scatterA (fun i => unstack (X i)) A B = A)
    (hfB : scatterB (fun i => unstack (X i)) A B = B) (hA' : A'.PosDef) (hB' : B'.PosDef)
    (hle : tylerCost X (kron A'ᵀ B') ≤ tylerCost X (kron Aᵀ B)) :
    ∃ s t : ℝ, A' = (s : 𝕜) • A ∧ B' = (t : 𝕜) • B := by
  have hN := kronData_pos hX ha
  have hr : ∀ i, X i ≠ 0 := fun i h => hX.nonzero i (by ext r c; simp [unstack, h])
  obtain ⟨G, l, hG, hl, g1, g2⟩ := simultaneous A A' hA hA'
  obtain ⟨H, m, hH, hm, k1, k2⟩ := simultaneous B B' hB hB'
  obtain ⟨h1, h2⟩ := kron_gap X hN hr hA hB hfA hfB hA' hB' hG hl g1 g2 hH hm k1 k2 _ rfl
  have hsl := fun i => sub_nonneg.2 (jensen_prod _ l m
    (fun c r => sq_nonneg ‖(H * unstack (X i) * Gᴴ) r c‖) hl hm (h1 i))
  have hab : (0 : ℝ) < a * b := by exact_mod_cast Nat.mul_pos ha hb
  have hz := (Finset.sum_eq_zero_iff_of_nonneg fun i (_ : i ∈ Finset.univ) => hsl i).1 (by
    refine le_antisymm ?_ (Finset.sum_nonneg fun i _ => hsl i)
    rw [h2] at hle
    by_contra hcon
    push Not at hcon
    linarith [mul_pos hab hcon])
  choose ρ r1 r2 using fun i => jensen_prod_eq _ l m
    (fun c r => sq_nonneg ‖(H * unstack (X i) * Gᴴ) r c‖) hl hm (h1 i)
    (le_of_eq (sub_eq_zero.1 (hz i (Finset.mem_univ i))))
  have hGu := (isUnit_iff_isUnit_det G).1 hG
  have hGH : IsUnit Gᴴ.det := by rw [det_conjTranspose]; exact hGu.star
  have hHu := (isUnit_iff_isUnit_det H).1 hH
  set D : Matrix (Fin a) (Fin a) 𝕜 := diagonal fun c => ((Real.log (l c) : ℝ) : 𝕜) with hD
  set E : Matrix (Fin b) (Fin b) 𝕜 := diagonal fun r => ((Real.log (m r) : ℝ) : 𝕜) with hE
  have key : ∀ i, E * (H * unstack (X i) * Gᴴ) + H * unstack (X i) * Gᴴ * D =
      ((Real.log (ρ i) : ℝ) : 𝕜) • (H * unstack (X i) * Gᴴ) := fun i => by
    ext r c
    rw [Matrix.add_apply, hD, hE, diagonal_mul, mul_diagonal, Matrix.smul_apply, smul_eq_mul]
    by_cases h0 : (H * unstack (X i) * Gᴴ) r c = 0
    · rw [h0]; simp
    · have := r2 i c r (by positivity)
      rw [← this, Real.log_mul (hl c).ne' (hm r).ne']
      push_cast
      ring
  obtain ⟨⟨s, hs⟩, ⟨t, ht⟩⟩ := hI (Gᴴ * D * Gᴴ⁻¹) (H⁻¹ * E * H) fun i => by
    refine ⟨((Real.log (ρ i) : ℝ) : 𝕜), ?_⟩
    have e := congrArg (fun S => H⁻¹ * S * Gᴴ⁻¹) (key i)
    rw [Matrix.mul_add, Matrix.add_mul, Matrix.mul_smul, Matrix.smul_mul] at e
    have c1 : H⁻¹ * (H * unstack (X i) * Gᴴ) * Gᴴ⁻¹ = unstack (X i) := by
      rw [Matrix.mul_assoc H, nonsing_inv_mul_cancel_left _ _ hHu,
        mul_nonsing_inv_cancel_right _ _ hGH]
    have c2 : H⁻¹ * (E * (H * unstack (X i) * Gᴴ)) * Gᴴ⁻¹ = H⁻¹ * E * H * unstack (X i) := by
      simp only [Matrix.mul_assoc]
      rw [mul_nonsing_inv _ hGH, Matrix.mul_one]
    have c3 : H⁻¹ * (H * unstack (X i) * Gᴴ * D) * Gᴴ⁻¹ = unstack (X i) * (Gᴴ * D * Gᴴ⁻¹) := by
      simp only [Matrix.mul_assoc]
      rw [nonsing_inv_mul_cancel_left _ _ hHu]
    rw [c1, c2, c3] at e
    exact e
  have hD' : D = s • 1 := by
    have := congrArg (fun S => Gᴴ⁻¹ * S * Gᴴ) hs
    rw [Matrix.mul_assoc Gᴴ, nonsing_inv_mul_cancel_left _ _ hGH, nonsing_inv_mul_cancel_right _ _ hGH,
      Matrix.mul_smul, Matrix.smul_mul, Matrix.mul_one, nonsing_inv_mul _ hGH] at this
    exact this
  have hE' : E = t • 1 := by
    have := congrArg (fun S => H * S * H⁻¹) ht
    rw [Matrix.mul_assoc H⁻¹, mul_nonsing_inv_cancel_left _ _ hHu, mul_nonsing_inv_cancel_right _ _ hHu,
      Matrix.mul_smul, Matrix.smul_mul, Matrix.mul_one, mul_nonsing_inv _ hHu] at this
    exact this
  obtain ⟨u, hu⟩ := scalar_of_conj hG hl g1 g2 (s := s) fun c => by
    have := congrFun (congrFun hD' c) c
    simpa [hD] using this
  obtain ⟨v, hv⟩ := scalar_of_conj hH hm k1 k2 (s := t) fun c => by
    have := congrFun (congrFun hE' c) c
    simpa [hE] using this
  exact ⟨u, v, hu, hv⟩

/-! ## The sequence of iterates -/

theorem kronSeq_exists {M : Fin N → Matrix (Fin b) (Fin a) 𝕜} (hM : KronData M) (ha : 0 < a)
    (hb : 0 < b) : ∃ (P : ℕ → Matrix (Fin a) (Fin a) 𝕜) (Q : ℕ → Matrix (Fin b) (Fin b) 𝕜),
      P 0 = 1 ∧ Q 0 = 1 ∧ ∀ k, KronUpdate M (P k) (P (k + 1)) (Q k) (Q (k + 1)) := by
  choose! F G h using fun (A : Matrix (Fin a) (Fin a) 𝕜) (B : Matrix (Fin b) (Fin b) 𝕜)
    (hA : A.PosDef) (hB : B.PosDef) => kronUpdate_exists hM ha hb hA hB
  let S : ℕ → Matrix (Fin a) (Fin a) 𝕜 × Matrix (Fin b) (Fin b) 𝕜 := fun k =>
    Nat.rec (1, 1) (fun _ q => (F q.1 q.2, G q.1 q.2)) k
  have hS : ∀ k, (S k).1.PosDef ∧ (S k).2.PosDef := fun k => by
    induction k with
    | zero => exact ⟨PosDef.one, PosDef.one⟩
    | succ k ih => exact ⟨(h _ _ ih.1 ih.2).posA, (h _ _ ih.1 ih.2).posB⟩
  exact ⟨fun k => (S k).1, fun k => (S k).2, rfl, rfl, fun k => h _ _ (hS k).1 (hS k).2⟩

theorem IsKronRun.iterates {M : Fin N → Matrix (Fin b) (Fin a) 𝕜} {tol : ℝ} {iterMax : ℤ}
    {A P : ℕ → Matrix (Fin a) (Fin a) 𝕜} {B Q : ℕ → Matrix (Fin b) (Fin b) 𝕜} {d : ℕ → Delta} {n : ℕ}
    (h : IsKronRun (fun A B A' B' => KronUpdate M A A' B B') tol iterMax A B d n)
    (hP0 : P 0 = 1) (hQ0 : Q 0 = 1)
    (hstep : ∀ k, KronUpdate M (P k) (P (k + 1)) (Q k) (Q (k + 1))) :
    ∀ k ≤ n, A k = P k ∧ B k = Q k := by
  intro k
  induction k with
  | zero => intro _; exact ⟨h.start.1.trans hP0.symm, h.start.2.1.trans hQ0.symm⟩
  | succ k ih =>
    intro hk
    obtain ⟨e1, e2⟩ := ih (by omega)
    have u := h.next k (by omega)
    rw [e1, e2] at u
    have e3 := (hstep k).uniqA _ u.posA u.eqA
    refine ⟨e3, (hstep k).uniqB _ u.posB ?_⟩
    rw [← e3]
    exact u.eqB

/-- The error of a step. -/
noncomputable def kronErr (P : ℕ → Matrix (Fin a) (Fin a) 𝕜) (Q : ℕ → Matrix (Fin b) (Fin b) 𝕜)
    (k : ℕ) : ℝ :=
  max (frob (P (k + 1) - P k) / frob (P k)) (frob (Q (k + 1) - Q k) / frob (Q k))

theorem relChange_fin {n : ℕ} (hn : 0 < n) {S T : Matrix (Fin n) (Fin n) 𝕜} (hS : S.PosDef) {d : Delta}
    (h : RelChange (.fin T) (.fin S) d) : d = .fin (frob (T - S) / frob S) :=
  h.1 T S rfl rfl fun h0 => by
    have := hS.diag_pos (i := ⟨0, hn⟩)
    rw [h0] at this
    exact lt_irrefl _ this

theorem IsKronRun.error {M : Fin N → Matrix (Fin b) (Fin a) 𝕜} (ha : 0 < a) (hb : 0 < b) {tol : ℝ}
    {iterMax : ℤ}
    {A P : ℕ → Matrix (Fin a) (Fin a) 𝕜} {B Q : ℕ → Matrix (Fin b) (Fin b) 𝕜} {d : ℕ → Delta} {n : ℕ}
    (h : IsKronRun (fun A B A' B' => KronUpdate M A A' B B') tol iterMax A B d n)
    (hP0 : P 0 = 1) (hQ0 : Q 0 = 1)
    (hstep : ∀ k, KronUpdate M (P k) (P (k + 1)) (Q k) (Q (k + 1))) (k : ℕ) (hk : k < n) :
    d (k + 1) = .fin (kronErr P Q k) := by
  have hP : ∀ k, (P k).PosDef := fun k => by
    cases k; exacts [hP0 ▸ PosDef.one, (hstep _).posA]
  have hQ : ∀ k, (Q k).PosDef := fun k => by
    cases k; exacts [hQ0 ▸ PosDef.one, (hstep _).posB]
  obtain ⟨dA, dB, h1, h2, h3⟩ := h.err k hk
  have e1 := h.iterates hP0 hQ0 hstep k hk.le
  have e2 := h.iterates hP0 hQ0 hstep (k + 1) hk
  rw [e1.1, e2.1] at h1
  rw [e1.2, e2.2] at h2
  rw [relChange_fin ha (hP k) h1, relChange_fin hb (hQ k) h2] at h3
  generalize hx : d (k + 1) = x at h3 ⊢
  cases h3
  rfl

theorem rel_tendsto {n : ℕ} {P : ℕ → Matrix (Fin n) (Fin n) 𝕜} {S : Matrix (Fin n) (Fin n) 𝕜}
    (hS : 0 < frob S) (hP : Tendsto P atTop (𝓝 S)) :
    Tendsto (fun k => frob (P (k + 1) - P k) / frob (P k)) atTop (𝓝 0) := by
  have h := frob_of_tendsto hP
  have h' : Tendsto (fun k => frob (P (k + 1) - S)) atTop (𝓝 0) :=
    h.comp (tendsto_add_atTop_nat 1)
  have hnum : Tendsto (fun k => frob (P (k + 1) - P k)) atTop (𝓝 0) := by
    refine squeeze_zero (fun k => frob_nonneg _) (fun k => ?_) (by simpa using h'.add h)
    have e : P (k + 1) - P k = (P (k + 1) - S) - (P k - S) := by abel
    rw [e]
    exact frob_sub_le _ _
  have hden : Tendsto (fun k => frob (P k)) atTop (𝓝 (frob S)) := by
    rw [tendsto_iff_dist_tendsto_zero]
    refine squeeze_zero (fun _ => dist_nonneg) (fun k => ?_) h
    rw [Real.dist_eq, abs_le]
    constructor
    · have := frob_sub_le (P k) (P k - S)
      rw [sub_sub_cancel] at this
      linarith
    · have := frob_add_le (P k - S) S
      rw [sub_add_cancel] at this
      linarith
  have := hnum.div hden hS.ne'
  rw [zero_div] at this
  exact this

theorem kronErr_zero {P : ℕ → Matrix (Fin a) (Fin a) 𝕜} {Q : ℕ → Matrix (Fin b) (Fin b) 𝕜} {k : ℕ}
    (hP : 0 < frob (P k)) (hQ : 0 < frob (Q k)) (h : kronErr P Q k = 0) :
    P (k + 1) = P k ∧ Q (k + 1) = Q k := by
  have h1 : frob (P (k + 1) - P k) / frob (P k) ≤ 0 := h ▸ le_max_left _ _
  have h2 : frob (Q (k + 1) - Q k) / frob (Q k) ≤ 0 := h ▸ le_max_right _ _
  rw [div_le_iff₀ hP, zero_mul] at h1
  rw [div_le_iff₀ hQ, zero_mul] at h2
  exact ⟨sub_eq_zero.1 ((frob_eq_zero _).1 (le_antisymm h1 (frob_nonneg _))),
    sub_eq_zero.1 ((frob_eq_zero _).1 (le_antisymm h2 (frob_nonneg _)))⟩

theorem kronUpdate_unique {M : Fin N → Matrix (Fin b) (Fin a) 𝕜} {A A₁ A₂ : Matrix (Fin a) (Fin a) 𝕜}
    {B B₁ B₂ : Matrix (Fin b) (Fin b) 𝕜} (h1 : KronUpdate M A A₁ B B₁)
    (h2 : KronUpdate M A A₂ B B₂) : A₁ = A₂ ∧ B₁ = B₂ := by
  have e := h2.uniqA A₁ h1.posA h1.eqA
  exact ⟨e, h2.uniqB B₁ h1.posB (by rw [← e]; exact h1.eqB)⟩

theorem kronSeq_const {M : Fin N → Matrix (Fin b) (Fin a) 𝕜} {P : ℕ → Matrix (Fin a) (Fin a) 𝕜}
    {Q : ℕ → Matrix (Fin b) (Fin b) 𝕜}
    (hstep : ∀ k, KronUpdate M (P k) (P (k + 1)) (Q k) (Q (k + 1))) {k : ℕ}
    (z1 : P (k + 1) = P k) (z2 : Q (k + 1) = Q k) : ∀ j, k ≤ j → P j = P k ∧ Q j = Q k := by
  intro j hj
  induction j, hj using Nat.le_induction with
  | base => exact ⟨rfl, rfl⟩
  | succ j hj ih =>
    have h1 := hstep j
    rw [ih.1, ih.2] at h1
    have h2 := hstep k
    rw [z1, z2] at h2
    exact kronUpdate_unique h1 h2

theorem exists_small_gap (e : ℕ → ℝ) (K : ℕ) :
    ∃ δ : ℝ, 0 < δ ∧ ∀ k < K, e k ≤ δ → e k ≤ 0 := by
  induction K with
  | zero => exact ⟨1, one_pos, fun k hk => absurd hk (Nat.not_lt_zero k)⟩
  | succ K ih =>
    obtain ⟨δ, h1, h2⟩ := ih
    rcases le_or_gt (e K) 0 with h | h
    · refine ⟨δ, h1, fun k hk hle => ?_⟩
      rcases Nat.lt_succ_iff_lt_or_eq.1 hk with h3 | rfl
      · exact h2 k h3 hle
      · exact h
    · refine ⟨min δ (e K / 2), lt_min h1 (half_pos h), fun k hk hle => ?_⟩
      rcases Nat.lt_succ_iff_lt_or_eq.1 hk with h3 | rfl
      · exact h2 k h3 (hle.trans (min_le_left _ _))
      · have := hle.trans (min_le_right _ _)
        linarith

/-- A limit of iterates is stationary. -/
theorem kron_limit_fixed {M : Fin N → Matrix (Fin b) (Fin a) 𝕜} (hM : ∀ i, M i ≠ 0)
    {P : ℕ → Matrix (Fin a) (Fin a) 𝕜} {Q : ℕ → Matrix (Fin b) (Fin b) 𝕜}
    (hstep : ∀ k, KronUpdate M (P k) (P (k + 1)) (Q k) (Q (k + 1)))
    {A : Matrix (Fin a) (Fin a) 𝕜} {B : Matrix (Fin b) (Fin b) 𝕜} (tP : Tendsto P atTop (𝓝 A))
    (tQ : Tendsto Q atTop (𝓝 B)) (hA : A.PosDef) (hB : B.PosDef) :
    scatterA M A B = A ∧ scatterB M A B = B := by
  have tP' : Tendsto (fun k => P (k + 1)) atTop (𝓝 A) := tP.comp (tendsto_add_atTop_nat 1)
  have tQ' : Tendsto (fun k => Q (k + 1)) atTop (𝓝 B) := tQ.comp (tendsto_add_atTop_nat 1)
  have cA : A * A⁻¹ * A = A := by
    rw [mul_nonsing_inv _ ((isUnit_iff_isUnit_det A).1 hA.isUnit), Matrix.one_mul]
  have cB : B * B⁻¹ * B = B := by
    rw [mul_nonsing_inv _ ((isUnit_iff_isUnit_det B).1 hB.isUnit), Matrix.one_mul]
  constructor
  · refine (tendsto_nhds_unique (Tendsto.congr (fun k => ((hstep k).eqA).symm)
      (tendsto_scatterA hM tP tQ hA hB)) ?_).trans cA
    exact tendsto_map₂ (fun S T : Matrix (Fin a) (Fin a) 𝕜 => S * T * S) (by fun_prop)
      tP' (tendsto_inv tP hA.isUnit)
  · refine (tendsto_nhds_unique (Tendsto.congr (fun k => ((hstep k).eqB).symm)
      (tendsto_scatterB hM tP' tQ hA hB)) ?_).trans cB
    exact tendsto_map₂ (fun S T : Matrix (Fin b) (Fin b) 𝕜 => S * T * S) (by fun_prop)
      tQ' (tendsto_inv tQ hB.isUnit)

end
end RS
