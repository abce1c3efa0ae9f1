import Verif.Lemmas.KronConverge

/-! Existence and uniqueness of the stationary pair of the Kronecker MM algorithm. -/
set_option autoImplicit false

namespace RS
open Matrix ComplexOrder Filter Topology

section
variable {𝕜 : Type} [RCLike 𝕜] {N a b : ℕ}

theorem sum_pair (x : Fin a → ℝ) (y : Fin b → ℝ) :
    ∑ c, ∑ r, (x c + y r) = b * ∑ c, x c + a * ∑ r, y r := by
  simp only [Finset.sum_add_distrib, Finset.sum_const, Finset.card_univ, Fintype.card_fin,
    nsmul_eq_mul, ← Finset.mul_sum]

theorem kronSpread_iff {M : Fin N → Matrix (Fin b) (Fin a) 𝕜} (hN : 0 < N) (ha : 0 < a)
    (hb : 0 < b) : KronSpread M ↔
    ∀ (P : Matrix (Fin a) (Fin a) 𝕜) (Q : Matrix (Fin b) (Fin b) 𝕜) (x : Fin a → ℝ)
      (y : Fin b → ℝ) (m : Fin N → ℝ), IsUnit P → IsUnit Q →
      ((∃ c d, x c ≠ x d) ∨ ∃ r s, y r ≠ y s) →
      (∀ i r c, (Q * M i * P) r c ≠ 0 → x c + y r ≤ m i) →
      N * (b * ∑ c, x c + a * ∑ r, y r) < a * b * ∑ i, m i := by
  have hN' : (0 : ℝ) < N := by exact_mod_cast hN
  have hab : (0 : ℝ) < a * b := by exact_mod_cast Nat.mul_pos ha hb
  have e : ∀ (x : Fin a → ℝ) (y : Fin b → ℝ) (m : Fin N → ℝ),
      (∑ c, ∑ r, (x c + y r)) / (a * b) < (∑ i, m i) / N ↔
      N * (b * ∑ c, x c + a * ∑ r, y r) < a * b * ∑ i, m i := fun x y m => by
    rw [sum_pair, div_lt_div_iff₀ hab hN', mul_comm (N : ℝ), mul_comm _ (∑ i, m i)]
  unfold KronSpread
  simp only [e]

/-- Nonzero weights of sum zero are not constant. -/
theorem nonconst_of_sum_zero {x : Fin a → ℝ} (hx : ∑ c, x c = 0) (h : ∀ c d, x c = x d) : x = 0 := by
  funext c
  have h1 : ∑ d, x d = a * x c := by
    rw [Finset.sum_congr rfl fun d _ => h d c]
    simp
  rw [hx] at h1
  have ha : (a : ℝ) ≠ 0 := by
    have := c.pos
    exact_mod_cast this.ne'
  rcases mul_eq_zero.1 h1.symm with h2 | h2
  · exact absurd h2 ha
  · exact h2

/-- Near given bases and directions the cost grows linearly. -/
theorem kron_local_growth {M : Fin N → Matrix (Fin b) (Fin a) 𝕜} (hN : 0 < N) (ha : 0 < a)
    (hb : 0 < b) (hM : ∀ i, M i ≠ 0)
    (hS : KronSpread M) {G₀ : Matrix (Fin a) (Fin a) 𝕜} {H₀ : Matrix (Fin b) (Fin b) 𝕜}
    {z₀ : (Fin a → ℝ) × (Fin b → ℝ)} (hG : IsUnit G₀) (hH : IsUnit H₀) (hz : z₀ ≠ 0)
    (hx : ∑ c, z₀.1 c = 0) (hy : ∑ r, z₀.2 r = 0) :
    ∃ C e : ℝ, 0 < e ∧ ∀ᶠ q : Matrix (Fin a) (Fin a) 𝕜 × Matrix (Fin b) (Fin b) 𝕜 ×
      ((Fin a → ℝ) × (Fin b → ℝ)) in 𝓝 (G₀, H₀, z₀), IsUnit q.1 → IsUnit q.2.1 →
      ∑ c, q.2.2.1 c = 0 → ∑ r, q.2.2.2 r = 0 → ∀ t : ℝ, 0 ≤ t →
      e * t - C ≤ kronF M q.1 q.2.1 (t • q.2.2.1) (t • q.2.2.2) := by
  classical
  have hne : ∀ i, ∃ cr : Fin a × Fin b, 0 < kronTau (M i) G₀ H₀ cr.1 cr.2 := fun i => by
    by_contra hcon
    push Not at hcon
    have h1 := kronTau_sum_pos (hM i) hG hH
    refine absurd h1 (not_lt.2 (Finset.sum_nonpos fun c _ => Finset.sum_nonpos fun r _ =>
      hcon (c, r)))
  have hmin : ∀ i, ∃ cr : Fin a × Fin b, 0 < kronTau (M i) G₀ H₀ cr.1 cr.2 ∧
      ∀ c r, 0 < kronTau (M i) G₀ H₀ c r → z₀.1 cr.1 + z₀.2 cr.2 ≤ z₀.1 c + z₀.2 r := fun i => by
    obtain ⟨cr, h1, h2⟩ := Finset.exists_min_image
      (Finset.univ.filter fun cr : Fin a × Fin b => 0 < kronTau (M i) G₀ H₀ cr.1 cr.2)
      (fun cr => z₀.1 cr.1 + z₀.2 cr.2) (by
        obtain ⟨cr, h⟩ := hne i
        exact ⟨cr, by simpa using h⟩)
    refine ⟨cr, by simpa using h1, fun c r h => h2 (c, r) (by simpa using h)⟩
  choose κ hκ hκm using hmin
  have hs := (kronSpread_iff hN ha hb).1 hS G₀ᴴ H₀ (-z₀.1) (-z₀.2)
    (fun i => -(z₀.1 (κ i).1 + z₀.2 (κ i).2))
    ((isUnit_iff_isUnit_det _).2 (by
      rw [det_conjTranspose]; exact ((isUnit_iff_isUnit_det G₀).1 hG).star)) hH (by
      by_contra hcon
      push Not at hcon
      refine hz (Prod.ext ?_ ?_)
      · exact nonconst_of_sum_zero hx fun c d => by simpa using hcon.1 c d
      · exact nonconst_of_sum_zero hy fun c d => by simpa using hcon.2 c d)
    (fun i r c h => by
      have := hκm i c r (by unfold kronTau; positivity)
      simp only [Pi.neg_apply]
      linarith)
  simp only [Pi.neg_apply, Finset.sum_neg_distrib, hx, hy, neg_zero, mul_zero, add_zero] at hs
  set e : ℝ := a * b * -∑ i, (z₀.1 (κ i).1 + z₀.2 (κ i).2) with he
  have hab : (0 : ℝ) < a * b := by exact_mod_cast Nat.mul_pos ha hb
  refine ⟨-(a * b * ∑ i, (Real.log (kronTau (M i) G₀ H₀ (κ i).1 (κ i).2 / 2) -
    Real.log ((∑ c, ∑ r, kronTau (M i) G₀ H₀ c r) + 1))), e / 2, by linarith, ?_⟩
  have c1 : ∀ i c r, Continuous fun q : Matrix (Fin a) (Fin a) 𝕜 × Matrix (Fin b) (Fin b) 𝕜 ×
      ((Fin a → ℝ) × (Fin b → ℝ)) => kronTau (M i) q.1 q.2.1 c r := fun i c r => by
    unfold kronTau
    fun_prop
  have v1 : ∀ᶠ q : Matrix (Fin a) (Fin a) 𝕜 × Matrix (Fin b) (Fin b) 𝕜 ×
      ((Fin a → ℝ) × (Fin b → ℝ)) in 𝓝 (G₀, H₀, z₀), ∀ i,
      kronTau (M i) G₀ H₀ (κ i).1 (κ i).2 / 2 < kronTau (M i) q.1 q.2.1 (κ i).1 (κ i).2 :=
    eventually_all.2 fun i => ((c1 i _ _).tendsto (G₀, H₀, z₀)).eventually
      (lt_mem_nhds (half_lt_self (hκ i)))
  have v2 : ∀ᶠ q : Matrix (Fin a) (Fin a) 𝕜 × Matrix (Fin b) (Fin b) 𝕜 ×
      ((Fin a → ℝ) × (Fin b → ℝ)) in 𝓝 (G₀, H₀, z₀), ∀ i,
      ∑ c, ∑ r, kronTau (M i) q.1 q.2.1 c r < (∑ c, ∑ r, kronTau (M i) G₀ H₀ c r) + 1 :=
    eventually_all.2 fun i => ((continuous_finsetSum _ fun c _ => continuous_finsetSum _ fun r _ =>
      c1 i c r).tendsto (G₀, H₀, z₀)).eventually (gt_mem_nhds (lt_add_one _))
  have v3 : ∀ᶠ q : Matrix (Fin a) (Fin a) 𝕜 × Matrix (Fin b) (Fin b) 𝕜 ×
      ((Fin a → ℝ) × (Fin b → ℝ)) in 𝓝 (G₀, H₀, z₀),
      e / 2 < a * b * -∑ i, (q.2.2.1 (κ i).1 + q.2.2.2 (κ i).2) := by
    have c2 : Continuous fun q : Matrix (Fin a) (Fin a) 𝕜 × Matrix (Fin b) (Fin b) 𝕜 ×
      ((Fin a → ℝ) × (Fin b → ℝ)) => (a : ℝ) * b * -∑ i, (q.2.2.1 (κ i).1 + q.2.2.2 (κ i).2) := by
      fun_prop
    exact (c2.tendsto (G₀, H₀, z₀)).eventually (lt_mem_nhds (by
      show e / 2 < e
      linarith))
  filter_upwards [v1, v2, v3] with q w1 w2 w3 hq1 hq2 sx sy t ht
  have key : ∀ i, Real.log (kronTau (M i) G₀ H₀ (κ i).1 (κ i).2 / 2) -
      Real.log ((∑ c, ∑ r, kronTau (M i) G₀ H₀ c r) + 1) -
        t * (q.2.2.1 (κ i).1 + q.2.2.2 (κ i).2) ≤
      Real.log (∑ c, ∑ r, kronTau (M i) q.1 q.2.1 c r *
        Real.exp (-((t • q.2.2.1) c + (t • q.2.2.2) r))) -
      Real.log (∑ c, ∑ r, kronTau (M i) q.1 q.2.1 c r) := fun i => by
    have hp := kronTau_sum_pos (hM i) hq1 hq2
    have k1 := Real.log_le_log hp (w2 i).le
    have k2 : kronTau (M i) G₀ H₀ (κ i).1 (κ i).2 / 2 *
        Real.exp (-((t • q.2.2.1) (κ i).1 + (t • q.2.2.2) (κ i).2)) ≤
        ∑ c, ∑ r, kronTau (M i) q.1 q.2.1 c r *
        Real.exp (-((t • q.2.2.1) c + (t • q.2.2.2) r)) := by
      refine (mul_le_mul_of_nonneg_right (w1 i).le (Real.exp_pos _).le).trans ?_
      have p0 : ∀ c r, 0 ≤ kronTau (M i) q.1 q.2.1 c r *
        Real.exp (-((t • q.2.2.1) c + (t • q.2.2.2) r)) := fun c r =>
        mul_nonneg (kronTau_nonneg _ _ _ _ _) (Real.exp_pos _).le
      exact (Finset.single_le_sum (f := fun r => kronTau (M i) q.1 q.2.1 (κ i).1 r *
        Real.exp (-((t • q.2.2.1) (κ i).1 + (t • q.2.2.2) r))) (fun r _ => p0 _ r)
        (Finset.mem_univ (κ i).2)).trans
        (Finset.single_le_sum (f := fun c => ∑ r, kronTau (M i) q.1 q.2.1 c r *
          Real.exp (-((t • q.2.2.1) c + (t • q.2.2.2) r)))
          (fun c _ => Finset.sum_nonneg fun r _ => p0 c r) (Finset.mem_univ (κ i).1))
    have k3 := Real.log_le_log (mul_pos (half_pos (hκ i)) (Real.exp_pos _)) k2
    rw [Real.log_mul (half_pos (hκ i)).ne' (Real.exp_pos _).ne', Real.log_exp] at k3
    simp only [Pi.smul_apply, smul_eq_mul] at k3 ⊢
    linarith
  have k4 := mul_le_mul_of_nonneg_left (Finset.sum_le_sum fun i (_ : i ∈ Finset.univ) => key i)
    hab.le
  rw [Finset.sum_sub_distrib, ← Finset.mul_sum] at k4
  unfold kronF
  have e1 : ∑ c, (t • q.2.2.1) c = 0 := by simp [← Finset.mul_sum, sx]
  have e2 : ∑ c, (t • q.2.2.2) c = 0 := by simp [← Finset.mul_sum, sy]
  rw [e1, e2]
  have k5 := mul_le_mul_of_nonneg_right w3.le ht
  linarith

/-- The cost grows linearly in the logarithms of the eigenvalues, in all bases. -/
theorem kron_coercive {M : Fin N → Matrix (Fin b) (Fin a) 𝕜} (hN : 0 < N) (ha : 0 < a)
    (hb : 0 < b) (hM : ∀ i, M i ≠ 0) (hS : KronSpread M) :
    ∃ C e : ℝ, 0 < e ∧ ∀ (G : Matrix (Fin a) (Fin a) 𝕜) (H : Matrix (Fin b) (Fin b) 𝕜)
      (z : (Fin a → ℝ) × (Fin b → ℝ)), G * 1 * Gᴴ = 1 → H * 1 * Hᴴ = 1 → ∑ c, z.1 c = 0 →
      ∑ r, z.2 r = 0 → e * ‖z‖ - C ≤ kronF M G H z.1 z.2 := by
  set K : Set (Matrix (Fin a) (Fin a) 𝕜 × Matrix (Fin b) (Fin b) 𝕜 ×
      ((Fin a → ℝ) × (Fin b → ℝ))) :=
    {G | G * 1 * Gᴴ = 1} ×ˢ {H | H * 1 * Hᴴ = 1} ×ˢ
      (Metric.sphere 0 1 ∩ {z | ∑ c, z.1 c = 0 ∧ ∑ r, z.2 r = 0}) with hK
  have hKc : IsCompact K := by
    refine (isCompact_whitening PosDef.one).prod ((isCompact_whitening PosDef.one).prod
      ((isCompact_sphere _ _).inter_right ?_))
    exact (isClosed_eq (by fun_prop) continuous_const).inter
      (isClosed_eq (by fun_prop) continuous_const)
  obtain ⟨C, e, he, hCe⟩ : ∃ C e : ℝ, 0 < e ∧ ∀ q ∈ K, ∀ t : ℝ, 0 ≤ t →
      e * t - C ≤ kronF M q.1 q.2.1 (t • q.2.2.1) (t • q.2.2.2) := by
    have := hKc.induction_on (p := fun s => ∃ C e : ℝ, 0 < e ∧ ∀ q ∈ s ∩ K, ∀ t : ℝ, 0 ≤ t →
      e * t - C ≤ kronF M q.1 q.2.1 (t • q.2.2.1) (t • q.2.2.2)) ⟨0, 1, one_pos, by simp⟩
      (fun s s' h ⟨C, e, he, h'⟩ => ⟨C, e, he, fun q hq => h' q ⟨h hq.1, hq.2⟩⟩)
      (fun s s' ⟨C, e, he, h⟩ ⟨C', e', he', h'⟩ => ⟨max C C', min e e', lt_min he he',
        fun q hq t ht => by
          have m1 := mul_le_mul_of_nonneg_right (min_le_left e e') ht
          have m2 := mul_le_mul_of_nonneg_right (min_le_right e e') ht
          rcases hq.1 with h1 | h1
          · have := h q ⟨h1, hq.2⟩ t ht
            linarith [le_max_left C C']
          · have := h' q ⟨h1, hq.2⟩ t ht
            linarith [le_max_right C C']⟩)
      (fun q hq => by
        obtain ⟨G, H, z⟩ := q
        obtain ⟨hG, hH, hz, hx, hy⟩ := hq
        obtain ⟨C, e, he, h⟩ := kron_local_growth hN ha hb hM hS (whitening_isUnit hG)
          (whitening_isUnit hH) (z₀ := z) (by
            rintro rfl
            rw [mem_sphere_zero_iff_norm] at hz
            simp at hz) hx hy
        refine ⟨_, mem_nhdsWithin_of_mem_nhds h, C, e, he, fun q hq t ht => ?_⟩
        obtain ⟨hq1, hq2, hq3, -, hq4, hq5⟩ := hq
        exact hq1 (whitening_isUnit hq2) (whitening_isUnit hq3) hq4 hq5 t ht)
    obtain ⟨C, e, he, h⟩ := this
    exact ⟨C, e, he, fun q hq => h q ⟨hq, hq⟩⟩
  refine ⟨max C 0, e, he, fun G H z hG hH hx hy => ?_⟩
  by_cases hz : z = 0
  · subst hz
    rw [norm_zero, mul_zero, zero_sub]
    have : kronF M G H (0 : (Fin a → ℝ) × (Fin b → ℝ)).1 (0 : (Fin a → ℝ) × (Fin b → ℝ)).2 = 0 := by
      simp [kronF]
    rw [this]
    linarith [le_max_right C 0]
  · have hn0 : (0 : ℝ) < ‖z‖ := norm_pos_iff.2 hz
    have h1 := hCe (G, H, ‖z‖⁻¹ • z) ⟨hG, hH, by
        rw [mem_sphere_zero_iff_norm, norm_smul, norm_inv, norm_norm, inv_mul_cancel₀ hn0.ne'],
      by simp [← Finset.mul_sum, hx], by simp [← Finset.mul_sum, hy]⟩ ‖z‖ hn0.le
    simp only [Prod.smul_fst, Prod.smul_snd, smul_smul, mul_inv_cancel₀ hn0.ne', one_smul] at h1
    linarith [le_max_left C 0]

theorem kronF_continuousOn {M : Fin N → Matrix (Fin b) (Fin a) 𝕜} (hM : ∀ i, M i ≠ 0) :
    ContinuousOn (fun q : Matrix (Fin a) (Fin a) 𝕜 × Matrix (Fin b) (Fin b) 𝕜 ×
      ((Fin a → ℝ) × (Fin b → ℝ)) => kronF M q.1 q.2.1 q.2.2.1 q.2.2.2)
      {q | IsUnit q.1 ∧ IsUnit q.2.1} := by
  unfold kronF
  refine ContinuousOn.add (ContinuousOn.mul continuousOn_const
    (continuousOn_finsetSum _ fun i _ => (ContinuousOn.log ?_ ?_).sub
      (ContinuousOn.log ?_ ?_))) ?_
  · apply Continuous.continuousOn
    unfold kronTau
    fun_prop
  · rintro ⟨G, H, x, y⟩ ⟨hG, hH⟩
    exact (kronTau_pos (hM i) hG hH _ fun _ _ => Real.exp_pos _).ne'
  · apply Continuous.continuousOn
    unfold kronTau
    fun_prop
  · rintro ⟨G, H, x, y⟩ ⟨hG, hH⟩
    exact (kronTau_sum_pos (hM i) hG hH).ne'
  · fun_prop

/-- Spread-out samples have a pair of smallest cost. -/
theorem kron_min_exists (X : Matrix (Fin N) (Fin (a * b)) 𝕜) (hN : 0 < N) (ha : 0 < a) (hb : 0 < b)
    (h0 : ∀ i, X i ≠ 0) (hS : KronSpread fun i => (unstack (X i) : Matrix (Fin b) (Fin a) 𝕜)) :
    ∃ (A : Matrix (Fin a) (Fin a) 𝕜) (B : Matrix (Fin b) (Fin b) 𝕜), A.PosDef ∧ B.PosDef ∧
      ∀ (A' : Matrix (Fin a) (Fin a) 𝕜) (B' : Matrix (Fin b) (Fin b) 𝕜), A'.PosDef → B'.PosDef →
        tylerCost X (kron Aᵀ B) ≤ tylerCost X (kron A'ᵀ B') := by
  have hM : ∀ i, (unstack (X i) : Matrix (Fin b) (Fin a) 𝕜) ≠ 0 := fun i => unstack_ne_zero (h0 i)
  set M : Fin N → Matrix (Fin b) (Fin a) 𝕜 := fun i => unstack (X i) with hMdef
  obtain ⟨C, e, he, hC⟩ := kron_coercive hN ha hb hM hS
  set R : ℝ := |C| / e with hR
  have hR0 : 0 ≤ R := by positivity
  set K : Set (Matrix (Fin a) (Fin a) 𝕜 × Matrix (Fin b) (Fin b) 𝕜 ×
      ((Fin a → ℝ) × (Fin b → ℝ))) :=
    {G | G * 1 * Gᴴ = 1} ×ˢ {H | H * 1 * Hᴴ = 1} ×ˢ
      (Metric.closedBall 0 R ∩ {z | ∑ c, z.1 c = 0 ∧ ∑ r, z.2 r = 0}) with hK
  have hKc : IsCompact K := by
    refine (isCompact_whitening PosDef.one).prod ((isCompact_whitening PosDef.one).prod
      ((isCompact_closedBall _ _).inter_right ?_))
    exact (isClosed_eq (by fun_prop) continuous_const).inter
      (isClosed_eq (by fun_prop) continuous_const)
  have hone : ((1 : Matrix (Fin a) (Fin a) 𝕜), (1 : Matrix (Fin b) (Fin b) 𝕜),
      ((0 : Fin a → ℝ), (0 : Fin b → ℝ))) ∈ K :=
    ⟨by simp, by simp, by simpa using hR0, by simp, by simp⟩
  obtain ⟨⟨G, H, z⟩, hq, hmin⟩ := hKc.exists_isMinOn ⟨_, hone⟩ ((kronF_continuousOn hM).mono
    fun q hq => ⟨whitening_isUnit hq.1, whitening_isUnit hq.2.1⟩)
  replace hmin : ∀ q ∈ K, kronF M G H z.1 z.2 ≤ kronF M q.1 q.2.1 q.2.2.1 q.2.2.2 :=
    isMinOn_iff.1 hmin
  obtain ⟨hG, hH, hz, hx, hy⟩ := hq
  replace hG : G * 1 * Gᴴ = 1 := hG
  replace hH : H * 1 * Hᴴ = 1 := hH
  have hmem : ∀ (G' : Matrix (Fin a) (Fin a) 𝕜) (H' : Matrix (Fin b) (Fin b) 𝕜)
      (z' : (Fin a → ℝ) × (Fin b → ℝ)), G' * 1 * G'ᴴ = 1 → H' * 1 * H'ᴴ = 1 → ‖z'‖ ≤ R →
      ∑ c, z'.1 c = 0 → ∑ r, z'.2 r = 0 → kronF M G H z.1 z.2 ≤ kronF M G' H' z'.1 z'.2 :=
    fun G' H' z' h1 h2 h3 h4 h5 => hmin (G', H', z') ⟨h1, h2, by simpa using h3, h4, h5⟩
  have h1 : kronF M G H z.1 z.2 ≤ 0 := by
    have h1 := hmin _ hone
    have h2 : kronF M 1 1 (0 : Fin a → ℝ) (0 : Fin b → ℝ) = 0 := by simp [kronF]
    exact h1.trans h2.le
  clear hmin hone hKc
  clear_value K
  obtain ⟨A, hA, g2⟩ := exists_unwhiten (whitening_isUnit hG) z.1
  obtain ⟨B, hB, k2⟩ := exists_unwhiten (whitening_isUnit hH) z.2
  refine ⟨A, B, hA, hB, fun A' B' hA' hB' => ?_⟩
  obtain ⟨G', x, g1', g2'⟩ := simultaneous_exp 1 A' PosDef.one hA'
  obtain ⟨H', y, k1', k2'⟩ := simultaneous_exp 1 B' PosDef.one hB'
  rw [kronF_eq X PosDef.one PosDef.one hA hB (whitening_isUnit hG) (whitening_isUnit hH) _ _ hG hH
    g2 k2, kronF_eq X PosDef.one PosDef.one hA' hB' (whitening_isUnit g1') (whitening_isUnit k1')
    _ _ g1' k1' g2' k2']
  refine add_le_add le_rfl ?_
  rw [← kronF_shift M hM (whitening_isUnit g1') (whitening_isUnit k1') x y (-((∑ c, x c) / a))
    (-((∑ r, y r) / b))]
  set z' : (Fin a → ℝ) × (Fin b → ℝ) :=
    (fun c => x c + -((∑ c, x c) / a), fun r => y r + -((∑ r, y r) / b)) with hz'
  have sx : ∑ c, z'.1 c = 0 := sub_mean_sum x
  have sy : ∑ r, z'.2 r = 0 := sub_mean_sum y
  change kronF M G H z.1 z.2 ≤ kronF M G' H' z'.1 z'.2
  rcases le_or_gt ‖z'‖ R with hle | hgt
  · exact hmem G' H' z' g1' k1' hle sx sy
  · have h3 := hC G' H' z' g1' k1' sx sy
    have h4 : |C| ≤ e * ‖z'‖ := by
      rw [hR, div_lt_iff₀ he] at hgt
      linarith
    linarith [le_abs_self C]

theorem exists_basis_col {n : ℕ} {v : Fin n → 𝕜} (hv : v ≠ 0) :
    ∃ (P : Matrix (Fin n) (Fin n) 𝕜) (j : Fin n), IsUnit P ∧ v j ≠ 0 ∧ ∀ i, P i j = v i := by
  obtain ⟨j, hj⟩ := Function.ne_iff.1 hv
  refine ⟨updateCol 1 j v, j, ?_, hj, fun i => by simp⟩
  rw [isUnit_iff_isUnit_det, ← cramer_apply, cramer_one]
  exact isUnit_iff_ne_zero.2 hj

/-- Spread-out samples are rich in rows and columns. -/
theorem kronSpread_data {M : Fin N → Matrix (Fin b) (Fin a) 𝕜} (hN : 0 < N) (ha : 0 < a)
    (hb : 0 < b) (hM : ∀ i, M i ≠ 0) (hS : KronSpread M) : KronData M := by
  rw [kronSpread_iff hN ha hb] at hS
  have hN' : (0 : ℝ) < N := by exact_mod_cast hN
  refine ⟨hM, fun v hv => ?_, fun u hu => ?_⟩
  · by_contra hne
    obtain ⟨P, j, hP, hj, hPj⟩ := exists_basis_col hne
    have hcol : ∀ i r, ((1 : Matrix (Fin b) (Fin b) 𝕜) * M i * P) r j = 0 := fun i r => by
      have := congrFun (hv i) r
      rw [Matrix.one_mul, Matrix.mul_apply]
      simpa [mulVec, dotProduct, hPj] using this
    by_cases hd : ∃ d, d ≠ j
    · obtain ⟨d, hd⟩ := hd
      have h1 := hS P 1 (Pi.single j 1) 0 0 hP isUnit_one
        (Or.inl ⟨j, d, by simp [hd]⟩) (fun i r c h => by
          have hc : c ≠ j := by rintro rfl; exact h (hcol i r)
          simp [hc])
      simp at h1
      have : (0 : ℝ) ≤ N * b := by positivity
      linarith
    · push Not at hd
      refine hM ⟨0, hN⟩ ?_
      ext r c
      have h1 := congrFun (hv ⟨0, hN⟩) r
      have h2 : ∑ c', M ⟨0, hN⟩ r c' * v c' = M ⟨0, hN⟩ r j * v j := by
        refine Finset.sum_eq_single j (fun d _ h => absurd (hd d) h) (by simp)
      rw [mulVec, dotProduct, h2] at h1
      rw [hd c]
      simpa [hj] using h1
  · by_contra hne
    obtain ⟨P, j, hP, hj, hPj⟩ := exists_basis_col hne
    have hPu : IsUnit Pᴴ := (isUnit_iff_isUnit_det _).2 (by
      rw [det_conjTranspose]; exact ((isUnit_iff_isUnit_det P).1 hP).star)
    have hrow : ∀ i c, (Pᴴ * M i * (1 : Matrix (Fin a) (Fin a) 𝕜)) j c = 0 := fun i c => by
      have := congrArg star (congrFun (hu i) c)
      rw [Matrix.mul_one, Matrix.mul_apply]
      simpa [mulVec, dotProduct, hPj, star_sum, mul_comm] using this
    by_cases hd : ∃ d, d ≠ j
    · obtain ⟨d, hd⟩ := hd
      have h1 := hS 1 Pᴴ 0 (Pi.single j 1) 0 isUnit_one hPu
        (Or.inr ⟨j, d, by simp [hd]⟩) (fun i r c h => by
          have hc : r ≠ j := by rintro rfl; exact h (hrow i c)
          simp [hc])
      simp at h1
      have : (0 : ℝ) ≤ N * a := by positivity
      linarith
    · push Not at hd
      refine hM ⟨0, hN⟩ ?_
      ext r c
      have h1 := congrFun (hu ⟨0, hN⟩) c
      have h2 : ∑ c', (M ⟨0, hN⟩)ᴴ c c' * u c' = (M ⟨0, hN⟩)ᴴ c j * u j := by
        refine Finset.sum_eq_single j (fun d _ h => absurd (hd d) h) (by simp)
      rw [mulVec, dotProduct, h2] at h1
      rw [hd r]
      simpa [hj] using h1

/-- Two pairs of smallest cost of spread-out samples differ by scales only. -/
theorem kronSpread_unique (X : Matrix (Fin N) (Fin (a * b)) 𝕜) (hN : 0 < N) (ha : 0 < a)
    (hb : 0 < b) (h0 : ∀ i, X i ≠ 0)
    (hS : KronSpread fun i => (unstack (X i) : Matrix (Fin b) (Fin a) 𝕜))
    {A A' : Matrix (Fin a) (Fin a) 𝕜} {B B' : Matrix (Fin b) (Fin b) 𝕜} (hA : A.PosDef)
    (hB : B.PosDef) (hfA : scatterA (fun i => unstack (X i)) A B = A)
    (hfB : scatterB (fun i => unstack (X i)) A B = B) (hA' : A'.PosDef) (hB' : B'.PosDef)
    (hle : tylerCost X (kron A'ᵀ B') ≤ tylerCost X (kron Aᵀ B)) :
    ∃ s t : ℝ, A' = (s : 𝕜) • A ∧ B' = (t : 𝕜) • B := by
  have hM : ∀ i, (unstack (X i) : Matrix (Fin b) (Fin a) 𝕜) ≠ 0 := fun i => unstack_ne_zero (h0 i)
  obtain ⟨G, x, g1, g2⟩ := simultaneous_exp A A' hA hA'
  obtain ⟨H, y, k1, k2⟩ := simultaneous_exp B B' hB hB'
  have hG := whitening_isUnit g1
  have hH := whitening_isUnit k1
  have ex : ∀ j, 0 < Real.exp (x j) := fun j => Real.exp_pos _
  have ey : ∀ j, 0 < Real.exp (y j) := fun j => Real.exp_pos _
  obtain ⟨h1, h2⟩ := kron_gap X hN h0 hA hB hfA hfB hA' hB' hG ex g1 g2 hH ey k1 k2 _ rfl
  have hsl := fun i => sub_nonneg.2 (jensen_prod _ _ _
    (fun c r => sq_nonneg ‖(H * unstack (X i) * Gᴴ) r c‖) ex ey (h1 i))
  have hab : (0 : ℝ) < a * b := by exact_mod_cast Nat.mul_pos ha hb
  have hz := (Finset.sum_eq_zero_iff_of_nonneg fun i (_ : i ∈ Finset.univ) => hsl i).1 (by
    refine le_antisymm ?_ (Finset.sum_nonneg fun i _ => hsl i)
    rw [h2] at hle
    by_contra hcon
    push Not at hcon
    linarith [mul_pos hab hcon])
  choose ρ r1 r2 using fun i => jensen_prod_eq _ _ _
    (fun c r => sq_nonneg ‖(H * unstack (X i) * Gᴴ) r c‖) ex ey (h1 i)
    (le_of_eq (sub_eq_zero.1 (hz i (Finset.mem_univ i))))
  have hsupp : ∀ i r c, (H * unstack (X i) * Gᴴ) r c ≠ 0 → x c + y r = Real.log (ρ i) :=
    fun i r c h => by
    rw [← r2 i c r (by positivity), ← Real.exp_add, Real.log_exp]
  -- the cost is linear along these directions, and so constant
  have hF := kronF_eq X hA hB hA' hB' hG hH x y g1 k1 g2 k2
  have hge := kron_fixed_minimises X hN h0 hA hB hfA hfB hA' hB'
  have hlin : kronF (fun i => (unstack (X i) : Matrix (Fin b) (Fin a) 𝕜)) G H x y =
      a * b * ∑ i, -Real.log (ρ i) + N * (b * ∑ c, x c + a * ∑ r, y r) := by
    unfold kronF
    congr 2
    refine Finset.sum_congr rfl fun i _ => ?_
    have h3 := kronTau_sum_pos (hM i) hG hH
    have h4 : ∑ c, ∑ r, kronTau (unstack (X i)) G H c r * Real.exp (-(x c + y r)) =
        (∑ c, ∑ r, kronTau (unstack (X i)) G H c r) * Real.exp (-Real.log (ρ i)) := by
      rw [Finset.sum_mul]
      refine Finset.sum_congr rfl fun c _ => ?_
      rw [Finset.sum_mul]
      refine Finset.sum_congr rfl fun r _ => ?_
      by_cases h5 : (H * unstack (X i) * Gᴴ) r c = 0
      · simp [kronTau, h5]
      · rw [hsupp i r c h5]
    rw [h4, Real.log_mul h3.ne' (Real.exp_pos _).ne', Real.log_exp]
    ring
  have hconst : ¬ ((∃ c d, (-x) c ≠ (-x) d) ∨ ∃ r s, (-y) r ≠ (-y) s) := fun hne => by
    have h5 := (kronSpread_iff hN ha hb).1 hS Gᴴ H (-x) (-y) (fun i => -Real.log (ρ i))
      ((isUnit_iff_isUnit_det _).2 (by
        rw [det_conjTranspose]; exact ((isUnit_iff_isUnit_det G).1 hG).star)) hH hne
      (fun i r c h => by
        have := hsupp i r c h
        simp only [Pi.neg_apply]
        linarith)
    simp only [Pi.neg_apply, Finset.sum_neg_distrib] at h5 hlin
    linarith
  push Not at hconst
  have cx : ∀ c d, x c = x d := fun c d => by simpa using hconst.1 c d
  have cy : ∀ c d, y c = y d := fun c d => by simpa using hconst.2 c d
  obtain ⟨s, hs⟩ := scalar_of_conj hG ex g1 g2 (s := ((x ⟨0, ha⟩ : ℝ) : 𝕜)) fun c => by
    rw [Real.log_exp, cx c]
  obtain ⟨t, ht⟩ := scalar_of_conj hH ey k1 k2 (s := ((y ⟨0, hb⟩ : ℝ) : 𝕜)) fun c => by
    rw [Real.log_exp, cy c]
  exact ⟨s, t, hs, ht⟩

/-- A stationary pair of spread-out samples, unique up to scale. -/
theorem kronSpread_exists (X : Matrix (Fin N) (Fin (a * b)) 𝕜) (hN : 0 < N) (ha : 0 < a)
    (hb : 0 < b) (h0 : ∀ i, X i ≠ 0)
    (hS : KronSpread fun i => (unstack (X i) : Matrix (Fin b) (Fin a) 𝕜)) :
    ∃ (A : Matrix (Fin a) (Fin a) 𝕜) (B : Matrix (Fin b) (Fin b) 𝕜),
      KronFixed (fun i => unstack (X i)) A B ∧
      ∀ A' B', KronFixed (fun i => unstack (X i)) A' B' →
        ∃ s t : ℝ, A' = (s : 𝕜) • A ∧ B' = (t : 𝕜) • B := by
  have hD := kronSpread_data hN ha hb (fun i => unstack_ne_zero (h0 i)) hS
  obtain ⟨A, B, hA, hB, hmin⟩ := kron_min_exists X hN ha hb h0 hS
  obtain ⟨A₁, B₁, u⟩ := kronUpdate_exists hD ha hb hA hB
  obtain ⟨e1, e2⟩ := kron_stationary X hD ha hb hA hB u (hmin A₁ B₁ u.posA u.posB)
  refine ⟨A, B, ⟨hA, hB, e1, e2⟩, fun A' B' h => ?_⟩
  exact kronSpread_unique X hN ha hb h0 hS hA hB e1 e2 h.posA h.posB
    (kron_fixed_minimises X hN h0 h.posA h.posB h.eqA h.eqB hA hB)

theorem loewner_diag_le {n : ℕ} {S T : Matrix (Fin n) (Fin n) 𝕜} (h : Loewner S T) (c : Fin n) :
    RCLike.re (S c c) ≤ RCLike.re (T c c) := by
  have h1 := PosSemidef.diag_nonneg h (i := c)
  rw [Matrix.sub_apply, RCLike.nonneg_iff] at h1
  have h2 := h1.1
  rw [map_sub] at h2
  linarith

/-- A ray of matrices that stays below a fixed matrix does not grow in any direction. -/
theorem ray_zero {G T : Matrix (Fin a) (Fin a) 𝕜} {x : Fin a → ℝ} {R : ℝ}
    {A : ℝ → Matrix (Fin a) (Fin a) 𝕜}
    (g : ∀ s, G * A s * Gᴴ = diagonal fun j => ((Real.exp ((-(s • x)) j) : ℝ) : 𝕜))
    (hR : ∀ s, 0 ≤ s → Loewner (A s) (((Real.exp R : ℝ) : 𝕜) • T)) (hx : ∑ c, x c = 0) : x = 0 := by
  have h0 : ∀ c, 0 ≤ x c := fun c => by
    by_contra hc
    push Not at hc
    set κ := RCLike.re ((G * (((Real.exp R : ℝ) : 𝕜) • T) * Gᴴ) c c) with hκ
    have h1 : ∀ s, 0 ≤ s → Real.exp (-(s * x c)) ≤ κ := fun s hs => by
      have h2 := loewner_diag_le ((hR s hs).congr G) c
      rw [g s, diagonal_apply_eq, RCLike.ofReal_re] at h2
      exact h2
    have h2 : 0 ≤ κ := (Real.exp_pos _).le.trans (h1 0 le_rfl)
    have h3 := h1 (κ / -x c) (div_nonneg h2 (by linarith))
    have h4 : -(κ / -x c * x c) = κ := by
      have := hc.ne
      field_simp
    rw [h4] at h3
    linarith [Real.add_one_le_exp κ]
  funext c
  exact (Finset.sum_eq_zero_iff_of_nonneg fun c _ => h0 c).1 hx c (Finset.mem_univ c)

/-- Along a ray on which the samples stay below average, the cost stays bounded. -/
theorem kronF_ray_le {M : Fin N → Matrix (Fin b) (Fin a) 𝕜} (hM : ∀ i, M i ≠ 0)
    {G : Matrix (Fin a) (Fin a) 𝕜} {H : Matrix (Fin b) (Fin b) 𝕜} (hG : IsUnit G) (hH : IsUnit H)
    {x : Fin a → ℝ} {y : Fin b → ℝ} {m : Fin N → ℝ} (hx : ∑ c, x c = 0) (hy : ∑ r, y r = 0)
    (hm : a * b * ∑ i, m i ≤ 0)
    (hsupp : ∀ i r c, (H * M i * Gᴴ) r c ≠ 0 → x c + y r ≤ m i) {s : ℝ} (hs : 0 ≤ s) :
    kronF M G H (-(s • x)) (-(s • y)) ≤ 0 := by
  have key : ∀ i, Real.log (∑ c, ∑ r, kronTau (M i) G H c r *
      Real.exp (-((-(s • x)) c + (-(s • y)) r))) - Real.log (∑ c, ∑ r, kronTau (M i) G H c r) ≤
      s * m i := fun i => by
    have h1 := kronTau_sum_pos (hM i) hG hH
    have h2 := kronTau_pos (hM i) hG hH (fun c r => Real.exp (-((-(s • x)) c + (-(s • y)) r)))
      fun _ _ => Real.exp_pos _
    have h3 : ∑ c, ∑ r, kronTau (M i) G H c r * Real.exp (-((-(s • x)) c + (-(s • y)) r)) ≤
        (∑ c, ∑ r, kronTau (M i) G H c r) * Real.exp (s * m i) := by
      rw [Finset.sum_mul]
      refine Finset.sum_le_sum fun c _ => ?_
      rw [Finset.sum_mul]
      refine Finset.sum_le_sum fun r _ => ?_
      by_cases h5 : (H * M i * Gᴴ) r c = 0
      · simp [kronTau, h5]
      · refine mul_le_mul_of_nonneg_left (Real.exp_le_exp.2 ?_) (kronTau_nonneg _ _ _ _ _)
        have := mul_le_mul_of_nonneg_left (hsupp i r c h5) hs
        simp only [Pi.neg_apply, Pi.smul_apply, smul_eq_mul]
        linarith
    have h4 := Real.log_le_log h2 h3
    rw [Real.log_mul h1.ne' (Real.exp_pos _).ne', Real.log_exp] at h4
    linarith
  have h1 := mul_le_mul_of_nonneg_left (Finset.sum_le_sum fun i (_ : i ∈ Finset.univ) => key i)
    (show (0 : ℝ) ≤ a * b by positivity)
  rw [← Finset.mul_sum] at h1
  unfold kronF
  have e1 : ∑ c, (-(s • x)) c = 0 := by simp [← Finset.mul_sum, hx]
  have e2 : ∑ c, (-(s • y)) c = 0 := by simp [← Finset.mul_sum, hy]
  rw [e1, e2]
  have h2 := mul_nonpos_of_nonneg_of_nonpos hs hm
  nlinarith

/-- To show that samples are spread out it is enough to look at weights of sum zero: a ray along
which the cost is bounded and the determinants constant must be trivial. -/
theorem kronSpread_of_rays (X : Matrix (Fin N) (Fin (a * b)) 𝕜) (hN : 0 < N) (ha : 0 < a)
    (hb : 0 < b) (h0 : ∀ i, X i ≠ 0)
    (H : ∀ (G : Matrix (Fin a) (Fin a) 𝕜) (H : Matrix (Fin b) (Fin b) 𝕜) (x : Fin a → ℝ)
      (y : Fin b → ℝ) (C : ℝ) (A : ℝ → Matrix (Fin a) (Fin a) 𝕜) (B : ℝ → Matrix (Fin b) (Fin b) 𝕜),
      IsUnit G → IsUnit H → ∑ c, x c = 0 → ∑ r, y r = 0 → (∀ s, (A s).PosDef) → (∀ s, (B s).PosDef) →
      (∀ s, G * A s * Gᴴ = diagonal fun j => ((Real.exp ((-(s • x)) j) : ℝ) : 𝕜)) →
      (∀ s, H * B s * Hᴴ = diagonal fun j => ((Real.exp ((-(s • y)) j) : ℝ) : 𝕜)) →
      (∀ s, 0 ≤ s → tylerCost X (kron (A s)ᵀ (B s)) ≤ C) →
      (∀ s, Real.log (RCLike.re (A s).det) = Real.log (RCLike.re (A 0).det)) →
      (∀ s, Real.log (RCLike.re (B s).det) = Real.log (RCLike.re (B 0).det)) → x = 0 ∧ y = 0) :
    KronSpread fun i => (unstack (X i) : Matrix (Fin b) (Fin a) 𝕜) := by
  rw [kronSpread_iff hN ha hb]
  intro P Q x y m hP hQ hne hsupp
  by_contra hcon
  push Not at hcon
  have hM : ∀ i, (unstack (X i) : Matrix (Fin b) (Fin a) 𝕜) ≠ 0 := fun i => unstack_ne_zero (h0 i)
  have hG : IsUnit Pᴴ := (isUnit_iff_isUnit_det _).2 (by
    rw [det_conjTranspose]; exact ((isUnit_iff_isUnit_det P).1 hP).star)
  have ha' : (a : ℝ) ≠ 0 := by exact_mod_cast ha.ne'
  have hb' : (b : ℝ) ≠ 0 := by exact_mod_cast hb.ne'
  set u := (∑ c, x c) / a with hu
  set v := (∑ r, y r) / b with hv
  have sx : ∑ c, (x c + -u) = 0 := sub_mean_sum x
  have sy : ∑ r, (y r + -v) = 0 := sub_mean_sum y
  have hm : (a : ℝ) * b * ∑ i, (m i - (u + v)) ≤ 0 := by
    rw [Finset.sum_sub_distrib]
    simp only [Finset.sum_const, Finset.card_univ, Fintype.card_fin, nsmul_eq_mul]
    have e1 : ∑ c, x c = a * u := by rw [hu]; field_simp
    have e2 : ∑ r, y r = b * v := by rw [hv]; field_simp
    rw [e1, e2] at hcon
    linarith
  have hray : ∀ s : ℝ, 0 ≤ s → _ := fun s hs => kronF_ray_le hM hG hQ sx sy hm
    (fun i r c h => by
      rw [conjTranspose_conjTranspose] at h
      have := hsupp i r c h
      linarith) hs
  choose A hA gA using fun s : ℝ => exists_unwhiten hG (-(s • fun c => x c + -u))
  choose B hB gB using fun s : ℝ => exists_unwhiten hQ (-(s • fun r => y r + -v))
  have gA0 : Pᴴ * A 0 * Pᴴᴴ = 1 := by rw [gA 0]; simp
  have gB0 : Q * B 0 * Qᴴ = 1 := by rw [gB 0]; simp
  have z := H Pᴴ Q (fun c => x c + -u) (fun r => y r + -v) (tylerCost X (kron (A 0)ᵀ (B 0))) A B hG hQ
    sx sy hA hB gA gB (fun s hs => by
      rw [kronF_eq X (hA 0) (hB 0) (hA s) (hB s) hG hQ _ _ gA0 gB0 (gA s) (gB s)]
      have := hray s hs
      linarith)
    (fun s => by
      rw [log_det_diff (hA 0) (hA s) hG (fun j => Real.exp_pos _) gA0 (gA s)]
      simp [← Finset.mul_sum, sx])
    (fun s => by
      rw [log_det_diff (hB 0) (hB s) hQ (fun j => Real.exp_pos _) gB0 (gB s)]
      simp [← Finset.mul_sum, sy])
  have cx : ∀ c, x c = u := fun c => by
    have := congrFun z.1 c
    simp only [Pi.zero_apply] at this
    linarith
  have cy : ∀ c, y c = v := fun c => by
    have := congrFun z.2 c
    simp only [Pi.zero_apply] at this
    linarith
  rcases hne with ⟨c, d, h⟩ | ⟨c, d, h⟩
  · exact h ((cx c).trans (cx d).symm)
  · exact h ((cy c).trans (cy d).symm)

theorem kronFixed_data {M : Fin N → Matrix (Fin b) (Fin a) 𝕜} (hM : ∀ i, M i ≠ 0)
    {A : Matrix (Fin a) (Fin a) 𝕜} {B : Matrix (Fin b) (Fin b) 𝕜} (h : KronFixed M A B) :
    KronData M := by
  refine ⟨hM, fun v hv => ?_, fun u hu => ?_⟩
  · have h1 : A *ᵥ v = 0 := by
      rw [← h.eqA, smul_mulVec, sum_mulVec]
      simp [smul_mulVec, ← mulVec_mulVec, hv]
    exact eq_zero_of_mulVec_eq_zero ((isUnit_iff_isUnit_det A).1 h.posA.isUnit).ne_zero h1
  · have h1 : B *ᵥ u = 0 := by
      rw [← h.eqB, smul_mulVec, sum_mulVec]
      simp [smul_mulVec, ← mulVec_mulVec, hu]
    exact eq_zero_of_mulVec_eq_zero ((isUnit_iff_isUnit_det B).1 h.posB.isUnit).ne_zero h1

theorem kronFixed_smul {M : Fin N → Matrix (Fin b) (Fin a) 𝕜} {A : Matrix (Fin a) (Fin a) 𝕜}
    {B : Matrix (Fin b) (Fin b) 𝕜} (h : KronFixed M A B) {s t : ℝ} (hs : 0 < s) (ht : 0 < t) :
    KronFixed M ((s : 𝕜) • A) ((t : 𝕜) • B) := by
  have hs' : (s : 𝕜) ≠ 0 := by exact_mod_cast hs.ne'
  have ht' : (t : 𝕜) ≠ 0 := by exact_mod_cast ht.ne'
  have iA : ((s : 𝕜) • A)⁻¹ = (s : 𝕜)⁻¹ • A⁻¹ := inv_smul' A (Units.mk0 _ hs')
    ((isUnit_iff_isUnit_det A).1 h.posA.isUnit)
  have iB : ((t : 𝕜) • B)⁻¹ = (t : 𝕜)⁻¹ • B⁻¹ := inv_smul' B (Units.mk0 _ ht')
    ((isUnit_iff_isUnit_det B).1 h.posB.isUnit)
  refine ⟨h.posA.smul (by exact_mod_cast hs), h.posB.smul (by exact_mod_cast ht), ?_, ?_⟩
  · conv_rhs => rw [← h.eqA, smul_comm, Finset.smul_sum]
    rw [iA, iB]
    congr 1
    refine Finset.sum_congr rfl fun i _ => ?_
    simp only [Matrix.mul_smul, Matrix.smul_mul, trace_smul, smul_smul, smul_eq_mul]
    congr 1
    field_simp
  · conv_rhs => rw [← h.eqB, smul_comm, Finset.smul_sum]
    rw [iA, iB]
    congr 1
    refine Finset.sum_congr rfl fun i _ => ?_
    simp only [Matrix.mul_smul, Matrix.smul_mul, trace_smul, smul_smul, smul_eq_mul]
    congr 1
    field_simp

/-- Conversely, samples with a stationary pair that is unique up to scale are spread out. -/
theorem kronSpread_of_unique (X : Matrix (Fin N) (Fin (a * b)) 𝕜) (hN : 0 < N) (ha : 0 < a)
    (hb : 0 < b) (h0 : ∀ i, X i ≠ 0) {A : Matrix (Fin a) (Fin a) 𝕜} {B : Matrix (Fin b) (Fin b) 𝕜}
    (hfix : KronFixed (fun i => unstack (X i)) A B)
    (huniq : ∀ A' B', KronFixed (fun i => unstack (X i)) A' B' →
      ∃ s t : ℝ, A' = (s : 𝕜) • A ∧ B' = (t : 𝕜) • B) :
    KronSpread fun i => (unstack (X i) : Matrix (Fin b) (Fin a) 𝕜) := by
  have hD := kronFixed_data (fun i => unstack_ne_zero (h0 i)) hfix
  have hmin : ∀ (A' : Matrix (Fin a) (Fin a) 𝕜) (B' : Matrix (Fin b) (Fin b) 𝕜), A'.PosDef →
      B'.PosDef → tylerCost X (kron Aᵀ B) ≤ tylerCost X (kron A'ᵀ B') := fun A' B' hA' hB' =>
    kron_fixed_minimises X hN h0 hfix.posA hfix.posB hfix.eqA hfix.eqB hA' hB'
  refine kronSpread_of_rays X hN ha hb h0 fun G H x y C A' B' hG hH sx sy hA' hB' gA gB hC dA dB => ?_
  obtain ⟨R, hR⟩ := kron_between X h0 hfix.posA hfix.posB hmin (fun A₁ B₁ hA₁ hB₁ he => by
    obtain ⟨A₂, B₂, u⟩ := kronUpdate_exists hD ha hb hA₁ hB₁
    obtain ⟨e1, e2⟩ := kron_stationary X hD ha hb hA₁ hB₁ u (he.le.trans (hmin _ _ u.posA u.posB))
    exact huniq A₁ B₁ ⟨hA₁, hB₁, e1, e2⟩) C
    (max |Real.log (RCLike.re (A' 0).det) - Real.log (RCLike.re A.det)|
      |Real.log (RCLike.re (B' 0).det) - Real.log (RCLike.re B.det)|)
  have hb := fun s (hs : 0 ≤ s) => hR (A' s) (B' s) (hA' s) (hB' s) (hC s hs)
    (by rw [dA]; exact le_max_left _ _) (by rw [dB]; exact le_max_right _ _)
  exact ⟨ray_zero gA (fun s hs => (hb s hs).1.2) sx, ray_zero gB (fun s hs => (hb s hs).2.2) sy⟩

theorem kron_mul (A C : Matrix (Fin a) (Fin a) 𝕜) (B D : Matrix (Fin b) (Fin b) 𝕜) :
    kron A B * kron C D = kron (A * C) (B * D) := by
  unfold kron
  rw [submatrix_mul_equiv, ← mul_kronecker_mul]

theorem kron_conjTranspose (A : Matrix (Fin a) (Fin a) 𝕜) (B : Matrix (Fin b) (Fin b) 𝕜) :
    (kron A B)ᴴ = kron Aᴴ Bᴴ := by
  unfold kron
  rw [conjTranspose_submatrix, conjTranspose_kronecker]

/-- Two positive functions that stay comparable have equal exponents. -/
theorem exp_compare {w v κ : ℝ} (h : ∀ s : ℝ, 0 ≤ s → Real.exp (-(s * w)) ≤ κ * Real.exp (-(s * v))) :
    v ≤ w := by
  by_contra hc
  push Not at hc
  have h1 : ∀ s : ℝ, 0 ≤ s → Real.exp (s * (v - w)) ≤ κ := fun s hs => by
    have h2 := mul_le_mul_of_nonneg_right (h s hs) (Real.exp_pos (s * v)).le
    rw [mul_assoc, ← Real.exp_add, ← Real.exp_add, neg_add_cancel, Real.exp_zero, mul_one] at h2
    rwa [show -(s * w) + s * v = s * (v - w) by ring] at h2
  have h2 : 0 ≤ κ := (Real.exp_pos _).le.trans (h1 0 le_rfl)
  have h3 := h1 (κ / (v - w)) (div_nonneg h2 (by linarith))
  rw [div_mul_cancel₀ _ (by linarith)] at h3
  linarith [Real.add_one_le_exp κ]

/-- Samples with a unique Tyler estimate are spread out. -/
theorem kronSpread_of_count (X : Matrix (Fin N) (Fin (a * b)) 𝕜) (hN : 0 < N) (ha : 0 < a)
    (hb : 0 < b) (hn : NonzeroSamples X)
    (H : ∀ V : Submodule 𝕜 (Fin (a * b) → 𝕜), V ≠ ⊥ → V ≠ ⊤ →
      a * b * samplesIn X V < N * Module.finrank 𝕜 V) :
    KronSpread fun i => (unstack (X i) : Matrix (Fin b) (Fin a) 𝕜) := by
  have hp : 0 < a * b := Nat.mul_pos ha hb
  have h0 : ∀ i, X i ≠ 0 := fun i h => hn i (by ext j; simp [sample, h])
  obtain ⟨C, e, he, hC⟩ := tyler_coercive hp X hn H
  refine kronSpread_of_rays X hN ha hb h0 fun G H x y D A B hG hH sx sy hA hB gA gB hD dA dB => ?_
  set T : Matrix (Fin (a * b)) (Fin (a * b)) 𝕜 := kron Gᴴᵀ H with hT
  have hTT : ∀ s, T * kron (A s)ᵀ (B s) * Tᴴ =
      kron (diagonal fun j => ((Real.exp ((-(s • x)) j) : ℝ) : 𝕜))
        (diagonal fun j => ((Real.exp ((-(s • y)) j) : ℝ) : 𝕜)) := fun s => by
    rw [hT, kron_conjTranspose, kron_mul, kron_mul, gB s]
    congr 1
    rw [← diagonal_transpose, ← gA s, transpose_mul, transpose_mul, Matrix.mul_assoc]
    congr 2
    ext i j
    simp
  have hent : ∀ s c r, RCLike.re ((T * kron (A s)ᵀ (B s) * Tᴴ) (finProdFinEquiv (c, r))
      (finProdFinEquiv (c, r))) = Real.exp (-(s * (x c + y r))) := fun s c r => by
    rw [hTT s]
    simp only [kron, submatrix_apply, Equiv.symm_apply_apply, kroneckerMap_apply,
      diagonal_apply_eq, ← RCLike.ofReal_mul, RCLike.ofReal_re, ← Real.exp_add]
    congr 1
    simp only [Pi.neg_apply, Pi.smul_apply, smul_eq_mul]
    ring
  have hTu : IsUnit T := by
    rw [isUnit_iff_isUnit_det, hT, det_kron, det_transpose, det_conjTranspose]
    exact (((isUnit_iff_isUnit_det G).1 hG).star.pow _).mul (((isUnit_iff_isUnit_det H).1 hH).pow _)
  set κ : Fin a → Fin b → ℝ := fun c r => RCLike.re ((T * (1 : Matrix (Fin (a * b)) (Fin (a * b)) 𝕜) * Tᴴ)
      (finProdFinEquiv (c, r))
      (finProdFinEquiv (c, r))) with hκ
  have hκ0 : ∀ c r, 0 < κ c r := fun c r => by
    have := (PosDef.one (R := 𝕜)).mul_mul_conjTranspose_same (vecMul_injective_of_isUnit hTu)
    exact (RCLike.pos_iff.1 (this.diag_pos (i := finProdFinEquiv (c, r)))).1
  have key : ∀ c r c' r', x c' + y r' ≤ x c + y r := fun c r c' r' => by
    refine exp_compare (κ := Real.exp ((D - C) / e) * κ c r / κ c' r') fun s hs => ?_
    obtain ⟨U, l, hU, hl, hm, hS⟩ := spectral_sorted (kron_posDef (transpose_posDef (hA s)) (hB s))
    have h1 := fun k => hC U hU l ⟨hl, hm⟩ k
    rw [← hS] at h1
    have h2 : ∀ k, Real.exp (-((D - C) / e)) * l ⟨0, hp⟩ ≤ l k := fun k => by
      have h3 := h1 k
      rw [← tylerCost_eq] at h3
      have h4 := hD s hs
      have h5 : Real.log (l ⟨0, hp⟩) - Real.log (l k) ≤ (D - C) / e := by
        rw [le_div_iff₀ he]
        linarith
      have h6 : Real.exp (-((D - C) / e) + Real.log (l ⟨0, hp⟩)) ≤ Real.exp (Real.log (l k)) :=
        Real.exp_le_exp.2 (by linarith)
      rwa [Real.exp_add, Real.exp_log (hl ⟨0, hp⟩), Real.exp_log (hl k)] at h6
    have u1 := loewner_diag_le ((loewner_eigen_le hU (b := l ⟨0, hp⟩) fun j =>
      hm (show (⟨0, hp⟩ : Fin (a * b)) ≤ j from Nat.zero_le _)).congr T) (finProdFinEquiv (c, r))
    have u2 := loewner_diag_le ((loewner_le_eigen hU h2).congr T) (finProdFinEquiv (c', r'))
    rw [← hS, hent, Matrix.mul_smul, Matrix.smul_mul, Matrix.smul_apply, smul_eq_mul,
      RCLike.re_ofReal_mul] at u1 u2
    change _ ≤ l ⟨0, hp⟩ * κ c r at u1
    change Real.exp (-((D - C) / e)) * l ⟨0, hp⟩ * κ c' r' ≤ _ at u2
    have u3 := mul_le_mul_of_nonneg_left u2 (Real.exp_pos ((D - C) / e)).le
    rw [← mul_assoc, ← mul_assoc, ← Real.exp_add, add_neg_cancel, Real.exp_zero, one_mul,
      ← le_div_iff₀ (hκ0 c' r')] at u3
    refine u1.trans ((mul_le_mul_of_nonneg_right u3 (hκ0 c r).le).trans (le_of_eq ?_))
    ring
  have hw : ∀ c r, x c + y r = 0 := fun c r => by
    have h1 := sum_pair x y
    rw [sx, sy, Finset.sum_congr rfl fun c' _ => Finset.sum_congr rfl fun r' _ =>
      le_antisymm (key c r c' r') (key c' r' c r)] at h1
    simp only [Finset.sum_const, Finset.card_univ, Fintype.card_fin, nsmul_eq_mul, mul_zero,
      add_zero] at h1
    rcases mul_eq_zero.1 h1 with h2 | h2
    · exact absurd h2 (by exact_mod_cast ha.ne')
    · rcases mul_eq_zero.1 h2 with h3 | h3
      · exact absurd h3 (by exact_mod_cast hb.ne')
      · exact h3
  refine ⟨nonconst_of_sum_zero sx fun c d => ?_, nonconst_of_sum_zero sy fun c d => ?_⟩
  · linarith [hw c ⟨0, hb⟩, hw d ⟨0, hb⟩]
  · linarith [hw ⟨0, ha⟩ c, hw ⟨0, ha⟩ d]

/-- One sample is never spread out. -/
theorem kronSpread_not_single {M : Fin 1 → Matrix (Fin b) (Fin a) 𝕜} (hM : M 0 ≠ 0) (ha : 0 < a)
    (hb : 0 < b) (hab : 1 < a * b) : ¬ KronSpread M := fun hS => by
  have hM' : ∀ i, M i ≠ 0 := fun i => by rw [Subsingleton.elim i 0]; exact hM
  have hD := kronSpread_data one_pos ha hb hM' hS
  rw [kronSpread_iff one_pos ha hb] at hS
  have hker : ∀ v : Fin a → 𝕜, M 0 *ᵥ v = 0 → v = 0 := fun v hv =>
    hD.cols v fun i => by rw [Subsingleton.elim i 0]; exact hv
  have hker' : ∀ u : Fin b → 𝕜, (M 0)ᴴ *ᵥ u = 0 → u = 0 := fun v hv =>
    hD.rows v fun i => by rw [Subsingleton.elim i 0]; exact hv
  have i1 : Function.Injective (M 0).mulVecLin := (injective_iff_map_eq_zero _).2 fun v hv =>
    hker v hv
  have i2 : Function.Injective ((M 0)ᴴ).mulVecLin := (injective_iff_map_eq_zero _).2 fun v hv =>
    hker' v hv
  have d1 := LinearMap.finrank_le_finrank_of_injective i1
  have d2 := LinearMap.finrank_le_finrank_of_injective i2
  simp only [Module.finrank_fin_fun] at d1 d2
  obtain rfl : a = b := le_antisymm d1 d2
  have hu : IsUnit (M 0) := mulVec_injective_iff_isUnit.1 i1
  have ha1 : 1 < a := by
    by_contra hcon
    have : a = 1 := by omega
    subst this
    simp at hab
  have h1 := hS 1 (M 0)⁻¹ (Pi.single ⟨0, ha⟩ 1) (-Pi.single ⟨0, ha⟩ 1) 0 isUnit_one
    ((isUnit_iff_isUnit_det _).2 (by
      rw [det_nonsing_inv]; exact ((isUnit_iff_isUnit_det _).1 hu).ringInverse))
    (Or.inl ⟨⟨0, ha⟩, ⟨1, ha1⟩, by simp⟩) (fun i r c h => by
      rw [Subsingleton.elim i 0, nonsing_inv_mul _ ((isUnit_iff_isUnit_det _).1 hu), Matrix.one_mul]
        at h
      have : r = c := by
        by_contra hne
        exact h (one_apply_ne hne)
      simp [this])
  simp at h1

end
end RS
