import Verif.Lemmas.KronConsist

/-! The Kronecker estimate depends continuously on the data. -/
set_option autoImplicit false

namespace RS
open Matrix ComplexOrder Filter Topology

section
variable {𝕜 : Type} [RCLike 𝕜] {N a b : ℕ}

/-- The cost in the coordinates `G`, `H`, jointly continuous in the data and the coordinates. -/
theorem kronF_data_continuousAt (X : Matrix (Fin N) (Fin (a * b)) 𝕜) (h0 : ∀ i, X i ≠ 0)
    {q : Matrix (Fin a) (Fin a) 𝕜 × Matrix (Fin b) (Fin b) 𝕜 × ((Fin a → ℝ) × (Fin b → ℝ))}
    (hG : IsUnit q.1) (hH : IsUnit q.2.1) :
    ContinuousAt (fun z : Matrix (Fin N) (Fin (a * b)) 𝕜 × (Matrix (Fin a) (Fin a) 𝕜 ×
      Matrix (Fin b) (Fin b) 𝕜 × ((Fin a → ℝ) × (Fin b → ℝ))) =>
      kronF (fun i => (unstack (z.1 i) : Matrix (Fin b) (Fin a) 𝕜)) z.2.1 z.2.2.1 z.2.2.2.1 z.2.2.2.2)
      (X, q) := by
  have hM : ∀ i, (unstack (X i) : Matrix (Fin b) (Fin a) 𝕜) ≠ 0 := fun i => unstack_ne_zero (h0 i)
  have hu : ∀ i, Continuous fun z : Matrix (Fin N) (Fin (a * b)) 𝕜 × (Matrix (Fin a) (Fin a) 𝕜 ×
      Matrix (Fin b) (Fin b) 𝕜 × ((Fin a → ℝ) × (Fin b → ℝ))) =>
      (unstack (z.1 i) : Matrix (Fin b) (Fin a) 𝕜) := fun i => by
    refine continuous_matrix fun r c => ?_
    have : ∀ x : Fin (a * b) → 𝕜, (unstack x : Matrix (Fin b) (Fin a) 𝕜) r c =
      x (finProdFinEquiv (c, r)) := fun x => rfl
    simp only [this]
    fun_prop
  unfold kronF
  refine ContinuousAt.add (ContinuousAt.mul continuousAt_const
    (tendsto_finsetSum _ fun i _ => (ContinuousAt.log ?_ ?_).sub
      (ContinuousAt.log ?_ ?_))) ?_
  · apply Continuous.continuousAt
    have := hu i
    unfold kronTau
    fun_prop
  · exact (kronTau_pos (hM i) hG hH _ fun _ _ => Real.exp_pos _).ne'
  · apply Continuous.continuousAt
    have := hu i
    unfold kronTau
    fun_prop
  · exact (kronTau_sum_pos (hM i) hG hH).ne'
  · apply Continuous.continuousAt
    fun_prop

/-- Linear growth of the cost outside a ball around the minimiser, for all data close to `X`. -/
theorem kron_growth_near (X : Matrix (Fin N) (Fin (a * b)) 𝕜) (h0 : ∀ i, X i ≠ 0)
    {A : Matrix (Fin a) (Fin a) 𝕜} {B : Matrix (Fin b) (Fin b) 𝕜} (hA : A.PosDef) (hB : B.PosDef)
    (hmin : ∀ (A' : Matrix (Fin a) (Fin a) 𝕜) (B' : Matrix (Fin b) (Fin b) 𝕜), A'.PosDef →
      B'.PosDef → tylerCost X (kron Aᵀ B) ≤ tylerCost X (kron A'ᵀ B'))
    (huniq : ∀ (A' : Matrix (Fin a) (Fin a) 𝕜) (B' : Matrix (Fin b) (Fin b) 𝕜), A'.PosDef →
      B'.PosDef → tylerCost X (kron A'ᵀ B') = tylerCost X (kron Aᵀ B) →
      ∃ s t : ℝ, A' = (s : 𝕜) • A ∧ B' = (t : 𝕜) • B) {r : ℝ} (hr : 0 < r) :
    ∃ δ : ℝ, 0 < δ ∧ ∀ᶠ Y in 𝓝 X, (∀ i, Y i ≠ 0) ∧ ∀ (G : Matrix (Fin a) (Fin a) 𝕜)
      (H : Matrix (Fin b) (Fin b) 𝕜)
      (x : Fin a → ℝ) (y : Fin b → ℝ), G * A * Gᴴ = 1 → H * B * Hᴴ = 1 → ∑ c, x c = 0 →
      ∑ r, y r = 0 → r ≤ ‖(x, y)‖ →
      δ * ‖(x, y)‖ ≤ kronF (fun i => unstack (Y i)) G H x y := by
  set K : Set (Matrix (Fin a) (Fin a) 𝕜 × Matrix (Fin b) (Fin b) 𝕜 ×
      ((Fin a → ℝ) × (Fin b → ℝ))) :=
    {G | G * A * Gᴴ = 1} ×ˢ {H | H * B * Hᴴ = 1} ×ˢ
      (Metric.sphere 0 r ∩ {z | ∑ c, z.1 c = 0 ∧ ∑ r, z.2 r = 0}) with hK
  have hKc : IsCompact K := by
    refine (isCompact_whitening hA).prod ((isCompact_whitening hB).prod
      ((isCompact_sphere _ _).inter_right ?_))
    exact (isClosed_eq (by fun_prop) continuous_const).inter
      (isClosed_eq (by fun_prop) continuous_const)
  set F : Matrix (Fin N) (Fin (a * b)) 𝕜 → (Matrix (Fin a) (Fin a) 𝕜 ×
      Matrix (Fin b) (Fin b) 𝕜 × ((Fin a → ℝ) × (Fin b → ℝ))) → ℝ := fun Y q =>
    kronF (fun i => (unstack (Y i) : Matrix (Fin b) (Fin a) 𝕜)) q.1 q.2.1 q.2.2.1 q.2.2.2 with hF
  have hpos : ∀ q ∈ K, 0 < F X q := by
    rintro ⟨G, H, x, y⟩ ⟨hG, hH, hz, hx, hy⟩
    simp only [Set.mem_ofPred_eq] at hG hH hx hy
    obtain ⟨A', hA', g2⟩ := exists_unwhiten (whitening_isUnit hG) x
    obtain ⟨B', hB', k2⟩ := exists_unwhiten (whitening_isUnit hH) y
    have e := kronF_eq X hA hB hA' hB' (whitening_isUnit hG) (whitening_isUnit hH) x y hG hH g2 k2
    have hle := hmin A' B' hA' hB'
    refine lt_of_le_of_ne (by simp only [hF]; linarith) fun h => ?_
    obtain ⟨s, t, h1, h2⟩ := huniq A' B' hA' hB' (by rw [e]; simp only [hF] at h; linarith)
    have hx0 := exp_const_zero hG g2 h1 hx
    have hy0 := exp_const_zero hH k2 h2 hy
    rw [mem_sphere_zero_iff_norm, hx0, hy0] at hz
    have : ((0 : Fin a → ℝ), (0 : Fin b → ℝ)) = 0 := rfl
    rw [this, norm_zero] at hz
    linarith
  have hcat : ∀ q ∈ K, ContinuousAt (fun z : Matrix (Fin N) (Fin (a * b)) 𝕜 × _ => F z.1 z.2) (X, q) :=
    fun q hq => kronF_data_continuousAt X h0 (whitening_isUnit hq.1) (whitening_isUnit hq.2.1)
  have hδ : ∃ δ : ℝ, 0 < δ ∧ ∀ q ∈ K, δ ≤ F X q := by
    rcases K.eq_empty_or_nonempty with he | hne
    · exact ⟨1, one_pos, fun q hq => by rw [he] at hq; exact absurd hq (Set.notMem_empty q)⟩
    · obtain ⟨q, hq, hmin⟩ := hKc.exists_isMinOn (f := F X) hne fun q hq =>
        (ContinuousAt.comp (f := fun q => (X, q)) (hcat q hq) (by fun_prop)).continuousWithinAt
      exact ⟨_, hpos q hq, fun q' hq' => hmin hq'⟩
  obtain ⟨δ, hδ0, hδ⟩ := hδ
  have hne : ∀ᶠ Y in 𝓝 X, ∀ i, Y i ≠ 0 := by
    refine eventually_all.2 fun i => ?_
    have hc : Continuous fun Y : Matrix (Fin N) (Fin (a * b)) 𝕜 => Y i := by fun_prop
    exact hc.continuousAt.eventually_ne (h0 i)
  have hev : ∀ᶠ Y in 𝓝 X, ∀ q ∈ K, δ / 2 < F Y q := by
    refine hKc.eventually_forall_of_forall_eventually fun q hq => ?_
    exact (hcat q hq).eventually (lt_mem_nhds (show δ / 2 < F X q by linarith [hδ q hq]))
  refine ⟨δ / 2 / r, by positivity, ?_⟩
  filter_upwards [hne, hev] with Y h1 h2
  refine ⟨h1, fun G H x y hG hH hx hy hn => ?_⟩
  have hn0 : (0 : ℝ) < ‖(x, y)‖ := by linarith
  set s := ‖(x, y)‖ / r with hs
  have hs1 : 1 ≤ s := (one_le_div hr).2 hn
  have hs0 : 0 < s := by linarith
  have hmem : (G, H, (s⁻¹ • x, s⁻¹ • y)) ∈ K := by
    refine ⟨hG, hH, ?_, ?_, ?_⟩
    · rw [mem_sphere_zero_iff_norm, ← Prod.smul_mk, norm_smul, norm_inv, Real.norm_of_nonneg hs0.le, hs]
      field_simp
    · simp [← Finset.mul_sum, hx]
    · simp [← Finset.mul_sum, hy]
  have h3 := h2 _ hmem
  simp only [hF] at h3
  have h4 := kronF_ray (fun i => (unstack (Y i) : Matrix (Fin b) (Fin a) 𝕜))
    (fun i => unstack_ne_zero (h1 i)) (whitening_isUnit hG) (whitening_isUnit hH) (s⁻¹ • x)
    (s⁻¹ • y) hs1
  rw [smul_smul, smul_smul, mul_inv_cancel₀ hs0.ne', one_smul, one_smul] at h4
  have h5 : δ / 2 / r * ‖(x, y)‖ = s * (δ / 2) := by rw [hs]; ring
  rw [h5]
  nlinarith

/-- Growth bounds the matrices whose cost is not much larger than that of `(A, B)`, up to the two
scales. -/
theorem kron_norm_le (Y : Matrix (Fin N) (Fin (a * b)) 𝕜) (h0 : ∀ i, Y i ≠ 0)
    {A A' : Matrix (Fin a) (Fin a) 𝕜} {B B' : Matrix (Fin b) (Fin b) 𝕜} (hA : A.PosDef)
    (hB : B.PosDef) (hA' : A'.PosDef) (hB' : B'.PosDef) {r δ C : ℝ} (hδ : 0 < δ)
    (hgrow : ∀ (G : Matrix (Fin a) (Fin a) 𝕜) (H : Matrix (Fin b) (Fin b) 𝕜)
      (x : Fin a → ℝ) (y : Fin b → ℝ), G * A * Gᴴ = 1 → H * B * Hᴴ = 1 → ∑ c, x c = 0 →
      ∑ r, y r = 0 → r ≤ ‖(x, y)‖ → δ * ‖(x, y)‖ ≤ kronF (fun i => unstack (Y i)) G H x y)
    (hC : tylerCost Y (kron A'ᵀ B') ≤ tylerCost Y (kron Aᵀ B) + C) :
    ∃ u v : ℝ, (Real.log (RCLike.re A'.det) = Real.log (RCLike.re A.det) + a * u) ∧
      (Real.log (RCLike.re B'.det) = Real.log (RCLike.re B.det) + b * v) ∧
      (Loewner (((Real.exp (-max r (C / δ)) : ℝ) : 𝕜) • A) (((Real.exp (-u) : ℝ) : 𝕜) • A') ∧
        Loewner (((Real.exp (-u) : ℝ) : 𝕜) • A') (((Real.exp (max r (C / δ)) : ℝ) : 𝕜) • A)) ∧
      (Loewner (((Real.exp (-max r (C / δ)) : ℝ) : 𝕜) • B) (((Real.exp (-v) : ℝ) : 𝕜) • B') ∧
        Loewner (((Real.exp (-v) : ℝ) : 𝕜) • B') (((Real.exp (max r (C / δ)) : ℝ) : 𝕜) • B)) := by
  obtain ⟨G, x, g1, g2⟩ := simultaneous_exp A A' hA hA'
  obtain ⟨H, y, k1, k2⟩ := simultaneous_exp B B' hB hB'
  have hG := whitening_isUnit g1
  have hH := whitening_isUnit k1
  have e := kronF_eq Y hA hB hA' hB' hG hH x y g1 k1 g2 k2
  have ld1 := log_det_diff hA hA' hG (fun j => Real.exp_pos (x j)) g1 g2
  have ld2 := log_det_diff hB hB' hH (fun j => Real.exp_pos (y j)) k1 k2
  simp only [Real.log_exp] at ld1 ld2
  have hs := kronF_shift (fun i => (unstack (Y i) : Matrix (Fin b) (Fin a) 𝕜))
    (fun i => unstack_ne_zero (h0 i)) hG hH x y (-((∑ c, x c) / a)) (-((∑ r, y r) / b))
  set x' : Fin a → ℝ := fun c => x c + -((∑ c, x c) / a) with hx'
  set y' : Fin b → ℝ := fun r => y r + -((∑ r, y r) / b) with hy'
  have hnorm : ‖(x', y')‖ ≤ max r (C / δ) := by
    rcases le_or_gt r ‖(x', y')‖ with h1 | h1
    · have h2 := hgrow G H x' y' g1 k1 (sub_mean_sum x) (sub_mean_sum y) h1
      rw [hs] at h2
      refine le_max_of_le_right ?_
      rw [le_div_iff₀ hδ]
      linarith
    · exact le_max_of_le_left h1.le
  have mean : ∀ {n : ℕ} (z : Fin n → ℝ), (n : ℝ) * ((∑ c, z c) / n) = ∑ c, z c := fun {n} z => by
    rcases Nat.eq_zero_or_pos n with h | h
    · subst h; simp
    · have : (n : ℝ) ≠ 0 := by exact_mod_cast h.ne'
      field_simp
  have sc : ∀ {n : ℕ} {G A' : Matrix (Fin n) (Fin n) 𝕜} {x : Fin n → ℝ} (u : ℝ),
      G * A' * Gᴴ = diagonal (fun j => ((Real.exp (x j) : ℝ) : 𝕜)) →
      G * (((Real.exp (-u) : ℝ) : 𝕜) • A') * Gᴴ =
        diagonal (fun j => ((Real.exp (x j + -u) : ℝ) : 𝕜)) := fun {n} {G} {A'} {x} u h => by
    rw [Matrix.mul_smul, Matrix.smul_mul, h, ← diagonal_smul]
    congr 1
    funext j
    simp only [Pi.smul_apply, smul_eq_mul]
    rw [← RCLike.ofReal_mul, ← Real.exp_add, add_comm]
  refine ⟨(∑ c, x c) / a, (∑ r, y r) / b, by rw [ld1, mean], by rw [ld2, mean],
    whitened_between hG g1 (sc _ g2) fun c => ?_, whitened_between hH k1 (sc _ k2) fun c => ?_⟩
  · rw [← Real.norm_eq_abs]
    exact ((norm_le_pi_norm x' c).trans (norm_fst_le (x', y'))).trans hnorm
  · rw [← Real.norm_eq_abs]
    exact ((norm_le_pi_norm y' c).trans (norm_snd_le (x', y'))).trans hnorm

/-- Growth around one pair makes the samples spread out. -/
theorem kronSpread_of_growth (Y : Matrix (Fin N) (Fin (a * b)) 𝕜) (hN : 0 < N) (ha : 0 < a)
    (hb : 0 < b) (h0 : ∀ i, Y i ≠ 0) {A : Matrix (Fin a) (Fin a) 𝕜} {B : Matrix (Fin b) (Fin b) 𝕜}
    (hA : A.PosDef) (hB : B.PosDef) {r δ : ℝ} (hδ : 0 < δ)
    (hgrow : ∀ (G : Matrix (Fin a) (Fin a) 𝕜) (H : Matrix (Fin b) (Fin b) 𝕜)
      (x : Fin a → ℝ) (y : Fin b → ℝ), G * A * Gᴴ = 1 → H * B * Hᴴ = 1 → ∑ c, x c = 0 →
      ∑ r, y r = 0 → r ≤ ‖(x, y)‖ → δ * ‖(x, y)‖ ≤ kronF (fun i => unstack (Y i)) G H x y) :
    KronSpread fun i => (unstack (Y i) : Matrix (Fin b) (Fin a) 𝕜) := by
  have ha' : (a : ℝ) ≠ 0 := by exact_mod_cast ha.ne'
  have hb' : (b : ℝ) ≠ 0 := by exact_mod_cast hb.ne'
  refine kronSpread_of_rays Y hN ha hb h0 fun G H x y C A' B' hG hH sx sy hA' hB' gA gB hC dA dB => ?_
  set R := max r ((C - tylerCost Y (kron Aᵀ B)) / δ) with hR
  have key := fun s (hs : 0 ≤ s) => kron_norm_le Y h0 hA hB (hA' s) (hB' s) hδ hgrow
    (C := C - tylerCost Y (kron Aᵀ B)) (by have := hC s hs; linarith)
  obtain ⟨u, v, hu, hv, -, -⟩ := key 0 le_rfl
  have un : ∀ {n : ℕ} {u R : ℝ} {S T : Matrix (Fin n) (Fin n) 𝕜},
      Loewner (((Real.exp (-u) : ℝ) : 𝕜) • S) (((Real.exp R : ℝ) : 𝕜) • T) →
      Loewner S (((Real.exp (u + R) : ℝ) : 𝕜) • T) := fun {n} {u} {R} {S} {T} h => by
    have h1 := h.smul (Real.exp_pos u).le
    rw [smul_smul, smul_smul, ← RCLike.ofReal_mul, ← RCLike.ofReal_mul, ← Real.exp_add,
      ← Real.exp_add, add_neg_cancel, Real.exp_zero, RCLike.ofReal_one, one_smul] at h1
    exact h1
  constructor
  · refine ray_zero (T := A) (R := u + R) gA (fun s hs => ?_) sx
    obtain ⟨u', v', hu', hv', h1, h2⟩ := key s hs
    rw [dA, hu, add_right_inj] at hu'
    have : u = u' := mul_left_cancel₀ ha' hu'
    subst this
    exact un h1.2
  · refine ray_zero (T := B) (R := v + R) gB (fun s hs => ?_) sy
    obtain ⟨u', v', hu', hv', h1, h2⟩ := key s hs
    rw [dB, hv, add_right_inj] at hv'
    have : v = v' := mul_left_cancel₀ hb' hv'
    subst this
    exact un h2.2

theorem kronSpread_min_unique (X : Matrix (Fin N) (Fin (a * b)) 𝕜) (hN : 0 < N) (ha : 0 < a)
    (hb : 0 < b) (h0 : ∀ i, X i ≠ 0)
    (hS : KronSpread fun i => (unstack (X i) : Matrix (Fin b) (Fin a) 𝕜))
    {A : Matrix (Fin a) (Fin a) 𝕜} {B : Matrix (Fin b) (Fin b) 𝕜}
    (hfix : KronFixed (fun i => unstack (X i)) A B) :
    (∀ (A' : Matrix (Fin a) (Fin a) 𝕜) (B' : Matrix (Fin b) (Fin b) 𝕜), A'.PosDef →
      B'.PosDef → tylerCost X (kron Aᵀ B) ≤ tylerCost X (kron A'ᵀ B')) ∧
    (∀ (A' : Matrix (Fin a) (Fin a) 𝕜) (B' : Matrix (Fin b) (Fin b) 𝕜), A'.PosDef →
      B'.PosDef → tylerCost X (kron A'ᵀ B') = tylerCost X (kron Aᵀ B) →
      ∃ s t : ℝ, A' = (s : 𝕜) • A ∧ B' = (t : 𝕜) • B) :=
  ⟨fun _ _ hA' hB' => kron_fixed_minimises X hN h0 hfix.posA hfix.posB hfix.eqA hfix.eqB hA' hB',
    fun _ _ hA' hB' he => kronSpread_unique X hN ha hb h0 hS hfix.posA hfix.posB hfix.eqA hfix.eqB
      hA' hB' he.le⟩

/-- All data close to spread-out data are spread out, and the shapes of their stationary pairs are
close. -/
theorem kron_data_near (X : Matrix (Fin N) (Fin (a * b)) 𝕜) (hN : 0 < N) (ha : 0 < a)
    (hb : 0 < b) (h0 : ∀ i, X i ≠ 0)
    (hS : KronSpread fun i => (unstack (X i) : Matrix (Fin b) (Fin a) 𝕜))
    {A : Matrix (Fin a) (Fin a) 𝕜} {B : Matrix (Fin b) (Fin b) 𝕜}
    (hfix : KronFixed (fun i => unstack (X i)) A B) {ε : ℝ} (hε : 0 < ε) :
    ∀ᶠ Y in 𝓝 X, (∀ i, Y i ≠ 0) ∧ KronSpread (fun i => (unstack (Y i) : Matrix (Fin b) (Fin a) 𝕜)) ∧
      ∀ A' B', KronFixed (fun i => unstack (Y i)) A' B' →
        frob (unitTrace A' - unitTrace A) < ε ∧ frob (unitTrace B' - unitTrace B) < ε := by
  obtain ⟨hmin, huniq⟩ := kronSpread_min_unique X hN ha hb h0 hS hfix
  -- neighbourhoods of A and B
  have nb : ∀ {n : ℕ} (S : Matrix (Fin n) (Fin n) 𝕜), S.PosDef → 0 < n → ∃ r : ℝ, 0 < r ∧
      ∀ (T : Matrix (Fin n) (Fin n) 𝕜) (u : ℝ), Loewner (((Real.exp (-r) : ℝ) : 𝕜) • S)
        (((Real.exp (-u) : ℝ) : 𝕜) • T) → Loewner (((Real.exp (-u) : ℝ) : 𝕜) • T)
        (((Real.exp r : ℝ) : 𝕜) • S) → frob (unitTrace T - unitTrace S) < ε := by
    intro n S hS hn
    have h1 : ∀ᶠ T in 𝓝 S, frob (unitTrace T - unitTrace S) < ε :=
      frob_eventually (unitTrace_continuousAt (trace_ne_zero_of_posDef hS hn)).tendsto hε
    obtain ⟨η, hη, h2⟩ := nhds_entries h1
    have ht : 0 ≤ RCLike.re S.trace := (RCLike.nonneg_iff.1 hS.posSemidef.trace_nonneg).1
    have hc : Tendsto (fun e : ℝ => 3 * e * RCLike.re S.trace) (𝓝[>] 0) (𝓝 0) := by
      have : Tendsto (fun e : ℝ => 3 * e * RCLike.re S.trace) (𝓝 0) (𝓝 (3 * 0 * RCLike.re S.trace)) :=
        Continuous.tendsto (by fun_prop) 0
      simp only [mul_zero, zero_mul] at this
      exact this.mono_left nhdsWithin_le_nhds
    obtain ⟨e, he1, he0⟩ := ((hc.eventually (gt_mem_nhds hη)).and self_mem_nhdsWithin).exists
    have he0' : 0 < e := he0
    refine ⟨Real.log (1 + e), Real.log_pos (by linarith), fun T u h3 h4 => ?_⟩
    rw [Real.exp_neg, Real.exp_log (by linarith)] at h3
    rw [Real.exp_log (by linarith)] at h4
    have h5 := frob_squeeze hS he0'.le h3 h4
    have h6 := h2 (((Real.exp (-u) : ℝ) : 𝕜) • T) fun i j =>
      (norm_entry_le _ i j).trans_lt (h5.trans_lt he1)
    rwa [unitTrace_smul T (by exact_mod_cast (Real.exp_pos (-u)).ne')] at h6
  obtain ⟨r₁, hr1, n1⟩ := nb A hfix.posA ha
  obtain ⟨r₂, hr2, n2⟩ := nb B hfix.posB hb
  obtain ⟨δ, hδ, hev⟩ := kron_growth_near X h0 hfix.posA hfix.posB hmin huniq (lt_min hr1 hr2)
  filter_upwards [hev] with Y hY
  refine ⟨hY.1, kronSpread_of_growth Y hN ha hb hY.1 hfix.posA hfix.posB hδ hY.2, fun A' B' hf => ?_⟩
  have hle := kron_fixed_minimises Y hN hY.1 hf.posA hf.posB hf.eqA hf.eqB hfix.posA hfix.posB
  obtain ⟨u, v, -, -, h1, h2⟩ := kron_norm_le Y hY.1 hfix.posA hfix.posB hf.posA hf.posB hδ hY.2
    (C := 0) (by linarith)
  rw [zero_div, max_eq_left (lt_min hr1 hr2).le] at h1 h2
  have up : ∀ {n : ℕ} {S T : Matrix (Fin n) (Fin n) 𝕜} {r r' : ℝ}, S.PosDef → r ≤ r' →
      Loewner T (((Real.exp r : ℝ) : 𝕜) • S) → Loewner T (((Real.exp r' : ℝ) : 𝕜) • S) :=
    fun hS hr h => h.trans (loewner_smul_le hS.posSemidef (Real.exp_le_exp.2 hr))
  have down : ∀ {n : ℕ} {S T : Matrix (Fin n) (Fin n) 𝕜} {r r' : ℝ}, S.PosDef → r ≤ r' →
      Loewner (((Real.exp (-r) : ℝ) : 𝕜) • S) T → Loewner (((Real.exp (-r') : ℝ) : 𝕜) • S) T :=
    fun hS hr h => (loewner_smul_le hS.posSemidef (Real.exp_le_exp.2 (neg_le_neg hr))).trans h
  exact ⟨n1 A' u (down hfix.posA (min_le_left _ _) h1.1) (up hfix.posA (min_le_left _ _) h1.2),
    n2 B' v (down hfix.posB (min_le_right _ _) h2.1) (up hfix.posB (min_le_right _ _) h2.2)⟩

end
end RS
