import Verif.Lemmas.Breakdown

/-! A bound on the condition number of Tyler's estimate that holds for all replacements of a few
samples. -/
set_option autoImplicit false

namespace RS
open Matrix ComplexOrder Filter Topology

section
variable {𝕜 : Type} [RCLike 𝕜] {N p : ℕ}

/-- A fixed point in the coordinates of its eigenvectors. -/
theorem fixed_eigen {w : ℝ → ℝ} (hN : 0 < N) (X : Matrix (Fin N) (Fin p) 𝕜)
    {U : Matrix (Fin p) (Fin p) 𝕜} {l : Fin p → ℝ} (hU : Uᴴ * U = 1) (hl : ∀ j, 0 < l j)
    (hfix : mStep w X (U * diagonal (fun j => (l j : 𝕜)) * Uᴴ) =
      U * diagonal (fun j => (l j : 𝕜)) * Uᴴ) (t : Fin p) :
    ∑ i, w (∑ s, ‖(Uᴴ *ᵥ sample X i) s‖ ^ 2 / l s) * (‖(Uᴴ *ᵥ sample X i) t‖ ^ 2 / l t) = N := by
  have hN' : (N : ℝ) ≠ 0 := by exact_mod_cast hN.ne'
  set Q := U * diagonal (fun j => (l j : 𝕜)) * Uᴴ with hQ
  have h1 := scatter_quad (fun i => w (qf Q (sample X i))) X (U *ᵥ Pi.single t 1)
  have h2 : scatter (fun i => w (qf Q (sample X i))) X = Q := hfix
  have h3 : star (U *ᵥ Pi.single t 1) ⬝ᵥ (Q *ᵥ (U *ᵥ Pi.single t 1)) = (l t : 𝕜) := by
    rw [hQ, mulVec_mulVec, Matrix.mul_assoc, hU, Matrix.mul_one, star_mulVec, ← dotProduct_mulVec,
      mulVec_mulVec, ← Matrix.mul_assoc, hU, Matrix.one_mul, diagonal_mulVec_single, Pi.star_single]
    simp
  have h4 : ∀ i, ‖star (sample X i) ⬝ᵥ (U *ᵥ Pi.single t 1)‖ = ‖(Uᴴ *ᵥ sample X i) t‖ := fun i => by
    have : star (star (sample X i) ⬝ᵥ (U *ᵥ Pi.single t 1)) = (Uᴴ *ᵥ sample X i) t := by
      rw [star_dotProduct, star_star, star_mulVec, ← dotProduct_mulVec]
      simp
    rw [← this, norm_star]
  rw [h2, h3] at h1
  have h5 : l t = (N : ℝ)⁻¹ * ∑ i, w (qf Q (sample X i)) * ‖(Uᴴ *ᵥ sample X i) t‖ ^ 2 := by
    have := RCLike.ofReal_injective h1
    rw [this]
    simp only [h4]
  simp only [← eigen_qf hU hl, ← mul_div_assoc]
  rw [← Finset.sum_div, div_eq_iff (hl t).ne']
  conv_rhs => rw [h5]
  rw [← mul_assoc, mul_inv_cancel₀ hN', one_mul]

/-- Eigenvectors, eigenvalues and scaled samples of a Tyler fixed point. -/
structure TylerShape (J : Finset (Fin N)) (X : Matrix (Fin N) (Fin p) 𝕜) (hp : 0 < p)
    (U : Matrix (Fin p) (Fin p) 𝕜) (l : Fin p → ℝ) (Y : Matrix (Fin N) (Fin p) 𝕜) : Prop where
  unitary : Uᴴ * U = 1
  pos : ∀ j, 0 < l j
  anti : Antitone l
  first : l ⟨0, hp⟩ = 1
  same : ∀ i, i ∉ J → sample Y i = sample X i
  unit : ∀ i ∈ J, ∑ j, ‖sample Y i j‖ ^ 2 = 1
  eq : ∀ t, ∑ i, p / (∑ s, ‖(Uᴴ *ᵥ sample Y i) s‖ ^ 2 / l s) * (‖(Uᴴ *ᵥ sample Y i) t‖ ^ 2 / l t) = N

theorem tylerShape_exists (hN : 0 < N) (hp : 0 < p) {J : Finset (Fin N)}
    {X X' : Matrix (Fin N) (Fin p) 𝕜} (hX' : ∀ i, i ∉ J → sample X' i = sample X i)
    (hn : NonzeroSamples X') {Q : Matrix (Fin p) (Fin p) 𝕜} (hQ : Q.PosDef)
    (hfix : mStep (wTyler p) X' Q = Q) :
    ∃ U l Y, TylerShape J X hp U l Y ∧ ∀ κ : ℝ, 1 ≤ κ * l ⟨p - 1, by omega⟩ →
      ∃ a : ℝ, 0 < a ∧ Loewner ((a : 𝕜) • 1) Q ∧ Loewner Q (((κ * a : ℝ) : 𝕜) • 1) := by
  classical
  obtain ⟨U, l, hU, hl, hm, h⟩ := spectral_sorted hQ
  set l₀ := l ⟨0, hp⟩ with hl₀
  have hl0 : 0 < l₀ := hl _
  have hq : ∀ i, 0 < ∑ j, ‖sample X' i j‖ ^ 2 := fun i => by
    have := qf_pos PosDef.one (hn i)
    rwa [qf_one] at this
  set s : Fin N → ℝ := fun i => if i ∈ J then (Real.sqrt (∑ j, ‖sample X' i j‖ ^ 2))⁻¹ else 1 with hs
  have hs0 : ∀ i, 0 < s i := fun i => by
    simp only [hs]
    split_ifs
    · exact inv_pos.2 (Real.sqrt_pos.2 (hq i))
    · exact one_pos
  set Y : Matrix (Fin N) (Fin p) 𝕜 := Matrix.of fun i j => (s i : 𝕜) * X' i j with hY
  have hYi : ∀ i, sample Y i = (s i : 𝕜) • sample X' i := fun i => rfl
  refine ⟨U, fun j => l j / l₀, Y, ⟨hU, fun j => div_pos (hl j) hl0, fun a b hab =>
    div_le_div_of_nonneg_right (hm hab) hl0.le, div_self hl0.ne', fun i hi => ?_, fun i hi => ?_,
    fun t => ?_⟩, fun κ hκ => ?_⟩
  · rw [hYi, ← hX' i hi]
    simp [hs, hi]
  · have e : ∀ j, ‖sample Y i j‖ ^ 2 = s i ^ 2 * ‖sample X' i j‖ ^ 2 := fun j => by
      rw [hYi, Pi.smul_apply, smul_eq_mul, norm_mul, mul_pow, RCLike.norm_ofReal, sq_abs]
    simp only [e]
    rw [← Finset.mul_sum]
    simp only [hs, if_pos hi]
    rw [inv_pow, Real.sq_sqrt (hq i).le, inv_mul_cancel₀ (hq i).ne']
  · rw [h] at hfix
    rw [← fixed_eigen hN X' hU hl hfix t]
    refine Finset.sum_congr rfl fun i _ => ?_
    have e : ∀ k, ‖(Uᴴ *ᵥ sample Y i) k‖ ^ 2 / (l k / l₀) =
        (s i ^ 2 * l₀) * (‖(Uᴴ *ᵥ sample X' i) k‖ ^ 2 / l k) := fun k => by
      rw [hYi, mulVec_smul, Pi.smul_apply, smul_eq_mul, norm_mul, mul_pow, RCLike.norm_ofReal, sq_abs]
      have := (hl k).ne'
      field_simp
    simp only [e]
    rw [← Finset.mul_sum, wTyler]
    have hc : s i ^ 2 * l₀ ≠ 0 := by have := hs0 i; positivity
    rw [div_mul_eq_mul_div, div_mul_eq_mul_div, mul_left_comm, mul_div_mul_left _ _ hc]
  · refine ⟨l ⟨p - 1, by omega⟩, hl _, ?_, ?_⟩
    · have := loewner_le_eigen (𝕜 := 𝕜) hU (l := l) (b := l ⟨p - 1, by omega⟩)
        fun j => hm (by rw [Fin.le_def]; simp; omega)
      rwa [← h] at this
    · have := loewner_eigen_le (𝕜 := 𝕜) hU (l := l) (b := κ * l ⟨p - 1, by omega⟩) fun j => by
        refine (hm (show (⟨0, hp⟩ : Fin p) ≤ j by rw [Fin.le_def]; simp)).trans ?_
        rw [← mul_div_assoc, one_le_div hl0] at hκ
        exact hκ
      rwa [← h] at this

theorem coord_tendsto {U : ℕ → Matrix (Fin p) (Fin p) 𝕜} {Y : ℕ → Matrix (Fin N) (Fin p) 𝕜}
    {U' : Matrix (Fin p) (Fin p) 𝕜} {Y' : Matrix (Fin N) (Fin p) 𝕜}
    (hU : Tendsto U atTop (𝓝 U')) (hY : Tendsto Y atTop (𝓝 Y')) (i : Fin N) (t : Fin p) :
    Tendsto (fun k => ‖((U k)ᴴ *ᵥ sample (Y k) i) t‖ ^ 2) atTop
      (𝓝 (‖(U'ᴴ *ᵥ sample Y' i) t‖ ^ 2)) := by
  have hUe : ∀ s t, Tendsto (fun k => U k s t) atTop (𝓝 (U' s t)) := fun s t =>
    tendsto_pi_nhds.1 (tendsto_pi_nhds.1 hU s) t
  have hYe : ∀ i s, Tendsto (fun k => Y k i s) atTop (𝓝 (Y' i s)) := fun i s =>
    tendsto_pi_nhds.1 (tendsto_pi_nhds.1 hY i) s
  refine (Tendsto.norm ?_).pow 2
  have h := tendsto_finsetSum Finset.univ fun s _ => ((hUe s t).star).mul (hYe i s)
  simpa only [mulVec, dotProduct, conjTranspose_apply, sample] using h

/-- A limit of Tyler shapes whose last eigenvalue vanishes has samples that crowd in a subspace. -/
theorem tylerShape_crowd (hp : 0 < p) {J : Finset (Fin N)}
    (X : Matrix (Fin N) (Fin p) 𝕜) (U : ℕ → Matrix (Fin p) (Fin p) 𝕜) (l : ℕ → Fin p → ℝ)
    (Y : ℕ → Matrix (Fin N) (Fin p) 𝕜) (h : ∀ k, TylerShape J X hp (U k) (l k) (Y k))
    {U' : Matrix (Fin p) (Fin p) 𝕜} {l' : Fin p → ℝ} {Y' : Matrix (Fin N) (Fin p) 𝕜}
    (hU : Tendsto U atTop (𝓝 U')) (hl : Tendsto l atTop (𝓝 l')) (hY : Tendsto Y atTop (𝓝 Y'))
    (hl'last : l' ⟨p - 1, by omega⟩ = 0) :
    ∃ V : Submodule 𝕜 (Fin p → 𝕜), (∀ i, i ∉ J → sample Y' i = sample X i) ∧ V ≠ ⊥ ∧ V ≠ ⊤ ∧
      N * Module.finrank 𝕜 V ≤ p * samplesIn Y' V := by
  classical
  have hlj : ∀ j, Tendsto (fun k => l k j) atTop (𝓝 (l' j)) := fun j =>
    tendsto_pi_nhds.1 hl j
  have hU' : U'ᴴ * U' = 1 := by
    have hc : Continuous fun U : Matrix (Fin p) (Fin p) 𝕜 => Uᴴ * U := by fun_prop
    have h1 := (hc.tendsto U').comp hU
    exact tendsto_nhds_unique h1 (tendsto_const_nhds.congr fun k => ((h k).unitary).symm)
  have hl'0 : ∀ j, 0 ≤ l' j := fun j => ge_of_tendsto' (hlj j) fun k => ((h _).pos j).le
  have hl'first : l' ⟨0, hp⟩ = 1 :=
    tendsto_nhds_unique (hlj _) (tendsto_const_nhds.congr fun k => ((h k).first).symm)
  have hl'anti : Antitone l' := fun a b hab =>
    le_of_tendsto_of_tendsto' (hlj b) (hlj a) fun k => (h _).anti hab
  -- the first eigenvalue that vanishes in the limit
  have hex : (Finset.univ.filter fun j => l' j = 0).Nonempty :=
    ⟨⟨p - 1, by omega⟩, by simp [hl'last]⟩
  have hjmem := Finset.min'_mem _ hex
  have hjmin := fun k hk => Finset.min'_le (Finset.univ.filter fun j => l' j = 0) k hk
  set j := Finset.min' _ hex
  simp only [Finset.mem_filter, Finset.mem_univ, true_and] at hjmem hjmin
  have hj0 : (j : ℕ) ≠ 0 := fun e => by
    have : j = ⟨0, hp⟩ := Fin.ext e
    rw [this, hl'first] at hjmem
    exact one_ne_zero hjmem
  have hjpos : ∀ t, t < j → 0 < l' t := fun t ht =>
    lt_of_le_of_ne (hl'0 t) fun e => absurd (hjmin t e.symm) (not_le.2 ht)
  have hjzero : ∀ t, j ≤ t → l' t = 0 := fun t ht =>
    le_antisymm ((hl'anti ht).trans hjmem.le) (hl'0 t)
  refine ⟨flagSpace U' j, fun i hi => ?_, flagSpace_ne_bot hU' hj0, flagSpace_ne_top hU' j, ?_⟩
  · have hc : Continuous fun Z : Matrix (Fin N) (Fin p) 𝕜 => sample Z i := by
      unfold sample; fun_prop
    exact tendsto_nhds_unique ((hc.tendsto Y').comp hY)
      (tendsto_const_nhds.congr fun k => ((h k).same i hi).symm)
  -- the share of sample `i` in the first `j` directions
  set y : ℕ → Fin N → Fin p → ℝ := fun k i t => ‖((U k)ᴴ *ᵥ sample (Y k) i) t‖ ^ 2 with hy
  have hy0 : ∀ k i t, 0 ≤ y k i t := fun k i t => sq_nonneg _
  have hylim : ∀ i t, Tendsto (fun k => y k i t) atTop (𝓝 (‖(U'ᴴ *ᵥ sample Y' i) t‖ ^ 2)) := fun i t => by
    exact coord_tendsto hU hY i t
  set L : ℕ → Fin p → ℝ := fun k => l k with hL
  have hLpos : ∀ k t, 0 < L k t := fun k t => (h _).pos t
  set ρ : ℕ → Fin N → ℝ := fun k i => (∑ t, if t < j then y k i t / L k t else 0) /
    ∑ s, y k i s / L k s with hρ
  have hle : ∀ k i, (∑ t, if t < j then y k i t / L k t else 0) ≤ ∑ s, y k i s / L k s := fun k i =>
    Finset.sum_le_sum fun t _ => by
      split_ifs
      · exact le_rfl
      · exact div_nonneg (hy0 k i t) (hLpos k t).le
  have hsum0 : ∀ k i, 0 ≤ ∑ t, if t < j then y k i t / L k t else 0 := fun k i =>
    Finset.sum_nonneg fun t _ => by
      split_ifs
      · exact div_nonneg (hy0 k i t) (hLpos k t).le
      · exact le_rfl
  have hρ1 : ∀ k i, ρ k i ≤ 1 := fun k i => div_le_one_of_le₀ (hle k i) ((hsum0 k i).trans (hle k i))
  have hρsum : ∀ k, p * ∑ i, ρ k i = N * j := fun k => by
    have h1 := fun t => (h k).eq t
    have h2 : ∑ t, (if t < j then (N : ℝ) else 0) = N * j := by
      rw [← Finset.sum_filter, Finset.sum_const, nsmul_eq_mul, mul_comm]
      congr 2
      have : (Finset.univ.filter fun t => t < j) = Finset.Iio j := by ext; simp
      rw [this, Fin.card_Iio]
    rw [← h2]
    have h3 : ∀ t, (if t < j then (N : ℝ) else 0) =
        ∑ i, (if t < j then p / (∑ s, y k i s / L k s) * (y k i t / L k t) else 0) := fun t => by
      split_ifs
      · exact (h1 t).symm
      · simp
    simp only [h3]
    rw [Finset.sum_comm, Finset.mul_sum]
    refine Finset.sum_congr rfl fun i _ => ?_
    simp only [hρ]
    rw [← mul_div_assoc, mul_div_right_comm, Finset.mul_sum]
    exact Finset.sum_congr rfl fun t _ => by split_ifs <;> simp
  -- samples outside the limit space lose their share
  have hρ0 : ∀ i, sample Y' i ∉ flagSpace U' j → Tendsto (fun k => ρ k i) atTop (𝓝 0) := fun i hi => by
    rw [mem_flagSpace] at hi
    push Not at hi
    obtain ⟨t₀, ht₀, hne⟩ := hi
    have hlim1 : Tendsto (fun k => L k t₀ * (∑ t, if t < j then y k i t / L k t else 0) / y k i t₀) atTop
        (𝓝 (l' t₀ * (∑ t, if t < j then ‖(U'ᴴ *ᵥ sample Y' i) t‖ ^ 2 / l' t else 0) /
          ‖(U'ᴴ *ᵥ sample Y' i) t₀‖ ^ 2)) := by
      refine Tendsto.div ((hlj t₀).mul (tendsto_finsetSum _ fun t _ => ?_)) (hylim i t₀)
        (pow_ne_zero 2 (norm_ne_zero_iff.2 hne))
      split_ifs with ht
      · exact (hylim i t).div (hlj t) (hjpos t ht).ne'
      · exact tendsto_const_nhds
    rw [hjzero t₀ ht₀, zero_mul, zero_div] at hlim1
    have hev : ∀ᶠ k in atTop, 0 < y k i t₀ :=
      (hylim i t₀).eventually_const_lt (pow_pos (norm_pos_iff.2 hne) 2)
    refine squeeze_zero' (Eventually.of_forall fun k => div_nonneg (hsum0 k i) ((hsum0 k i).trans (hle k i)))
      ?_ hlim1
    filter_upwards [hev] with k hk
    have h1 : y k i t₀ / L k t₀ ≤ ∑ s, y k i s / L k s :=
      Finset.single_le_sum (f := fun s => y k i s / L k s)
        (fun s _ => div_nonneg (hy0 k i s) (hLpos k s).le) (Finset.mem_univ t₀)
    calc ρ k i ≤ (∑ t, if t < j then y k i t / L k t else 0) / (y k i t₀ / L k t₀) :=
          div_le_div_of_nonneg_left (hsum0 k i) (div_pos hk (hLpos k t₀)) h1
      _ = _ := by
        have := (hLpos k t₀).ne'
        field_simp
  have hfin : (N : ℝ) * j ≤ p * samplesIn Y' (flagSpace U' j) := by
    have hlim2 : Tendsto (fun k => p * ∑ i, (if sample Y' i ∈ flagSpace U' j then (1 : ℝ) else ρ k i)) atTop
        (𝓝 (p * ∑ i, (if sample Y' i ∈ flagSpace U' j then (1 : ℝ) else 0))) := by
      refine tendsto_const_nhds.mul (tendsto_finsetSum _ fun i _ => ?_)
      split_ifs with hi
      · exact tendsto_const_nhds
      · exact hρ0 i hi
    rw [Finset.sum_boole, ← samplesIn_eq] at hlim2
    refine ge_of_tendsto' hlim2 fun k => ?_
    rw [← hρsum k]
    apply mul_le_mul_of_nonneg_left _ (Nat.cast_nonneg p)
    refine Finset.sum_le_sum fun i _ => ?_
    split_ifs
    · exact hρ1 k i
    · exact le_rfl
  have hfin' : N * (j : ℕ) ≤ p * samplesIn Y' (flagSpace U' j) := by exact_mod_cast hfin
  exact (Nat.mul_le_mul_left N (flagSpace_finrank hU' j)).trans hfin'

/-- Tyler shapes with smaller and smaller last eigenvalue have a limit whose samples crowd in a
subspace. -/
theorem tylerShape_limit (hp : 0 < p) {J : Finset (Fin N)}
    (X : Matrix (Fin N) (Fin p) 𝕜) (U : ℕ → Matrix (Fin p) (Fin p) 𝕜) (l : ℕ → Fin p → ℝ)
    (Y : ℕ → Matrix (Fin N) (Fin p) 𝕜) (h : ∀ k, TylerShape J X hp (U k) (l k) (Y k))
    (hlast : ∀ k : ℕ, ((k : ℝ) + 1) * l k ⟨p - 1, by omega⟩ ≤ 1) :
    ∃ (Y' : Matrix (Fin N) (Fin p) 𝕜) (V : Submodule 𝕜 (Fin p → 𝕜)),
      (∀ i, i ∉ J → sample Y' i = sample X i) ∧ V ≠ ⊥ ∧ V ≠ ⊤ ∧
      N * Module.finrank 𝕜 V ≤ p * samplesIn Y' V := by
  classical
  -- extract a convergent subsequence
  set B : ℝ := 1 + ∑ i, ∑ j, ‖X i j‖ with hB
  have hBX : ∀ i j, ‖X i j‖ ≤ B := fun i j => by
    have h1 := Finset.single_le_sum (f := fun j => ‖X i j‖) (fun k _ => norm_nonneg _)
      (Finset.mem_univ j)
    have h2 := Finset.single_le_sum (f := fun i => ∑ j, ‖X i j‖)
      (fun k _ => Finset.sum_nonneg fun j _ => norm_nonneg _) (Finset.mem_univ i)
    linarith
  have hB1 : 1 ≤ B := by
    have : 0 ≤ ∑ i, ∑ j, ‖X i j‖ := Finset.sum_nonneg fun i _ => Finset.sum_nonneg fun j _ => norm_nonneg _
    linarith
  have : FirstCountableTopology (Matrix (Fin p) (Fin p) 𝕜) :=
    inferInstanceAs (FirstCountableTopology (Fin p → Fin p → 𝕜))
  have : FirstCountableTopology (Matrix (Fin N) (Fin p) 𝕜) :=
    inferInstanceAs (FirstCountableTopology (Fin N → Fin p → 𝕜))
  have hK1 : IsCompact {U : Matrix (Fin p) (Fin p) 𝕜 | Uᴴ * U = 1} := isCompact_unitary
  have hK2 : IsCompact (Set.univ.pi fun _ : Fin p => Set.Icc (0 : ℝ) 1) :=
    isCompact_univ_pi fun _ => isCompact_Icc
  have hK3 : IsCompact {Z : Matrix (Fin N) (Fin p) 𝕜 | ∀ i j, ‖Z i j‖ ≤ B} := by
    have h1 : IsCompact (Set.univ.pi fun _ : Fin N => Set.univ.pi fun _ : Fin p =>
        Metric.closedBall (0 : 𝕜) B) :=
      isCompact_univ_pi fun i => isCompact_univ_pi fun j => isCompact_closedBall 0 B
    have h2 : {Z : Fin N → Fin p → 𝕜 | ∀ i j, ‖Z i j‖ ≤ B} = Set.univ.pi fun _ : Fin N =>
        Set.univ.pi fun _ : Fin p => Metric.closedBall (0 : 𝕜) B := by
      ext Z
      simp [Set.mem_pi]
    rw [← h2] at h1
    exact h1
  have hl1 : ∀ k j, l k j ≤ 1 := fun k j => by
    rw [← (h k).first]
    exact (h k).anti (by rw [Fin.le_def]; simp)
  obtain ⟨⟨U', l', Y'⟩, -, φ, hφ, hlim⟩ := (hK1.prod (hK2.prod hK3)).tendsto_subseq
    (x := fun k => (U k, l k, Y k)) fun k => by
      refine ⟨(h k).unitary, fun j _ => ⟨((h k).pos j).le, hl1 k j⟩, fun i j => ?_⟩
      by_cases hi : i ∈ J
      · have h1 := Finset.single_le_sum (f := fun j => ‖sample (Y k) i j‖ ^ 2) (fun k _ => sq_nonneg _)
          (Finset.mem_univ j)
        simp only [(h k).unit i hi] at h1
        exact ((sq_le_one_iff₀ (norm_nonneg _)).1 h1).trans hB1
      · have h1 := congrFun ((h k).same i hi) j
        exact (congrArg norm h1).trans_le (hBX i j)
  have hU : Tendsto (fun k => U (φ k)) atTop (𝓝 U') := (continuous_fst.tendsto _).comp hlim
  have hl : Tendsto (fun k => l (φ k)) atTop (𝓝 l') :=
    ((continuous_fst.comp continuous_snd).tendsto _).comp hlim
  have hY : Tendsto (fun k => Y (φ k)) atTop (𝓝 Y') :=
    ((continuous_snd.comp continuous_snd).tendsto _).comp hlim
  have hlj := tendsto_pi_nhds.1 hl ⟨p - 1, by omega⟩
  have hl'last : l' ⟨p - 1, by omega⟩ = 0 := by
    refine le_antisymm ?_ (ge_of_tendsto' hlj fun k => ((h _).pos _).le)
    refine le_of_tendsto_of_tendsto' hlj
      ((tendsto_one_div_add_atTop_nhds_zero_nat (𝕜 := ℝ)).comp hφ.tendsto_atTop) fun k => ?_
    have h1 := hlast (φ k)
    rw [Function.comp, le_div_iff₀ (by positivity)]
    linarith
  obtain ⟨V, hV⟩ := tylerShape_crowd hp X _ _ _ (fun k => h (φ k)) hU hl hY hl'last
  exact ⟨Y', V, hV⟩

/-- One bound on the condition number of Tyler's estimate for all replacements of `m` samples. -/
theorem tyler_bounded (hp : 0 < p) (hN : 0 < N) (X : Matrix (Fin N) (Fin p) 𝕜) {m : ℕ}
    (H : ∀ V : Submodule 𝕜 (Fin p → 𝕜), V ≠ ⊥ → V ≠ ⊤ →
      p * (samplesIn X V + m) < N * Module.finrank 𝕜 V) :
    ∃ κ : ℝ, 0 < κ ∧ ∀ X', Contaminated m X X' → NonzeroSamples X' →
      ∀ Q : Matrix (Fin p) (Fin p) 𝕜, Q.PosDef → mStep (wTyler p) X' Q = Q →
        ∃ a : ℝ, 0 < a ∧ Loewner ((a : 𝕜) • 1) Q ∧ Loewner Q (((κ * a : ℝ) : 𝕜) • 1) := by
  classical
  have key : ∀ J : Finset (Fin N), ∃ κ : ℝ, J.card ≤ m → ∀ X' : Matrix (Fin N) (Fin p) 𝕜,
      (∀ i, i ∉ J → sample X' i = sample X i) → NonzeroSamples X' →
      ∀ Q : Matrix (Fin p) (Fin p) 𝕜, Q.PosDef → mStep (wTyler p) X' Q = Q →
        ∃ a : ℝ, 0 < a ∧ Loewner ((a : 𝕜) • 1) Q ∧ Loewner Q (((κ * a : ℝ) : 𝕜) • 1) := by
    intro J
    by_contra hcon
    push Not at hcon
    have hJ : J.card ≤ m := (hcon 0).1
    have hseq : ∀ k : ℕ, ∃ U l Y, TylerShape J X hp U l Y ∧ ((k : ℝ) + 1) * l ⟨p - 1, by omega⟩ ≤ 1 :=
      fun k => by
        obtain ⟨-, X', hX', hn, Q, hQ, hfix, hno⟩ := hcon (k + 1)
        obtain ⟨U, l, Y, h1, h2⟩ := tylerShape_exists hN hp hX' hn hQ hfix
        refine ⟨U, l, Y, h1, le_of_not_ge fun h3 => ?_⟩
        obtain ⟨a, ha, h4, h5⟩ := h2 _ h3
        exact hno a ha h4 h5
    choose U l Y h1 h2 using hseq
    obtain ⟨Y', V, h3, h4, h5, h6⟩ := tylerShape_limit hp X U l Y h1 h2
    have h7 := samplesIn_contaminated ⟨J, hJ, h3⟩ V
    have h8 := H V h4 h5
    have h9 := Nat.mul_le_mul_left p h7
    omega
  choose κ hκ using key
  obtain ⟨M, hM⟩ : ∃ M : ℝ, ∀ J, κ J ≤ M := by
    obtain ⟨M, hM⟩ := (Set.finite_range κ).bddAbove
    exact ⟨M, fun J => hM ⟨J, rfl⟩⟩
  refine ⟨max M 1, lt_max_of_lt_right one_pos, ?_⟩
  rintro X' ⟨J, hJ, hX'⟩ hn Q hQ hfix
  obtain ⟨a, ha, h1, h2⟩ := hκ J hJ X' hX' hn Q hQ hfix
  refine ⟨a, ha, h1, h2.trans (loewner_smul_le PosSemidef.one ?_)⟩
  exact mul_le_mul_of_nonneg_right ((hM J).trans (le_max_left _ _)) ha.le

theorem loewner_of_eigenLe {b : ℝ} {Q : Matrix (Fin p) (Fin p) 𝕜} (hQ : Q.IsHermitian)
    (h : EigenLe b Q) : Loewner Q ((b : 𝕜) • 1) := by
  have hH : ((b : 𝕜) • (1 : Matrix (Fin p) (Fin p) 𝕜) - Q).IsHermitian := by
    refine IsHermitian.sub ?_ hQ
    rw [IsHermitian, conjTranspose_smul, conjTranspose_one, RCLike.star_def, RCLike.conj_ofReal]
  refine posSemidef_iff_dotProduct_mulVec.2 ⟨hH, fun v => ?_⟩
  refine RCLike.nonneg_iff.2 ⟨?_, hH.im_star_dotProduct_mulVec_self v⟩
  rw [sub_mulVec, dotProduct_sub, smul_mulVec, one_mulVec, dotProduct_smul, nsq_dot, smul_eq_mul,
    ← RCLike.ofReal_mul, map_sub, RCLike.ofReal_re]
  have := h v
  linarith

theorem loewner_of_eigenGe {a : ℝ} {Q : Matrix (Fin p) (Fin p) 𝕜} (hQ : Q.IsHermitian)
    (h : EigenGe a Q) : Loewner ((a : 𝕜) • 1) Q := by
  have hH : (Q - (a : 𝕜) • (1 : Matrix (Fin p) (Fin p) 𝕜)).IsHermitian := by
    refine IsHermitian.sub hQ ?_
    rw [IsHermitian, conjTranspose_smul, conjTranspose_one, RCLike.star_def, RCLike.conj_ofReal]
  refine posSemidef_iff_dotProduct_mulVec.2 ⟨hH, fun v => ?_⟩
  refine RCLike.nonneg_iff.2 ⟨?_, hH.im_star_dotProduct_mulVec_self v⟩
  rw [sub_mulVec, dotProduct_sub, smul_mulVec, one_mulVec, dotProduct_smul, nsq_dot, smul_eq_mul,
    ← RCLike.ofReal_mul, map_sub, RCLike.ofReal_re]
  have := h v
  linarith

theorem contaminated_scaleRows (J : Finset (Fin N)) {m : ℕ} (hJ : J.card ≤ m) (r : ℝ)
    (X : Matrix (Fin N) (Fin p) 𝕜) : Contaminated m X (scaleRows J r X) :=
  ⟨J, hJ, fun _ hi => scaleRows_not_mem r X hi⟩

theorem contaminated_putRows (J : Finset (Fin N)) {m : ℕ} (hJ : J.card ≤ m) (y : Fin p → 𝕜)
    (X : Matrix (Fin N) (Fin p) 𝕜) : Contaminated m X (putRows J y X) :=
  ⟨J, hJ, fun _ hi => putRows_not_mem y X hi⟩

/-- Both conditions leave enough samples. -/
theorem enough_samples {nu : ℝ} (hnu : 0 < nu) (hp : 0 < p) (hN : p < N) {m : ℕ}
    (hm : m * (nu + p) < N) (hm' : m * (nu + p) < nu * N) : p + m < N := by
  rcases Nat.eq_zero_or_pos m with rfl | hm1
  · omega
  · by_contra hcon
    push Not at hcon
    have h1 : (N : ℝ) ≤ p + m := by exact_mod_cast hcon
    have h2 : (1 : ℝ) ≤ m := by exact_mod_cast hm1
    have h3 : (0 : ℝ) < p := by exact_mod_cast hp
    have h4 : (m : ℝ) < nu := by
      have : m * (nu + p) < nu * (p + m) := hm'.trans_le (mul_le_mul_of_nonneg_left h1 hnu.le)
      by_contra h5
      push Not at h5
      nlinarith
    nlinarith

/-- The number of wrong samples that a Student-t estimate withstands. -/
theorem student_breakdown {nu : ℝ} (hnu : 0 < nu) (hp : 0 < p) {X : Matrix (Fin N) (Fin p) 𝕜}
    (hX : GeneralPosition X) (hN : p < N) (m : ℕ) :
    (∃ a b : ℝ, 0 < a ∧ 0 < b ∧ ∀ X', Contaminated m X X' → ∃ Q : Matrix (Fin p) (Fin p) 𝕜,
      Q.PosDef ∧ mStep (wStudent nu p) X' Q = Q ∧ EigenGe a Q ∧ EigenLe b Q) ↔
    m * (nu + p) < N ∧ m * (nu + p) < nu * N := by
  classical
  have hp' : (0 : ℝ) < p := by exact_mod_cast hp
  have hN' : (0 : ℝ) < N := by exact_mod_cast (hp.trans hN)
  constructor
  · rintro ⟨a, b, ha, hb, h⟩
    have hlow : ∀ J : Finset (Fin N), J.card ≤ m → ¬ nu * N ≤ J.card * (nu + p) := fun J hJ hcon => by
      obtain ⟨r, hr, hr'⟩ := student_implodes hnu X (hp.trans hN) hcon hp ha
      obtain ⟨Q, hQ, hfix, h1, -⟩ := h _ (contaminated_scaleRows J hJ r X)
      exact hr' r hr le_rfl Q hQ hfix (loewner_of_eigenGe hQ.isHermitian h1)
    have hmN : m < N := by
      by_contra hcon
      push Not at hcon
      apply hlow Finset.univ (by simpa using hcon)
      rw [Finset.card_univ, Fintype.card_fin, mul_comm]
      exact mul_le_mul_of_nonneg_left (by linarith) hN'.le
    obtain ⟨J, -, hJ⟩ := Finset.exists_subset_card_eq (s := (Finset.univ : Finset (Fin N))) (n := m)
      (by simpa using hmN.le)
    refine ⟨lt_of_not_ge fun hcon => ?_, lt_of_not_ge fun hcon => hlow J hJ.le (by rwa [hJ])⟩
    obtain ⟨i₀, hi₀⟩ : ∃ i₀, i₀ ∉ J := by
      by_contra hall
      push Not at hall
      have : J = Finset.univ := Finset.eq_univ_iff_forall.2 hall
      rw [this, Finset.card_univ, Fintype.card_fin] at hJ
      omega
    obtain ⟨r, hr, hr'⟩ := student_explodes hnu X hp (J := J) (by rwa [hJ]) hi₀
      (generalPosition_nonzero hX hp i₀) hb
    obtain ⟨Q, hQ, hfix, -, h1⟩ := h _ (contaminated_putRows J hJ.le ((r : 𝕜) • sample X i₀) X)
    exact hr' r le_rfl Q hQ hfix (loewner_of_eigenLe hQ.isHermitian h1)
  · rintro ⟨h1, h2⟩
    obtain ⟨b, hb, hb'⟩ := student_upper hnu hp X h1
    obtain ⟨a, ha, ha'⟩ := student_lower hnu hp hX (enough_samples hnu hp hN h1 h2) h2
    refine ⟨a, b, ha, hb, fun X' hX' => ?_⟩
    obtain ⟨Q, hQ, hfix⟩ := student_exists hnu hp X'
      (student_exists_contaminated hnu hX hN.le h1 h2 hX')
    exact ⟨Q, hQ, hfix, eigenGe_of_loewner (ha' X' hX' Q hQ hfix),
      eigenLe_of_loewner (hb' X' hX' Q hQ hfix)⟩

theorem tyler_count_contaminated {X : Matrix (Fin N) (Fin p) 𝕜} (hX : GeneralPosition X) {m : ℕ}
    (hm : p * (m + 1) < N) (V : Submodule 𝕜 (Fin p → 𝕜)) (h0 : V ≠ ⊥) (h1 : V ≠ ⊤) :
    p * (samplesIn X V + m) < N * Module.finrank 𝕜 V := by
  have hd : 0 < Module.finrank 𝕜 V := Nat.pos_of_ne_zero fun e => h0 (Submodule.finrank_eq_zero.1 e)
  have h2 := hX V h1
  have h3 : samplesIn X V + m ≤ (m + 1) * Module.finrank 𝕜 V := by nlinarith
  calc p * (samplesIn X V + m) ≤ p * ((m + 1) * Module.finrank 𝕜 V) := Nat.mul_le_mul_left p h3
    _ = p * (m + 1) * Module.finrank 𝕜 V := by ring
    _ < N * Module.finrank 𝕜 V := Nat.mul_lt_mul_of_pos_right hm hd

/-- Copies of one sample leave no Tyler estimate. -/
theorem tyler_copies (hp : 1 < p) {X : Matrix (Fin N) (Fin p) 𝕜}
    (hX : GeneralPosition X) (hN : p < N) {J : Finset (Fin N)} (hm : N ≤ p * (J.card + 1))
    {i₀ : Fin N} (hi₀ : i₀ ∉ J) {Q : Matrix (Fin p) (Fin p) 𝕜} (hQ : Q.PosDef)
    (hfix : mStep (wTyler p) (putRows J (sample X i₀) X) Q = Q) : False := by
  classical
  have hn := generalPosition_nonzero hX (by omega : 0 < p)
  set X' := putRows J (sample X i₀) X with hX'
  have hn' : NonzeroSamples X' := fun i => by
    by_cases hi : i ∈ J
    · rw [hX', putRows_mem _ _ hi]; exact hn i₀
    · rw [hX', putRows_not_mem _ _ hi]; exact hn i
  set V := Submodule.span 𝕜 {sample X i₀} with hV
  have hx : sample X i₀ ∈ V := Submodule.mem_span_singleton_self _
  have hd : Module.finrank 𝕜 V = 1 := finrank_span_singleton (hn i₀)
  have hcard : J.card + 1 ≤ samplesIn X' V := by
    rw [samplesIn_eq, ← Finset.card_insert_of_notMem hi₀]
    refine Finset.card_le_card fun i hi => ?_
    rw [Finset.mem_filter]
    refine ⟨Finset.mem_univ _, ?_⟩
    rcases Finset.mem_insert.1 hi with rfl | hi
    · rw [hX', putRows_not_mem _ _ hi₀]; exact hx
    · rw [hX', putRows_mem _ _ hi]; exact hx
  have hge : N ≤ p * samplesIn X' V := hm.trans (Nat.mul_le_mul_left p hcard)
  rcases tyler_count (by omega) X' hn' hQ hfix V with h | ⟨h, P, hPP, hPV, hPx⟩
  · rw [hd] at h; omega
  · rw [hd, mul_one] at h
    -- the other samples lie in the kernel of `P`
    set W := LinearMap.ker (Matrix.mulVecLin P) with hW
    have hWtop : W ≠ ⊤ := fun e => by
      have h1 : sample X i₀ ∈ W := by rw [e]; trivial
      rw [hW, LinearMap.mem_ker, mulVecLin_apply, (hPV _).1 hx] at h1
      exact hn i₀ h1
    have h2 : N ≤ samplesIn X' V + samplesIn X W := by
      rw [samplesIn_eq, samplesIn_eq]
      have : (Finset.univ : Finset (Fin N)) ⊆ (Finset.univ.filter fun i => sample X' i ∈ V) ∪
          (Finset.univ.filter fun i => sample X i ∈ W) := fun i _ => by
        rw [Finset.mem_union, Finset.mem_filter, Finset.mem_filter]
        rcases hPx i with h3 | h3
        · exact Or.inl ⟨Finset.mem_univ _, (hPV _).2 h3⟩
        · by_cases hi : i ∈ J
          · left
            rw [hX', putRows_mem _ _ hi]
            exact ⟨Finset.mem_univ _, hx⟩
          · right
            rw [hX', putRows_not_mem _ _ hi] at h3
            exact ⟨Finset.mem_univ _, h3⟩
      have h4 := (Finset.card_le_card this).trans (Finset.card_union_le _ _)
      simpa using h4
    have h3 := hX W hWtop
    have h4 := finrank_lt_p hWtop
    set s := samplesIn X' V
    -- `(p - 1) s <= p - 1`, hence `s <= 1` and `N <= p`
    have h5 : s ≤ 1 := by
      by_contra hc
      push Not at hc
      nlinarith
    nlinarith

/-- The number of wrong samples that Tyler's estimate withstands. -/
theorem tyler_breakdown (hp : 1 < p) {X : Matrix (Fin N) (Fin p) 𝕜}
    (hX : GeneralPosition X) (hN : p < N) (m : ℕ) :
    (∃ κ : ℝ, 0 < κ ∧ ∀ X', Contaminated m X X' → NonzeroSamples X' →
      ∃ Q : Matrix (Fin p) (Fin p) 𝕜, Q.PosDef ∧ mStep (wTyler p) X' Q = Q ∧
        ∃ a : ℝ, 0 < a ∧ EigenGe a Q ∧ EigenLe (κ * a) Q) ↔ p * (m + 1) < N := by
  classical
  constructor
  · rintro ⟨κ, -, h⟩
    by_contra hcon
    push Not at hcon
    obtain ⟨J, -, hJ⟩ := Finset.exists_subset_card_eq (s := (Finset.univ : Finset (Fin N)))
      (n := min m (N - 1)) (by simp)
    obtain ⟨i₀, hi₀⟩ : ∃ i₀, i₀ ∉ J := by
      by_contra hall
      push Not at hall
      have : J = Finset.univ := Finset.eq_univ_iff_forall.2 hall
      rw [this, Finset.card_univ, Fintype.card_fin] at hJ
      omega
    have hn := generalPosition_nonzero hX (by omega : 0 < p)
    obtain ⟨Q, hQ, hfix, -⟩ := h _ (contaminated_putRows J (by omega) (sample X i₀) X) fun i => by
      by_cases hi : i ∈ J
      · rw [putRows_mem _ _ hi]; exact hn i₀
      · rw [putRows_not_mem _ _ hi]; exact hn i
    refine tyler_copies hp hX hN (J := J) ?_ hi₀ hQ hfix
    rw [hJ]
    rcases le_total m (N - 1) with h1 | h1
    · rw [min_eq_left h1]; exact hcon
    · rw [min_eq_right h1, Nat.sub_add_cancel (by omega)]
      nlinarith
  · intro hm
    obtain ⟨κ, hκ, hb⟩ := tyler_bounded (by omega) (by omega) X (tyler_count_contaminated hX hm)
    refine ⟨κ, hκ, fun X' hX' hn' => ?_⟩
    obtain ⟨Q, hQ, hfix⟩ := tyler_exists (by omega) (by omega) X' hn' fun V h0 h1 =>
      lt_of_le_of_lt (Nat.mul_le_mul_left p (samplesIn_contaminated hX' V))
        (tyler_count_contaminated hX hm V h0 h1)
    obtain ⟨a, ha, h1, h2⟩ := hb X' hX' hn' Q hQ hfix
    exact ⟨Q, hQ, hfix, a, ha, eigenGe_of_loewner h1, eigenLe_of_loewner h2⟩

/-- One step of the Huber iteration keeps the full weight of a far sample. -/
theorem huber_step_large {lbda beta : ℝ} (hb : 0 < beta) (X : Matrix (Fin N) (Fin p) 𝕜)
    (S : Matrix (Fin p) (Fin p) 𝕜) (i : Fin N) :
    beta / N * (∑ j, ‖sample X i j‖ ^ 2) ^ 2 ≤
      RCLike.re (star (sample X i) ⬝ᵥ (mStep (wHuber lbda beta) X S *ᵥ sample X i)) := by
  rw [mStep, scatter_quad, RCLike.ofReal_re, div_eq_inv_mul, mul_assoc]
  apply mul_le_mul_of_nonneg_left _ (inv_nonneg.2 (Nat.cast_nonneg N))
  have h1 := Finset.single_le_sum (f := fun k => wHuber lbda beta (qf S (sample X k)) *
      ‖star (sample X k) ⬝ᵥ sample X i‖ ^ 2)
    (fun k _ => mul_nonneg (mul_nonneg hb.le (zero_le_one.trans (le_max_left _ _))) (sq_nonneg _))
    (Finset.mem_univ i)
  refine le_trans ?_ h1
  rw [nsq_dot, RCLike.norm_ofReal, sq_abs]
  apply mul_le_mul_of_nonneg_right _ (sq_nonneg _)
  have : beta * 1 ≤ wHuber lbda beta (qf S (sample X i)) :=
    mul_le_mul_of_nonneg_left (le_max_left _ _) hb.le
  linarith

/-- One step of the Huber iteration is bounded below by the samples that were not replaced. -/
theorem huber_step_lower (hp : 0 < p) {X : Matrix (Fin N) (Fin p) 𝕜} (hX : GeneralPosition X) {m : ℕ}
    (hm : p + m ≤ N) {beta : ℝ} (hb : 0 < beta) (lbda : ℝ) :
    ∃ a : ℝ, 0 < a ∧ ∀ X', Contaminated m X X' → ∀ S : Matrix (Fin p) (Fin p) 𝕜,
      Loewner ((a : 𝕜) • 1) (mStep (wHuber lbda beta) X' S) := by
  classical
  have key : ∀ J : Finset (Fin N), ∃ a : ℝ, 0 < a ∧ (J.card ≤ m → ∀ X' : Matrix (Fin N) (Fin p) 𝕜,
      (∀ i, i ∉ J → sample X' i = sample X i) → ∀ S : Matrix (Fin p) (Fin p) 𝕜,
        Loewner ((a : 𝕜) • 1) (mStep (wHuber lbda beta) X' S)) := by
    intro J
    by_cases hJm : J.card ≤ m
    · have hJ : Jᶜ.card = N - J.card := by rw [Finset.card_compl, Fintype.card_fin]
      have hg := generalPosition_restrict hX (Jᶜ.orderEmbOfFin hJ).injective
      have hsp := student_spans _ (generalPosition_student hg (by omega) one_pos)
      have hT := scatter_posDef (fun _ => beta) (fun _ => hb) _ hsp
      obtain ⟨l, r, hl, -, h1, -⟩ := extreme_factors hp (S := (1 : Matrix (Fin p) (Fin p) 𝕜))
        PosDef.one hT
      have hn : 0 < N - J.card := by omega
      have hn' : (0 : ℝ) < ((N - J.card : ℕ) : ℝ) := by exact_mod_cast hn
      have hN' : (0 : ℝ) < N := by exact_mod_cast (by omega : 0 < N)
      refine ⟨((N - J.card : ℕ) : ℝ) / N * l, by positivity, fun _ X' hX' S => ?_⟩
      have h2 := scatter_restrict hn hJ X X' hX' (fun i => if i ∈ J then 0 else beta)
        (fun i hi => if_pos hi)
      have e : (fun k => if Jᶜ.orderEmbOfFin hJ k ∈ J then (0 : ℝ) else beta) = fun _ => beta := by
        funext k
        exact if_neg (Finset.mem_compl.mp (Finset.orderEmbOfFin_mem Jᶜ hJ k))
      rw [e] at h2
      have h3 := h1.smul (c := ((N - J.card : ℕ) : ℝ) / N) (by positivity)
      rw [smul_smul, ← RCLike.ofReal_mul, ← h2] at h3
      refine h3.trans (scatter_mono (fun i => ?_) X')
      have h4 : beta * 1 ≤ wHuber lbda beta (qf S (sample X' i)) :=
        mul_le_mul_of_nonneg_left (le_max_left _ _) hb.le
      split_ifs
      · linarith
      · linarith
    · exact ⟨1, one_pos, fun h => absurd h hJm⟩
  choose a ha hall using key
  obtain ⟨e, he, hemin⟩ := exists_pos_le a
  refine ⟨e, he, ?_⟩
  rintro X' ⟨J, hJ, hX'⟩ S
  exact (loewner_smul_le PosSemidef.one (hemin J (ha J))).trans (hall J hJ X' hX' S)

end
end RS
