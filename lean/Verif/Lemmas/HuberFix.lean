import Verif.Lemmas.Exist
import Mathlib.Analysis.Calculus.Deriv.MeanValue
import Mathlib.Analysis.SpecialFunctions.Log.Deriv

/-! Existence and uniqueness of the fixed point for weights that grow with the quadratic form. -/
set_option autoImplicit false

namespace RS
open Matrix ComplexOrder Filter Topology

section
variable {𝕜 : Type} [RCLike 𝕜] {N p : ℕ}

/-! ### Uniqueness -/

/-- The quantity compared between two fixed points, for one sample. -/
theorem mono_pair {u : ℝ → ℝ} (hm : Monotone u) (hu : ∀ t, 0 < u t) (t l : Fin p → ℝ)
    (ht : ∀ j, 0 ≤ t j) (hl : ∀ j, 0 < l j) :
    u (∑ j, t j / l j) * ∑ j, Real.log (l j) * (t j / l j) ≤
      u (∑ j, t j) * ∑ j, Real.log (l j) * t j ∧
    (u (∑ j, t j / l j) * ∑ j, Real.log (l j) * (t j / l j) =
      u (∑ j, t j) * ∑ j, Real.log (l j) * t j → ∀ j, t j = 0 ∨ l j = 1) := by
  set d0 := ∑ j, t j with hd0
  set d1 := ∑ j, t j / l j with hd1
  set a0 := ∑ j, Real.log (l j) * t j with ha0
  set a1 := ∑ j, Real.log (l j) * (t j / l j) with ha1
  have hterm : ∀ j, 0 ≤ Real.log (l j) * t j - Real.log (l j) * (t j / l j) := fun j => by
    have e : Real.log (l j) * t j - Real.log (l j) * (t j / l j) =
        (t j / l j) * (Real.log (l j) * (l j - 1)) := by
      have := (hl j).ne'
      field_simp
    rw [e]
    refine mul_nonneg (div_nonneg (ht j) (hl j).le) ?_
    rcases le_total 1 (l j) with h | h
    · exact mul_nonneg (Real.log_nonneg h) (by linarith)
    · exact mul_nonneg_of_nonpos_of_nonpos (Real.log_nonpos (hl j).le h) (by linarith)
  have hdiff : a0 - a1 = ∑ j, (Real.log (l j) * t j - Real.log (l j) * (t j / l j)) := by
    rw [Finset.sum_sub_distrib]
  have h01 : a1 ≤ a0 := by
    have := Finset.sum_nonneg fun j (_ : j ∈ Finset.univ) => hterm j
    linarith
  have hA : d1 - d0 ≤ -a1 := by
    rw [hd1, hd0, ha1, ← Finset.sum_sub_distrib, ← Finset.sum_neg_distrib]
    refine Finset.sum_le_sum fun j _ => ?_
    have h1 := Real.log_le_sub_one_of_pos (hl j)
    have h2 : t j = (t j / l j) * l j := by rw [div_mul_cancel₀ _ (hl j).ne']
    have h3 := div_nonneg (ht j) (hl j).le
    nlinarith
  have hB : -a0 ≤ d1 - d0 := by
    rw [hd1, hd0, ha0, ← Finset.sum_sub_distrib, ← Finset.sum_neg_distrib]
    refine Finset.sum_le_sum fun j _ => ?_
    have h1 := Real.log_le_sub_one_of_pos (inv_pos.2 (hl j))
    rw [Real.log_inv] at h1
    rw [div_eq_mul_inv]
    nlinarith [ht j]
  have hu0 := hu d0
  have hu1 := hu d1
  have key : u d1 * a1 ≤ u d0 * a0 ∧ (u d1 * a1 = u d0 * a0 → a0 = a1) := by
    rcases le_or_gt 0 a1 with h | h
    · have h1 : u d1 ≤ u d0 := hm (by linarith)
      have h2 : u d1 * a1 ≤ u d0 * a1 := mul_le_mul_of_nonneg_right h1 h
      have h3 : u d0 * a1 ≤ u d0 * a0 := mul_le_mul_of_nonneg_left h01 hu0.le
      exact ⟨h2.trans h3, fun e => mul_left_cancel₀ hu0.ne' (le_antisymm (by linarith) h3)⟩
    · rcases le_or_gt 0 a0 with h' | h'
      · have h1 : u d1 * a1 < 0 := mul_neg_of_pos_of_neg hu1 h
        have h2 : 0 ≤ u d0 * a0 := mul_nonneg hu0.le h'
        exact ⟨by linarith, fun e => by linarith⟩
      · have h1 : u d0 ≤ u d1 := hm (by linarith)
        have h2 : u d1 * a1 ≤ u d0 * a1 := mul_le_mul_of_nonpos_right h1 h.le
        have h3 : u d0 * a1 ≤ u d0 * a0 := mul_le_mul_of_nonneg_left h01 hu0.le
        exact ⟨h2.trans h3, fun e => mul_left_cancel₀ hu0.ne' (le_antisymm (by linarith) h3)⟩
  refine ⟨key.1, fun e j => ?_⟩
  have h0 : ∑ j, (Real.log (l j) * t j - Real.log (l j) * (t j / l j)) = 0 := by
    rw [← hdiff, key.2 e, sub_self]
  have hj := (Finset.sum_eq_zero_iff_of_nonneg fun j _ => hterm j).1 h0 j (Finset.mem_univ j)
  by_contra hcon
  push Not at hcon
  have e : Real.log (l j) * t j - Real.log (l j) * (t j / l j) =
      (t j / l j) * (Real.log (l j) * (l j - 1)) := by
    have := (hl j).ne'
    field_simp
  rw [e] at hj
  have h1 : t j / l j ≠ 0 := div_ne_zero hcon.1 (hl j).ne'
  have h2 : Real.log (l j) ≠ 0 := Real.log_ne_zero_of_pos_of_ne_one (hl j) hcon.2
  exact mul_ne_zero h1 (mul_ne_zero h2 (sub_ne_zero.2 hcon.2)) hj

/-- The diagonal of a scatter matrix in another basis. -/
theorem scatter_diag (w : Fin N → ℝ) (X : Matrix (Fin N) (Fin p) 𝕜) (G : Matrix (Fin p) (Fin p) 𝕜)
    (j : Fin p) : (G * scatter w X * Gᴴ) j j =
      (((N : ℝ)⁻¹ * ∑ i, w i * ‖(G *ᵥ sample X i) j‖ ^ 2 : ℝ) : 𝕜) := by
  have e4 : ∀ i, (X * Gᵀ) i j = (G *ᵥ sample X i) j := fun i => congrFun (sample_mul X G i) j
  rw [← scatter_mul, scatter_apply]
  simp only [e4, RCLike.star_def, RCLike.mul_conj]
  push_cast
  rfl

theorem mono_unique {u : ℝ → ℝ} (hm : Monotone u) (hu : ∀ t, 0 < u t) (hp : 0 < p)
    (X : Matrix (Fin N) (Fin p) 𝕜) {S T : Matrix (Fin p) (Fin p) 𝕜} (hS : S.PosDef) (hT : T.PosDef)
    (hfS : mStep u X S = S) (hfT : mStep u X T = T) : S = T := by
  obtain ⟨G, l, hG, hl, h1, h2⟩ := simultaneous T S hT hS
  set y : Fin N → Fin p → 𝕜 := fun i => G *ᵥ sample X i with hy
  have hqT : ∀ i, qf T (sample X i) = ∑ j, ‖y i j‖ ^ 2 := fun i => by
    rw [← qf_congr G hG T (sample X i), h1, qf_one]
  have hqS : ∀ i, qf S (sample X i) = ∑ j, ‖y i j‖ ^ 2 / l j := fun i => by
    rw [← qf_congr G hG S (sample X i), h2, qf_diagonal l hl]
  have hdT : ∀ j, (N : ℝ)⁻¹ * ∑ i, u (qf T (sample X i)) * ‖y i j‖ ^ 2 = 1 := fun j => by
    have e := scatter_diag (fun i => u (qf T (sample X i))) X G j
    have e' : scatter (fun i => u (qf T (sample X i))) X = T := hfT
    rw [e', h1, Matrix.one_apply_eq] at e
    exact_mod_cast e.symm
  have hdS : ∀ j, (N : ℝ)⁻¹ * ∑ i, u (qf S (sample X i)) * ‖y i j‖ ^ 2 = l j := fun j => by
    have e := scatter_diag (fun i => u (qf S (sample X i))) X G j
    have e' : scatter (fun i => u (qf S (sample X i))) X = S := hfS
    rw [e', h2, diagonal_apply_eq] at e
    exact_mod_cast e.symm
  have hN : (N : ℝ) ≠ 0 := fun h0 => by
    have := hdT ⟨0, hp⟩
    rw [h0] at this
    simp at this
  have hdT' : ∀ j, ∑ i, u (qf T (sample X i)) * ‖y i j‖ ^ 2 = N := fun j => by
    have := hdT j
    field_simp at this
    exact this
  have hdS' : ∀ j, ∑ i, u (qf S (sample X i)) * ‖y i j‖ ^ 2 = N * l j := fun j => by
    have := hdS j
    field_simp at this
    exact this
  have hsT : ∑ i, u (qf T (sample X i)) * ∑ j, Real.log (l j) * ‖y i j‖ ^ 2 =
      N * ∑ j, Real.log (l j) := by
    simp only [Finset.mul_sum]
    rw [Finset.sum_comm]
    refine Finset.sum_congr rfl fun j _ => ?_
    rw [← hdT' j, Finset.sum_mul]
    exact Finset.sum_congr rfl fun i _ => by ring
  have hsS : ∑ i, u (qf S (sample X i)) * ∑ j, Real.log (l j) * (‖y i j‖ ^ 2 / l j) =
      N * ∑ j, Real.log (l j) := by
    simp only [Finset.mul_sum]
    rw [Finset.sum_comm]
    refine Finset.sum_congr rfl fun j _ => ?_
    have : (N : ℝ) = (∑ i, u (qf S (sample X i)) * ‖y i j‖ ^ 2) / l j := by
      rw [hdS' j, mul_div_cancel_right₀ _ (hl j).ne']
    rw [this, Finset.sum_div, Finset.sum_mul]
    exact Finset.sum_congr rfl fun i _ => by ring
  have hpair := fun i => mono_pair hm hu (fun j => ‖y i j‖ ^ 2) l (fun j => sq_nonneg _) hl
  have hz : ∑ i, (u (qf T (sample X i)) * ∑ j, Real.log (l j) * ‖y i j‖ ^ 2 -
      u (qf S (sample X i)) * ∑ j, Real.log (l j) * (‖y i j‖ ^ 2 / l j)) = 0 := by
    rw [Finset.sum_sub_distrib, hsT, hsS, sub_self]
  have hnn : ∀ i ∈ Finset.univ, 0 ≤ u (qf T (sample X i)) * ∑ j, Real.log (l j) * ‖y i j‖ ^ 2 -
      u (qf S (sample X i)) * ∑ j, Real.log (l j) * (‖y i j‖ ^ 2 / l j) := fun i _ => by
    rw [hqT, hqS]
    linarith [(hpair i).1]
  have heq := (Finset.sum_eq_zero_iff_of_nonneg hnn).1 hz
  apply congr_injective hG
  rw [h1, h2, ← diagonal_one]
  congr 1
  funext j
  have hex : ∃ i, y i j ≠ 0 := by
    by_contra hcon
    push Not at hcon
    have h3 := hdT' j
    rw [Finset.sum_eq_zero fun i _ => by rw [hcon i]; simp] at h3
    exact hN h3.symm
  obtain ⟨i, hi⟩ := hex
  have h3 := heq i (Finset.mem_univ i)
  rw [hqT, hqS] at h3
  rcases (hpair i).2 (by linarith) j with h | h
  · exact absurd (norm_eq_zero.1 (pow_eq_zero_iff two_ne_zero |>.1 h)) hi
  · rw [h, RCLike.ofReal_one]

/-! ### Existence -/

/-- A continuous cost that grows with the eigenvalues and their inverses has a minimiser. -/
theorem exists_min_coercive (L : Matrix (Fin p) (Fin p) 𝕜 → ℝ) (hp : 0 < p)
    (hcont : ∀ (T : ℕ → Matrix (Fin p) (Fin p) 𝕜) (S : Matrix (Fin p) (Fin p) 𝕜),
      Tendsto T atTop (𝓝 S) → S.PosDef → Tendsto (fun k => L (T k)) atTop (𝓝 (L S)))
    {C e : ℝ} (he : 0 < e)
    (hb : ∀ (U : Matrix (Fin p) (Fin p) 𝕜) (l : Fin p → ℝ), Uᴴ * U = 1 → (∀ j, 0 < l j) →
      ∀ k, C + e * |Real.log (l k)| ≤ L (U * diagonal (fun j => (l j : 𝕜)) * Uᴴ)) :
    ∃ S : Matrix (Fin p) (Fin p) 𝕜, S.PosDef ∧ ∀ T : Matrix (Fin p) (Fin p) 𝕜, T.PosDef → L S ≤ L T := by
  have hC : ∀ S : Matrix (Fin p) (Fin p) 𝕜, S.PosDef → C ≤ L S := fun S hS => by
    obtain ⟨U, l, hU, hl, h⟩ := spectral_exists S hS
    have := hb U l hU hl ⟨0, hp⟩
    rw [← h] at this
    have h2 : 0 ≤ e * |Real.log (l ⟨0, hp⟩)| := mul_nonneg he.le (abs_nonneg _)
    linarith
  set R : ℝ := (L 1 - C) / e with hRdef
  have hR : 0 ≤ R := div_nonneg (by linarith [hC 1 PosDef.one]) he.le
  have hone : ((Real.exp (-R) : 𝕜) • (1 : Matrix (Fin p) (Fin p) 𝕜)).PosDef :=
    PosDef.one.smul (by exact_mod_cast Real.exp_pos (-R))
  set K : Set (Matrix (Fin p) (Fin p) 𝕜) :=
    {T | Loewner ((Real.exp (-R) : 𝕜) • 1) T ∧ Loewner T ((Real.exp R : 𝕜) • 1)} with hK
  have h1K : (1 : Matrix (Fin p) (Fin p) 𝕜) ∈ K := loewner_one_between (𝕜 := 𝕜) (p := p) hR
  have hbdd : BddBelow (L '' K) := ⟨C, by
    rintro _ ⟨T, hT, rfl⟩
    exact hC T (hT.1.posDef hone)⟩
  obtain ⟨u, -, hu, huK⟩ := exists_seq_tendsto_sInf (⟨L 1, 1, h1K, rfl⟩ : (L '' K).Nonempty) hbdd
  choose T hT hTu using huK
  have hTb : ∀ k, frob (T k) ≤
      RCLike.re ((Real.exp R : 𝕜) • (1 : Matrix (Fin p) (Fin p) 𝕜)).trace := fun k =>
    (frob_le_trace ((hT k).1.posDef hone).posSemidef).trans (hT k).2.trace_le
  obtain ⟨S, f, hf, hlim⟩ := bounded_subseq hTb
  have hS1 : Loewner ((Real.exp (-R) : 𝕜) • 1) S :=
    Loewner.of_tendsto tendsto_const_nhds hlim fun k => (hT (f k)).1
  have hS := hS1.posDef hone
  have hl1 := hcont _ _ hlim hS
  have hl2 : Tendsto (fun k => L ((T ∘ f) k)) atTop (𝓝 (sInf (L '' K))) := by
    have : (fun k => L ((T ∘ f) k)) = u ∘ f := funext fun k => hTu (f k)
    rw [this]
    exact hu.comp hf.tendsto_atTop
  have heq := tendsto_nhds_unique hl1 hl2
  have hmin : ∀ Q ∈ K, L S ≤ L Q := fun Q hQ => by
    rw [heq]
    exact csInf_le hbdd ⟨Q, hQ, rfl⟩
  refine ⟨S, hS, fun Q hQ => ?_⟩
  rcases le_total (L Q) (L 1) with h | h
  · obtain ⟨U, l, hU, hl, hQe⟩ := spectral_exists Q hQ
    have hk : ∀ k, |Real.log (l k)| ≤ R := fun k => by
      have := hb U l hU hl k
      rw [← hQe] at this
      rw [hRdef, le_div_iff₀ he]
      linarith
    have h1 : ∀ k, Real.exp (-R) ≤ l k := fun k =>
      (Real.le_log_iff_exp_le (hl k)).1 (abs_le.1 (hk k)).1
    have h2 : ∀ k, l k ≤ Real.exp R := fun k =>
      (Real.log_le_iff_le_exp (hl k)).1 (abs_le.1 (hk k)).2
    refine hmin Q ⟨?_, ?_⟩ <;> rw [hQe]
    · exact loewner_le_eigen hU h1
    · exact loewner_eigen_le hU h2
  · exact (hmin 1 h1K).trans h

/-- Cost whose slope is the weight. -/
noncomputable def huberRho (lbda beta t : ℝ) : ℝ := beta * (t + max (t - lbda) 0 ^ 2 / (2 * lbda))

noncomputable def huberCost (lbda beta : ℝ) (X : Matrix (Fin N) (Fin p) 𝕜)
    (S : Matrix (Fin p) (Fin p) 𝕜) : ℝ :=
  ∑ i, huberRho lbda beta (qf S (sample X i)) + N * Real.log (RCLike.re S.det)

theorem huberRho_descent {lbda beta : ℝ} (hl : 0 < lbda) (hb : 0 < beta) (s t : ℝ) :
    huberRho lbda beta t ≤ huberRho lbda beta s + wHuber lbda beta s * (t - s) +
      beta / (2 * lbda) * (t - s) ^ 2 := by
  unfold huberRho wHuber
  have e1 : max 1 (s / lbda) = (max (s - lbda) 0 + lbda) / lbda := by
    rw [max_comm, max_add, zero_add, sub_add_cancel]
    rcases le_total s lbda with h | h
    · rw [max_eq_right ((div_le_one hl).2 h), max_eq_right h, div_self hl.ne']
    · rw [max_eq_left ((one_le_div hl).2 h), max_eq_left h]
  rw [e1]
  have key : max (t - lbda) 0 ^ 2 ≤ max (s - lbda) 0 ^ 2 + 2 * max (s - lbda) 0 * (t - s) + (t - s) ^ 2 := by
    rcases le_total t lbda with h | h <;> rcases le_total s lbda with h' | h'
    · rw [max_eq_right (by linarith), max_eq_right (by linarith)]
      nlinarith [sq_nonneg (t - s)]
    · rw [max_eq_right (by linarith), max_eq_left (by linarith)]
      nlinarith [sq_nonneg (t - lbda)]
    · rw [max_eq_left (by linarith), max_eq_right (by linarith)]
      nlinarith [sq_nonneg (t - s)]
    · rw [max_eq_left (by linarith), max_eq_left (by linarith)]
      nlinarith
  have h2 : beta / (2 * lbda) * max (t - lbda) 0 ^ 2 ≤ beta / (2 * lbda) *
      (max (s - lbda) 0 ^ 2 + 2 * max (s - lbda) 0 * (t - s) + (t - s) ^ 2) :=
    mul_le_mul_of_nonneg_left key (by positivity)
  have e2 : ∀ a b : ℝ, beta * (a + b ^ 2 / (2 * lbda)) = beta * a + beta / (2 * lbda) * b ^ 2 :=
    fun a b => by ring
  have e3 : beta * ((max (s - lbda) 0 + lbda) / lbda) * (t - s) =
      beta * (t - s) + beta / (2 * lbda) * (2 * max (s - lbda) 0 * (t - s)) := by
    field_simp
    ring
  rw [e2, e2, e3]
  linarith

theorem huberRho_ge {lbda beta : ℝ} (hl : 0 < lbda) (hb : 0 < beta) (t : ℝ) :
    beta * t ≤ huberRho lbda beta t := by
  unfold huberRho
  have : 0 ≤ max (t - lbda) 0 ^ 2 / (2 * lbda) := by positivity
  nlinarith

theorem wHuber_monotone {lbda beta : ℝ} (hl : 0 < lbda) (hb : 0 < beta) :
    Monotone (wHuber lbda beta) := fun s t h => by
  unfold wHuber
  exact mul_le_mul_of_nonneg_left (max_le_max le_rfl (div_le_div_of_nonneg_right h hl.le)) hb.le

theorem tendsto_huberCost (lbda beta : ℝ) (X : Matrix (Fin N) (Fin p) 𝕜)
    (T : ℕ → Matrix (Fin p) (Fin p) 𝕜) (S : Matrix (Fin p) (Fin p) 𝕜)
    (h : Tendsto T atTop (𝓝 S)) (hS : S.PosDef) :
    Tendsto (fun k => huberCost lbda beta X (T k)) atTop (𝓝 (huberCost lbda beta X S)) := by
  unfold huberCost
  refine Tendsto.add (tendsto_finsetSum _ fun i _ => ?_) (Tendsto.const_mul _ ?_)
  · have hc : Continuous (huberRho lbda beta) := by unfold huberRho; fun_prop
    exact (hc.tendsto _).comp (tendsto_qf h hS.isUnit _)
  · refine Tendsto.log ?_ (posDef_det_pos hS).1.ne'
    exact (RCLike.continuous_re.tendsto _).comp (((continuous_id.matrix_det).tendsto S).comp h)

theorem inv_add_log_ge {b l : ℝ} (hb : 0 < b) (hl : 0 < l) :
    |Real.log l| - |2 + 2 * Real.log (b / 2)| ≤ b / l + Real.log l := by
  rcases le_total 1 l with h | h
  · rw [abs_of_nonneg (Real.log_nonneg h)]
    have := abs_nonneg (2 + 2 * Real.log (b / 2))
    have h2 : 0 ≤ b / l := by positivity
    linarith
  · rw [abs_of_nonpos (Real.log_nonpos hl.le h)]
    have h1 := Real.log_le_sub_one_of_pos (div_pos (half_pos hb) hl)
    rw [Real.log_div (half_pos hb).ne' hl.ne'] at h1
    have h2 := neg_abs_le (2 + 2 * Real.log (b / 2))
    have h3 : b / l = 2 * (b / 2 / l) := by ring
    linarith

/-- Spanning data: a uniform lower bound of the energy in every direction. -/
theorem spans_energy {X : Matrix (Fin N) (Fin p) 𝕜} (hX : Spans X) :
    ∃ c : ℝ, 0 < c ∧ ∀ (U : Matrix (Fin p) (Fin p) 𝕜), Uᴴ * U = 1 → ∀ j,
      N * c ≤ ∑ i, ‖(Uᴴ *ᵥ sample X i) j‖ ^ 2 := by
  have hM : (scatter (fun _ => 1) X).PosDef := scatter_posDef _ (fun _ => one_pos) X hX
  obtain ⟨V, m, hV, hm, hMe⟩ := spectral_exists _ hM
  obtain ⟨c, hc, hcm⟩ := exists_pos_le m
  refine ⟨c, hc, fun U hU j => ?_⟩
  have hle : Loewner ((c : 𝕜) • 1) (scatter (fun _ => 1) X) := by
    rw [hMe]
    exact loewner_le_eigen hV fun k => hcm k (hm k)
  have h1 := hle.congr Uᴴ
  have h2 : 0 ≤ (Uᴴ * scatter (fun _ => 1) X * Uᴴᴴ - Uᴴ * ((c : 𝕜) • 1) * Uᴴᴴ) j j :=
    PosSemidef.diag_nonneg h1
  rw [Matrix.sub_apply, scatter_diag, conjTranspose_conjTranspose, Matrix.mul_smul, Matrix.mul_one,
    Matrix.smul_mul, hU, Matrix.smul_apply, Matrix.one_apply_eq, smul_eq_mul, mul_one,
    ← RCLike.ofReal_sub, RCLike.ofReal_nonneg] at h2
  rcases Nat.eq_zero_or_pos N with h | h
  · subst h; simp
  · have hN : (0 : ℝ) < N := by exact_mod_cast h
    simp only [one_mul] at h2
    have := mul_le_mul_of_nonneg_left (sub_nonneg.1 h2) hN.le
    rwa [← mul_assoc, mul_inv_cancel₀ hN.ne', one_mul] at this

theorem huber_exists {lbda beta : ℝ} (hl : 0 < lbda) (hb : 0 < beta) (hp : 0 < p)
    (X : Matrix (Fin N) (Fin p) 𝕜) (hX : Spans X) :
    ∃ S : Matrix (Fin p) (Fin p) 𝕜, S.PosDef ∧ mStep (wHuber lbda beta) X S = S := by
  have hN0 := nat_pos_of_spans hp hX
  have hN : (0 : ℝ) < N := by exact_mod_cast hN0
  obtain ⟨c, hc, henergy⟩ := spans_energy hX
  set b := beta * c with hbdef
  have hbc : 0 < b := mul_pos hb hc
  set C0 := |2 + 2 * Real.log (b / 2)| with hC0
  have hC0n : 0 ≤ C0 := abs_nonneg _
  obtain ⟨S, hS, hmin⟩ := exists_min_coercive (huberCost lbda beta X) hp
    (tendsto_huberCost lbda beta X) (C := -(N * (p * C0))) hN (by
      intro U l hU hll k
      unfold huberCost
      rw [eigen_det hU hll]
      have h1 : ∑ j, b * N / l j ≤ ∑ i, huberRho lbda beta
          (qf (U * diagonal (fun j => (l j : 𝕜)) * Uᴴ) (sample X i)) := by
        calc ∑ j, b * N / l j ≤ ∑ j, (beta * ∑ i, ‖(Uᴴ *ᵥ sample X i) j‖ ^ 2) / l j :=
              Finset.sum_le_sum fun j _ => div_le_div_of_nonneg_right (by
                rw [hbdef, mul_assoc, mul_comm c]
                exact mul_le_mul_of_nonneg_left (henergy U hU j) hb.le) (hll j).le
          _ = ∑ i, beta * qf (U * diagonal (fun j => (l j : 𝕜)) * Uᴴ) (sample X i) := by
              simp only [eigen_qf hU hll, Finset.mul_sum, Finset.sum_div]
              rw [Finset.sum_comm]
              exact Finset.sum_congr rfl fun i _ => Finset.sum_congr rfl fun j _ => by ring
          _ ≤ _ := Finset.sum_le_sum fun i _ => huberRho_ge hl hb _
      have h2 : N * ∑ j, (|Real.log (l j)| - C0) ≤ ∑ j, b * N / l j + N * ∑ j, Real.log (l j) := by
        rw [Finset.mul_sum, Finset.mul_sum, ← Finset.sum_add_distrib]
        refine Finset.sum_le_sum fun j _ => ?_
        have := mul_le_mul_of_nonneg_left (inv_add_log_ge hbc (hll j)) hN.le
        calc _ ≤ _ := this
          _ = _ := by ring
      have h3 : |Real.log (l k)| ≤ ∑ j, |Real.log (l j)| :=
        Finset.single_le_sum (f := fun j => |Real.log (l j)|) (fun j _ => abs_nonneg _)
          (Finset.mem_univ k)
      rw [Finset.sum_sub_distrib] at h2
      simp only [Finset.sum_const, Finset.card_univ, Fintype.card_fin, nsmul_eq_mul] at h2
      have h4 := mul_le_mul_of_nonneg_left h3 hN.le
      rw [mul_sub] at h2
      linarith)
  refine ⟨S, hS, ?_⟩
  have hF : (mStep (wHuber lbda beta) X S).PosDef :=
    mStep_posDef _ X hX S fun i => wHuber_pos X hb i
  obtain ⟨G, m, hG, hm, h1, h2⟩ := simultaneous S _ hS hF
  set y : Fin N → Fin p → 𝕜 := fun i => G *ᵥ sample X i with hy
  have hq : ∀ i, qf S (sample X i) = ∑ j, ‖y i j‖ ^ 2 := fun i => by
    rw [← qf_congr G hG S (sample X i), h1, qf_one]
  have hmj : ∀ j, (N : ℝ)⁻¹ * ∑ i, wHuber lbda beta (qf S (sample X i)) * ‖y i j‖ ^ 2 = m j :=
    fun j => by
      have e := scatter_diag (fun i => wHuber lbda beta (qf S (sample X i))) X G j
      have e' : scatter (fun i => wHuber lbda beta (qf S (sample X i))) X =
        mStep (wHuber lbda beta) X S := rfl
      rw [e', h2, diagonal_apply_eq] at e
      exact_mod_cast e.symm
  have hGd : IsUnit G.det := (Matrix.isUnit_iff_isUnit_det G).1 hG
  have hGd' : IsUnit Gᴴ.det := by rw [det_conjTranspose]; exact hGd.star
  have hone : ∀ j, m j = 1 := by
    intro j
    -- scale the direction `j` by `1/v`
    set K := beta / (2 * lbda) * ∑ i, (‖y i j‖ ^ 2) ^ 2 with hK
    have hvar : ∀ v : ℝ, 0 < v →
        0 ≤ N * (m j * (v - 1) - Real.log v) + K * (v - 1) ^ 2 := by
      intro v hv
      set l : Fin p → ℝ := fun k => if k = j then v⁻¹ else 1 with hldef
      have hlpos : ∀ k, 0 < l k := fun k => by
        simp only [hldef]; split_ifs; exacts [inv_pos.2 hv, one_pos]
      set T := G⁻¹ * diagonal (fun k => (l k : 𝕜)) * (G⁻¹)ᴴ with hTdef
      have hTG : G * T * Gᴴ = diagonal (fun k => (l k : 𝕜)) := by
        rw [hTdef, conjTranspose_nonsing_inv, show G * (G⁻¹ * diagonal (fun k => (l k : 𝕜)) * (Gᴴ)⁻¹) * Gᴴ =
          (G * G⁻¹) * diagonal (fun k => (l k : 𝕜)) * ((Gᴴ)⁻¹ * Gᴴ) by simp only [Matrix.mul_assoc],
          Matrix.mul_nonsing_inv G hGd, Matrix.nonsing_inv_mul _ hGd', Matrix.one_mul, Matrix.mul_one]
      have hT : T.PosDef := by
        refine (PosDef.diagonal (d := fun k => (l k : 𝕜)) fun k => by exact_mod_cast hlpos k
          ).mul_mul_conjTranspose_same (Matrix.vecMul_injective_of_isUnit ?_)
        exact (Matrix.isUnit_nonsing_inv_iff).2 hG
      have hqT : ∀ i, qf T (sample X i) = qf S (sample X i) + (v - 1) * ‖y i j‖ ^ 2 := fun i => by
        rw [← qf_congr G hG T (sample X i), hTG, qf_diagonal l hlpos, hq]
        rw [← Finset.add_sum_erase _ _ (Finset.mem_univ j),
          ← Finset.add_sum_erase _ (fun k => ‖y i k‖ ^ 2) (Finset.mem_univ j)]
        have : ∑ k ∈ Finset.univ.erase j, ‖(G *ᵥ sample X i) k‖ ^ 2 / l k =
            ∑ k ∈ Finset.univ.erase j, ‖y i k‖ ^ 2 := Finset.sum_congr rfl fun k hk => by
          simp only [hldef, if_neg (Finset.ne_of_mem_erase hk), div_one, hy]
        rw [this]
        simp only [hldef, if_true, div_inv_eq_mul, hy]
        ring
      have hdet := log_det_diff hS hT hG hlpos h1 hTG
      have hls : ∑ k, Real.log (l k) = -Real.log v := by
        rw [Finset.sum_eq_single j]
        · simp [hldef, Real.log_inv]
        · intro k _ hk
          simp [hldef, hk]
        · simp
      rw [hls] at hdet
      have hL := hmin T hT
      unfold huberCost at hL
      rw [hdet] at hL
      have hd : ∑ i, huberRho lbda beta (qf T (sample X i)) ≤
          ∑ i, (huberRho lbda beta (qf S (sample X i)) +
            wHuber lbda beta (qf S (sample X i)) * ((v - 1) * ‖y i j‖ ^ 2) +
            beta / (2 * lbda) * ((v - 1) * ‖y i j‖ ^ 2) ^ 2) :=
        Finset.sum_le_sum fun i _ => by
          have := huberRho_descent hl hb (qf S (sample X i)) (qf T (sample X i))
          rwa [hqT i, add_sub_cancel_left, ← hqT i] at this
      rw [Finset.sum_add_distrib, Finset.sum_add_distrib] at hd
      have e1 : ∑ i, wHuber lbda beta (qf S (sample X i)) * ((v - 1) * ‖y i j‖ ^ 2) =
          N * (m j * (v - 1)) := by
        rw [← hmj j, ← mul_assoc, ← mul_assoc, mul_inv_cancel₀ hN.ne', one_mul, Finset.sum_mul]
        exact Finset.sum_congr rfl fun i _ => by ring
      have e2 : ∑ i, beta / (2 * lbda) * ((v - 1) * ‖y i j‖ ^ 2) ^ 2 = K * (v - 1) ^ 2 := by
        rw [hK, Finset.mul_sum, Finset.sum_mul]
        exact Finset.sum_congr rfl fun i _ => by ring
      rw [e1, e2] at hd
      rw [mul_add] at hL
      rw [mul_sub]
      linarith
    set g : ℝ → ℝ := fun v => N * (m j * (v - 1) - Real.log v) + K * (v - 1) ^ 2 with hg
    have hg1 : g 1 = 0 := by simp [hg]
    have hloc : IsLocalMin g 1 := by
      filter_upwards [lt_mem_nhds one_pos] with v hv
      rw [hg1]
      exact hvar v hv
    have hder : HasDerivAt g (N * (m j * 1 - 1⁻¹) + K * (2 * (1 - 1) ^ 1 * 1)) 1 := by
      have a1 : HasDerivAt (fun v : ℝ => v - 1) 1 1 := (hasDerivAt_id 1).sub_const 1
      have a2 := ((a1.const_mul (m j)).fun_sub (Real.hasDerivAt_log one_ne_zero)).const_mul (N : ℝ)
      have a3 := (a1.fun_pow 2).const_mul K
      have := a2.fun_add a3
      exact this.congr_deriv (by simp)
    have h0 := hloc.hasDerivAt_eq_zero hder
    simp only [mul_one, inv_one, sub_self, pow_one, mul_zero, add_zero] at h0
    rcases mul_eq_zero.1 h0 with h | h
    · exact absurd h hN.ne'
    · linarith
  apply congr_injective hG
  rw [h1, h2, ← diagonal_one]
  congr 1
  funext j
  rw [hone j, RCLike.ofReal_one]

end
end RS
