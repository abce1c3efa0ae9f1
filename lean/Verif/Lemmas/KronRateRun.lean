import Verif.Lemmas.KronRate
import Verif.Lemmas.TylerRate

/-! Geometric convergence of the Kronecker MM iterates. -/
set_option autoImplicit false

namespace RS
open Matrix ComplexOrder Filter Topology

section
variable {𝕜 : Type} [RCLike 𝕜] {N a b : ℕ}

/-- A decrease proportional to the value makes the square roots decrease geometrically. -/
theorem sqrt_geometric {e : ℕ → ℝ} {D : ℝ} (h0 : ∀ k, 0 ≤ e k) (hD : 1 ≤ D)
    (h : ∀ k, e k ≤ D * (e k - e (k + 1))) :
    ∃ r : ℝ, 0 ≤ r ∧ r < 1 ∧ ∀ k j, Real.sqrt (e (k + j)) ≤ Real.sqrt (e k) * r ^ j := by
  have hD0 : 0 < D := by linarith
  have hi : 0 < D⁻¹ := inv_pos.2 hD0
  have hi1 : D⁻¹ ≤ 1 := inv_le_one_of_one_le₀ hD
  have hρ0 : 0 ≤ 1 - D⁻¹ := by linarith
  refine ⟨Real.sqrt (1 - D⁻¹), Real.sqrt_nonneg _, ?_, fun k j => ?_⟩
  · rw [Real.sqrt_lt' one_pos]
    linarith
  · induction j with
    | zero => simp
    | succ j ih =>
      have h1 : e (k + (j + 1)) ≤ e (k + j) * (1 - D⁻¹) := by
        have h2 := mul_le_mul_of_nonneg_left (h (k + j)) hi.le
        rw [← mul_assoc, inv_mul_cancel₀ hD0.ne', one_mul] at h2
        rw [← add_assoc]
        linarith
      refine (Real.sqrt_le_sqrt h1).trans ?_
      rw [Real.sqrt_mul (h0 _), pow_succ, ← mul_assoc]
      exact mul_le_mul_of_nonneg_right ih (Real.sqrt_nonneg _)

/-- Bounds along a convergent sequence of positive definite matrices. -/
theorem pd_bounds {n : ℕ} (hn : 0 < n) {P : ℕ → Matrix (Fin n) (Fin n) 𝕜}
    {S : Matrix (Fin n) (Fin n) 𝕜} (hS : S.PosDef)
    (h : Tendsto P atTop (𝓝 S)) :
    ∃ β : ℝ, 0 < β ∧ ∀ k, RCLike.re (P k).trace ≤ β ∧ RCLike.re ((P k)⁻¹).trace ≤ β ∧
      frob (P k) ≤ β ∧ (frob (P k))⁻¹ ≤ β := by
  have ht : Continuous fun Z : Matrix (Fin n) (Fin n) 𝕜 => RCLike.re Z.trace :=
    RCLike.continuous_re.comp (continuous_id.matrix_trace)
  have t1 : Tendsto (fun k => RCLike.re (P k).trace) atTop (𝓝 (RCLike.re S.trace)) :=
    (ht.tendsto _).comp h
  have t2 : Tendsto (fun k => RCLike.re ((P k)⁻¹).trace) atTop (𝓝 (RCLike.re (S⁻¹).trace)) :=
    (ht.tendsto _).comp (tendsto_inv h hS.isUnit)
  have t3 : Tendsto (fun k => frob (P k)) atTop (𝓝 (frob S)) := (continuous_frob.tendsto _).comp h
  obtain ⟨β1, h1⟩ := t1.bddAbove_range
  obtain ⟨β2, h2⟩ := t2.bddAbove_range
  obtain ⟨β3, h3⟩ := t3.bddAbove_range
  obtain ⟨β4, h4⟩ := (t3.inv₀ (frob_pos hn hS).ne').bddAbove_range
  refine ⟨|β1| + |β2| + |β3| + |β4| + 1, by positivity, fun k => ?_⟩
  have k1 : _ ≤ β1 := h1 ⟨k, rfl⟩
  have k2 : _ ≤ β2 := h2 ⟨k, rfl⟩
  have k3 : _ ≤ β3 := h3 ⟨k, rfl⟩
  have k4 : _ ≤ β4 := h4 ⟨k, rfl⟩
  have := abs_nonneg β1
  have := abs_nonneg β2
  have := abs_nonneg β3
  have := abs_nonneg β4
  have := le_abs_self β1
  have := le_abs_self β2
  have := le_abs_self β3
  have := le_abs_self β4
  simp only at k1 k2 k3 k4
  exact ⟨by linarith, by linarith, by linarith, by linarith⟩

theorem kron_rate (X : Matrix (Fin N) (Fin (a * b)) 𝕜)
    (hX : KronData fun i => (unstack (X i) : Matrix (Fin b) (Fin a) 𝕜)) (ha : 0 < a) (hb : 0 < b)
    {A : Matrix (Fin a) (Fin a) 𝕜} {B : Matrix (Fin b) (Fin b) 𝕜} (hA : A.PosDef) (hB : B.PosDef)
    (hfA : scatterA (fun i => unstack (X i)) A B = A)
    (hfB : scatterB (fun i => unstack (X i)) A B = B)
    (huniq : ∀ (A' : Matrix (Fin a) (Fin a) 𝕜) (B' : Matrix (Fin b) (Fin b) 𝕜), A'.PosDef →
      B'.PosDef → scatterA (fun i => unstack (X i)) A' B' = A' →
      scatterB (fun i => unstack (X i)) A' B' = B' →
      ∃ s t : ℝ, A' = (s : 𝕜) • A ∧ B' = (t : 𝕜) • B)
    {P : ℕ → Matrix (Fin a) (Fin a) 𝕜} {Q : ℕ → Matrix (Fin b) (Fin b) 𝕜} (hP0 : (P 0).PosDef)
    (hQ0 : (Q 0).PosDef)
    (hstep : ∀ k, KronUpdate (fun i => unstack (X i)) (P k) (P (k + 1)) (Q k) (Q (k + 1))) :
    ∃ s t : ℝ, 0 < s ∧ 0 < t ∧ ∃ r C : ℝ, 0 ≤ r ∧ r < 1 ∧ 0 ≤ C ∧ ∀ k,
      frob (P k - (s : 𝕜) • A) ≤ C * r ^ k ∧ frob (Q k - (t : 𝕜) • B) ≤ C * r ^ k ∧
      kronErr P Q k ≤ C * r ^ k ∧
      frob (P (k + 1) - (s : 𝕜) • A) ≤ C * kronErr P Q k ∧
      frob (Q (k + 1) - (t : 𝕜) • B) ≤ C * kronErr P Q k := by
  obtain ⟨s, t, hs, ht, tP, tQ⟩ := kron_tendsto X hX ha hb hA hB hfA hfB huniq hP0 hQ0 hstep
  have hN := kronData_pos hX ha
  have hr : ∀ i, X i ≠ 0 := fun i h => hX.nonzero i (by ext r c; simp [unstack, h])
  have hP : ∀ k, (P k).PosDef := fun k => by cases k; exacts [hP0, (hstep _).posA]
  have hQ : ∀ k, (Q k).PosDef := fun k => by cases k; exacts [hQ0, (hstep _).posB]
  have hmin : ∀ (A' : Matrix (Fin a) (Fin a) 𝕜) (B' : Matrix (Fin b) (Fin b) 𝕜), A'.PosDef →
      B'.PosDef → tylerCost X (kron Aᵀ B) ≤ tylerCost X (kron A'ᵀ B') := fun A' B' hA' hB' =>
    kron_fixed_minimises X hN hr hA hB hfA hfB hA' hB'
  have huniq' : ∀ (A' : Matrix (Fin a) (Fin a) 𝕜) (B' : Matrix (Fin b) (Fin b) 𝕜), A'.PosDef →
      B'.PosDef → tylerCost X (kron A'ᵀ B') = tylerCost X (kron Aᵀ B) →
      ∃ s t : ℝ, A' = (s : 𝕜) • A ∧ B' = (t : 𝕜) • B := fun A' B' hA' hB' he => by
    obtain ⟨A'', B'', u⟩ := kronUpdate_exists hX ha hb hA' hB'
    obtain ⟨h1, h2⟩ := kron_stationary X hX ha hb hA' hB' u (by
      rw [he]; exact hmin A'' B'' u.posA u.posB)
    exact huniq A' B' hA' hB' h1 h2
  obtain ⟨e, he⟩ : ∃ e : ℕ → ℝ,
    e = fun k => tylerCost X (kron (P k)ᵀ (Q k)) - tylerCost X (kron Aᵀ B) := ⟨_, rfl⟩
  obtain ⟨f, hf⟩ : ∃ f : ℕ → ℝ, f = fun k => halfStep (P k) (P (k + 1)) := ⟨_, rfl⟩
  obtain ⟨g, hg⟩ : ∃ g : ℕ → ℝ, g = fun k => halfStep (Q k) (Q (k + 1)) := ⟨_, rfl⟩
  have f0 : ∀ k, 0 ≤ f k := fun k => by rw [hf]; exact halfStep_nonneg _ _
  have g0 : ∀ k, 0 ≤ g k := fun k => by rw [hg]; exact halfStep_nonneg _ _
  have e0 : ∀ k, 0 ≤ e k := fun k => by rw [he]; exact sub_nonneg.2 (hmin _ _ (hP k) (hQ k))
  have hdes := fun k => kron_descent X hN hr (hP k) (hQ k) (hstep k)
  have hN1 : (1 : ℝ) ≤ N := by exact_mod_cast hN
  have ha1 : (1 : ℝ) ≤ a := by exact_mod_cast ha
  have hb1 : (1 : ℝ) ≤ b := by exact_mod_cast hb
  have dec : ∀ k, f k ^ 2 + g k ^ 2 ≤ 2 * (e k - e (k + 1)) := fun k => by
    have h1 := (hdes k).2.2
    have h2 : f k ^ 2 + g k ^ 2 ≤ b * f k ^ 2 + a * g k ^ 2 :=
      add_le_add (le_mul_of_one_le_left (sq_nonneg _) hb1) (le_mul_of_one_le_left (sq_nonneg _) ha1)
    have h3 : b * f k ^ 2 + a * g k ^ 2 ≤ N * (b * f k ^ 2 + a * g k ^ 2) :=
      le_mul_of_one_le_left (by positivity) hN1
    rw [he]
    simp only [hf, hg] at h2 h3 ⊢
    linarith
  have emono : Antitone e := antitone_nat_of_succ_le fun k => by
    have h1 := dec k
    have h2 : 0 ≤ f k ^ 2 + g k ^ 2 := by positivity
    linarith
  obtain ⟨C, hC, hgap⟩ := kron_gap_le X hN ha hb hr hA hB hfA hfB huniq' (e 0)
  have gap : ∀ k, e k ≤ C * (f k ^ 2 + g k ^ 2) := fun k => by
    have h1 := hgap _ _ _ _ (hP k) (hQ k) (hstep k) (by
      have := emono (Nat.zero_le k)
      rw [he] at this ⊢
      exact this)
    rw [he, hf, hg]
    exact h1
  obtain ⟨r, hr0, hr1, hrk⟩ := sqrt_geometric (e := e) (D := 2 * C + 1) e0 (by linarith) fun k => by
    have h1 := mul_le_mul_of_nonneg_left (dec k) hC.le
    have h2 := emono (Nat.le_succ k)
    have h3 := gap k
    simp only [Nat.succ_eq_add_one] at h2
    linarith
  have hsA : ((s : 𝕜) • A).PosDef := hA.smul (by exact_mod_cast hs)
  have htB : ((t : 𝕜) • B).PosDef := hB.smul (by exact_mod_cast ht)
  obtain ⟨β, hβ, bP⟩ := pd_bounds ha hsA tP
  obtain ⟨γ, hγ, bQ⟩ := pd_bounds hb htB tQ
  obtain ⟨q, hq⟩ : ∃ q : ℕ → ℝ, q = fun k => Real.sqrt (e k) := ⟨_, rfl⟩
  have q0 : ∀ k, 0 ≤ q k := fun k => by rw [hq]; exact Real.sqrt_nonneg _
  have qsq : ∀ k, q k ^ 2 = e k := fun k => by rw [hq]; exact Real.sq_sqrt (e0 k)
  have qk : ∀ k j, q (k + j) ≤ q k * r ^ j := by rw [hq]; exact hrk
  have fq : ∀ k, f k ≤ 2 * q k ∧ g k ≤ 2 * q k := fun k => by
    have h1 := dec k
    have h2 := e0 (k + 1)
    have h3 := qsq k
    constructor
    · refine (abs_le_of_sq_le_sq' ?_ (by linarith [q0 k])).2
      nlinarith [sq_nonneg (g k)]
    · refine (abs_le_of_sq_le_sq' ?_ (by linarith [q0 k])).2
      nlinarith [sq_nonneg (f k)]
  have sP := fun k => halfStep_frob (hP k) (hstep k).posA (hdes k).1.1 (hdes k).1.2
  have sQ := fun k => halfStep_frob (hQ k) (hstep k).posB (hdes k).2.1.1 (hdes k).2.1.2
  have dP : ∀ k, frob (P (k + 1) - P k) ≤ 2 * β * q k := fun k => by
    have h1 := (sP k).1.trans (mul_le_mul_of_nonneg_right (bP k).1 (halfStep_nonneg _ _))
    have h2 := mul_le_mul_of_nonneg_left (fq k).1 hβ.le
    simp only [hf] at h2
    linarith
  have dQ : ∀ k, frob (Q (k + 1) - Q k) ≤ 2 * γ * q k := fun k => by
    have h1 := (sQ k).1.trans (mul_le_mul_of_nonneg_right (bQ k).1 (halfStep_nonneg _ _))
    have h2 := mul_le_mul_of_nonneg_left (fq k).2 hγ.le
    simp only [hg] at h2
    linarith
  -- distance to the limit
  have lP : ∀ k, frob (P k - (s : 𝕜) • A) ≤ 2 * β / (1 - r) * q k := fun k => by
    have h1 := geometric_limit (A := fun j => P (k + j)) (C := 2 * β * q k) hr0 hr1 (fun j => by
      have h2 := mul_le_mul_of_nonneg_left (qk k j) (show 0 ≤ 2 * β by positivity)
      have h3 := dP (k + j)
      rw [mul_assoc]
      exact h3.trans h2) (tP.comp (tendsto_atTop_mono (fun j => Nat.le_add_left j k) tendsto_id)) 0
    simp only [add_zero, pow_zero, mul_one] at h1
    rw [div_mul_eq_mul_div]
    exact h1
  have lQ : ∀ k, frob (Q k - (t : 𝕜) • B) ≤ 2 * γ / (1 - r) * q k := fun k => by
    have h1 := geometric_limit (A := fun j => Q (k + j)) (C := 2 * γ * q k) hr0 hr1 (fun j => by
      have h2 := mul_le_mul_of_nonneg_left (qk k j) (show 0 ≤ 2 * γ by positivity)
      have h3 := dQ (k + j)
      rw [mul_assoc]
      exact h3.trans h2) (tQ.comp (tendsto_atTop_mono (fun j => Nat.le_add_left j k) tendsto_id)) 0
    simp only [add_zero, pow_zero, mul_one] at h1
    rw [div_mul_eq_mul_div]
    exact h1
  -- the reported error
  have pP := fun k => frob_pos ha (hP k)
  have pQ := fun k => frob_pos hb (hQ k)
  have err0 : ∀ k, 0 ≤ kronErr P Q k := fun k =>
    le_max_of_le_left (div_nonneg (frob_nonneg _) (frob_nonneg _))
  have errle : ∀ k, kronErr P Q k ≤ (2 * β * β + 2 * γ * γ) * q k := fun k => by
    refine max_le ?_ ?_
    · rw [div_eq_mul_inv]
      have h1 := mul_le_mul (dP k) (bP k).2.2.2 (inv_nonneg.2 (frob_nonneg _))
        (mul_nonneg (by positivity) (q0 k))
      have h2 : 0 ≤ 2 * γ * γ * q k := mul_nonneg (by positivity) (q0 k)
      linarith
    · rw [div_eq_mul_inv]
      have h1 := mul_le_mul (dQ k) (bQ k).2.2.2 (inv_nonneg.2 (frob_nonneg _))
        (mul_nonneg (by positivity) (q0 k))
      have h2 : 0 ≤ 2 * β * β * q k := mul_nonneg (by positivity) (q0 k)
      linarith
  have qerr : ∀ k, q k ≤ (C + 1) * ((β * β + γ * γ) * kronErr P Q k) := fun k => by
    have h1 : f k ≤ β * β * kronErr P Q k := by
      have h2 := (sP k).2.trans (mul_le_mul_of_nonneg_right (bP k).2.1 (frob_nonneg _))
      have h3 : frob (P (k + 1) - P k) / frob (P k) ≤ kronErr P Q k := le_max_left _ _
      rw [div_le_iff₀ (pP k)] at h3
      have h4 := mul_le_mul_of_nonneg_left (bP k).2.2.1 (err0 k)
      have h5 := mul_le_mul_of_nonneg_left (h3.trans h4) hβ.le
      simp only [hf]
      linarith
    have h1' : g k ≤ γ * γ * kronErr P Q k := by
      have h2 := (sQ k).2.trans (mul_le_mul_of_nonneg_right (bQ k).2.1 (frob_nonneg _))
      have h3 : frob (Q (k + 1) - Q k) / frob (Q k) ≤ kronErr P Q k := le_max_right _ _
      rw [div_le_iff₀ (pQ k)] at h3
      have h4 := mul_le_mul_of_nonneg_left (bQ k).2.2.1 (err0 k)
      have h5 := mul_le_mul_of_nonneg_left (h3.trans h4) hγ.le
      simp only [hg]
      linarith
    have h6 : q k ≤ (C + 1) * (f k + g k) := by
      refine (abs_le_of_sq_le_sq' ?_ (mul_nonneg (by linarith) (add_nonneg (f0 k) (g0 k)))).2
      rw [qsq]
      refine (gap k).trans ?_
      rw [mul_pow]
      have h7 : C ≤ (C + 1) ^ 2 := by nlinarith
      refine mul_le_mul h7 ?_ (by positivity) (by positivity)
      nlinarith [mul_nonneg (f0 k) (g0 k)]
    refine h6.trans (mul_le_mul_of_nonneg_left ?_ (by linarith))
    linarith
  have hq0k : ∀ k, q k ≤ q 0 * r ^ k := fun k => by have := qk 0 k; rwa [zero_add] at this
  have hrr : 0 < 1 - r := by linarith
  obtain ⟨c1, hc1⟩ : ∃ c, c = 2 * β / (1 - r) := ⟨_, rfl⟩
  obtain ⟨c2, hc2⟩ : ∃ c, c = 2 * γ / (1 - r) := ⟨_, rfl⟩
  obtain ⟨c3, hc3⟩ : ∃ c, c = 2 * β * β + 2 * γ * γ := ⟨_, rfl⟩
  obtain ⟨c4, hc4⟩ : ∃ c, c = (C + 1) * (β * β + γ * γ) := ⟨_, rfl⟩
  have hc1' : 0 ≤ c1 := by rw [hc1]; positivity
  have hc2' : 0 ≤ c2 := by rw [hc2]; positivity
  have hc3' : 0 ≤ c3 := by rw [hc3]; positivity
  have hc4' : 0 ≤ c4 := by rw [hc4]; positivity
  rw [← hc1] at lP
  rw [← hc2] at lQ
  rw [← hc3] at errle
  have qerr' : ∀ k, q k ≤ c4 * kronErr P Q k := fun k => by
    have := qerr k
    rw [← mul_assoc, ← hc4] at this
    exact this
  have qmono : ∀ k, q (k + 1) ≤ q k := fun k => by
    have h1 := qk k 1
    rw [pow_one] at h1
    exact h1.trans (mul_le_of_le_one_right (q0 k) hr1.le)
  obtain ⟨D, hD⟩ : ∃ D, D = (c1 + c2 + c3) * (q 0 + c4) := ⟨_, rfl⟩
  have up : ∀ c : ℝ, 0 ≤ c → c ≤ c1 + c2 + c3 → ∀ k v, v ≤ c * q k → v ≤ D * r ^ k := by
    intro c h1 h2 k v h3
    have h4 : 0 ≤ r ^ k := by positivity
    refine h3.trans ((mul_le_mul h2 (hq0k k) (q0 k) (by positivity)).trans ?_)
    rw [hD, ← mul_assoc]
    exact mul_le_mul_of_nonneg_right (mul_le_mul_of_nonneg_left (by linarith) (by positivity)) h4
  have up' : ∀ c : ℝ, 0 ≤ c → c ≤ c1 + c2 + c3 → ∀ k v, v ≤ c * q (k + 1) →
      v ≤ D * kronErr P Q k := by
    intro c h1 h2 k v h3
    refine h3.trans ((mul_le_mul h2 ((qmono k).trans (qerr' k)) (q0 _) (by positivity)).trans ?_)
    rw [hD, ← mul_assoc]
    exact mul_le_mul_of_nonneg_right (mul_le_mul_of_nonneg_left (by linarith [q0 0]) (by positivity))
      (err0 k)
  have := q0 0
  exact ⟨s, t, hs, ht, r, D, hr0, hr1, by rw [hD]; positivity, fun k =>
    ⟨up c1 hc1' (by linarith) k _ (lP k), up c2 hc2' (by linarith) k _ (lQ k),
      up c3 hc3' (by linarith) k _ (errle k), up' c1 hc1' (by linarith) k _ (lP (k + 1)),
      up' c2 hc2' (by linarith) k _ (lQ (k + 1))⟩⟩

end
end RS
