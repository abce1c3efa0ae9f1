import Verif.Lemmas.Order
import Mathlib.Analysis.SpecialFunctions.Log.Basic
import Mathlib.Analysis.SpecialFunctions.Sqrt

/-! The triangle inequality of the affine-invariant distance: `‖log ·‖` grows at most at unit speed
along geodesics, by a trace inequality of Klein type and a telescoping argument. -/
set_option autoImplicit false

namespace RS
open Matrix ComplexOrder Filter Topology

/-- Telescoping: a function with `F(t+h)² ≤ F(t)² + 2 F(t) η + K η²`, `η ≈ a h`, grows by at most
`a` on the unit interval. -/
theorem telescope {F η : ℝ → ℝ} {a K R : ℝ} (hF : ∀ t, 0 ≤ F t) (hK : 0 ≤ K) (ha : 0 ≤ a) (hR : 0 ≤ R)
    (hη0 : ∀ h, 0 ≤ η h) (hη : ∀ h, 0 ≤ h → η h ≤ h * a * Real.exp (h * R))
    (hstep : ∀ t h, 0 ≤ t → 0 ≤ h → t + h ≤ 1 → F (t + h) ^ 2 ≤ F t ^ 2 + 2 * F t * η h + K * η h ^ 2) :
    F 1 ≤ F 0 + a := by
  have key : ∀ e : ℝ, 0 < e → F 1 ≤ F 0 + a + e := by
    intro e he
    set ψ : ℝ → ℝ := fun t => Real.sqrt (F t ^ 2 + e ^ 2) with hψ
    have hsq : ∀ t, ψ t ^ 2 = F t ^ 2 + e ^ 2 := fun t => Real.sq_sqrt (by positivity)
    have hψe : ∀ t, e ≤ ψ t := fun t => Real.le_sqrt_of_sq_le (by nlinarith [sq_nonneg (F t)])
    have hψF : ∀ t, F t ≤ ψ t := fun t => Real.le_sqrt_of_sq_le (by nlinarith [sq_nonneg e])
    have h1 : ∀ t h, 0 ≤ t → 0 ≤ h → t + h ≤ 1 →
        ψ (t + h) ≤ ψ t + (η h + K * η h ^ 2 / (2 * e)) := by
      intro t h ht hh hth
      have hs := hstep t h ht hh hth
      have h0 := hη0 h
      set δ := K * η h ^ 2 / (2 * e) with hδ
      have hδ0 : 0 ≤ δ := by positivity
      have hδe : 2 * e * δ = K * η h ^ 2 := by rw [hδ]; field_simp
      apply Real.sqrt_le_iff.2
      refine ⟨by linarith [hψe t], ?_⟩
      have e1 := hψe t
      have e2 := hψF t
      have e3 := hsq t
      have e4 : F t * η h ≤ ψ t * η h := mul_le_mul_of_nonneg_right e2 h0
      have e5 : e * δ ≤ ψ t * δ := mul_le_mul_of_nonneg_right e1 hδ0
      nlinarith [mul_nonneg h0 hδ0, sq_nonneg δ, sq_nonneg (η h)]
    have h2 : ∀ n : ℕ, 0 < n → ∀ k : ℕ, k ≤ n → ψ (k / n) ≤ ψ 0 +
        k * (η (1 / n) + K * η (1 / n) ^ 2 / (2 * e)) := by
      intro n hn k
      have hn' : (0 : ℝ) < n := by exact_mod_cast hn
      induction k with
      | zero => intro _; simp
      | succ k ih =>
        intro hk
        have h3 := ih (by omega)
        have h4 := h1 (k / n) (1 / n) (by positivity) (by positivity) (by
          rw [← add_div, div_le_one hn']; exact_mod_cast hk)
        rw [← add_div] at h4
        push_cast
        linarith
    have h3 : ∀ n : ℕ, ψ 1 ≤ ψ 0 + (a * Real.exp (R / ((n : ℝ) + 1)) +
        K * a ^ 2 * Real.exp (2 * R) / (2 * e) * (1 / ((n : ℝ) + 1))) := by
      intro n
      have hm : (0 : ℝ) < (n : ℝ) + 1 := by positivity
      have h4 := h2 (n + 1) (Nat.succ_pos n) (n + 1) le_rfl
      push_cast at h4
      rw [div_self hm.ne'] at h4
      have h5 := hη (1 / ((n : ℝ) + 1)) (by positivity)
      have h50 := hη0 (1 / ((n : ℝ) + 1))
      set y := η (1 / ((n : ℝ) + 1))
      have h6 : ((n : ℝ) + 1) * y ≤ a * Real.exp (R / ((n : ℝ) + 1)) := by
        calc ((n : ℝ) + 1) * y ≤ ((n : ℝ) + 1) * (1 / ((n : ℝ) + 1) * a *
              Real.exp (1 / ((n : ℝ) + 1) * R)) := mul_le_mul_of_nonneg_left h5 hm.le
          _ = _ := by
            rw [show 1 / ((n : ℝ) + 1) * R = R / ((n : ℝ) + 1) by ring]
            field_simp
      have h7 : Real.exp (R / ((n : ℝ) + 1)) ≤ Real.exp R :=
        Real.exp_le_exp.2 (div_le_self hR (by linarith [(Nat.cast_nonneg n : (0 : ℝ) ≤ n)]))
      have h8 : ((n : ℝ) + 1) * y ≤ a * Real.exp R := h6.trans (mul_le_mul_of_nonneg_left h7 ha)
      have h9 : (((n : ℝ) + 1) * y) ^ 2 ≤ (a * Real.exp R) ^ 2 :=
        pow_le_pow_left₀ (by positivity) h8 2
      have h10 : ((n : ℝ) + 1) * (K * y ^ 2 / (2 * e)) ≤
          K * a ^ 2 * Real.exp (2 * R) / (2 * e) * (1 / ((n : ℝ) + 1)) := by
        have e1 : ((n : ℝ) + 1) * (K * y ^ 2 / (2 * e)) =
            K / (2 * e) * (1 / ((n : ℝ) + 1)) * (((n : ℝ) + 1) * y) ^ 2 := by field_simp
        have e2 : K * a ^ 2 * Real.exp (2 * R) / (2 * e) * (1 / ((n : ℝ) + 1)) =
            K / (2 * e) * (1 / ((n : ℝ) + 1)) * (a * Real.exp R) ^ 2 := by
          rw [mul_pow, ← Real.exp_nat_mul]; push_cast; ring
        rw [e1, e2]
        exact mul_le_mul_of_nonneg_left h9 (by positivity)
      linarith
    have hlim : Tendsto (fun n : ℕ => ψ 0 + (a * Real.exp (R / ((n : ℝ) + 1)) +
        K * a ^ 2 * Real.exp (2 * R) / (2 * e) * (1 / ((n : ℝ) + 1)))) atTop
        (𝓝 (ψ 0 + (a * Real.exp 0 + K * a ^ 2 * Real.exp (2 * R) / (2 * e) * 0))) := by
      have t1 := tendsto_one_div_add_atTop_nhds_zero_nat (𝕜 := ℝ)
      have t2 : Tendsto (fun n : ℕ => R / ((n : ℝ) + 1)) atTop (𝓝 0) := by
        have := t1.const_mul R
        simpa [div_eq_mul_inv] using this
      exact (((Real.continuous_exp.tendsto 0).comp t2).const_mul a |>.add (t1.const_mul _)).const_add _
    have h4 := ge_of_tendsto' hlim h3
    rw [Real.exp_zero, mul_one, mul_zero, add_zero] at h4
    have h5 : ψ 0 ≤ F 0 + e := by
      apply Real.sqrt_le_iff.2
      refine ⟨by linarith [hF 0], ?_⟩
      nlinarith [mul_nonneg (hF 0) he.le]
    linarith [hψF 1]
  exact le_of_forall_pos_le_add key

/-- Second-order upper bound of `log²`. -/
theorem log_sq_le {x y m V : ℝ} (hm : 0 < m) (hx : m ≤ x) (hy : m ≤ y) (hV : |Real.log x| ≤ V) :
    Real.log y ^ 2 ≤ Real.log x ^ 2 + 2 * (Real.log x / x) * (y - x) +
      (1 + 2 * V) / m ^ 2 * (y - x) ^ 2 := by
  have hx0 : 0 < x := by linarith
  have hy0 : 0 < y := by linarith
  have hV0 : 0 ≤ V := (abs_nonneg _).trans hV
  set v := Real.log x
  set u := Real.log y
  have huv : u - v = Real.log (y / x) := by rw [Real.log_div hy0.ne' hx0.ne']
  have h1 : u - v ≤ (y - x) / x := by
    have := Real.log_le_sub_one_of_pos (div_pos hy0 hx0)
    rw [huv]
    have e : (y - x) / x = y / x - 1 := by field_simp
    linarith
  have h2 : (y - x) / x - (y - x) ^ 2 / (x * y) ≤ u - v := by
    have := Real.one_sub_inv_le_log_of_pos (div_pos hy0 hx0)
    rw [huv]
    have e : (y - x) / x - (y - x) ^ 2 / (x * y) = 1 - (y / x)⁻¹ := by field_simp; ring
    linarith
  have hq : (y - x) ^ 2 / (x * y) ≤ (y - x) ^ 2 / m ^ 2 := by
    apply div_le_div_of_nonneg_left (sq_nonneg _) (by positivity)
    nlinarith
  have hq0 : 0 ≤ (y - x) ^ 2 / m ^ 2 := by positivity
  have h3 : (u - v) ^ 2 ≤ (y - x) ^ 2 / m ^ 2 := by
    rw [← div_pow]
    apply sq_le_sq.2
    rw [abs_div, abs_of_pos hm, abs_le]
    have hlow : (y - x) / y ≤ u - v := by
      refine le_trans (le_of_eq ?_) h2
      field_simp; ring
    constructor
    · refine le_trans ?_ hlow
      rw [neg_le]
      rw [← neg_div]
      refine (div_le_div_of_nonneg_right (neg_le_abs (y - x)) hy0.le).trans ?_
      exact div_le_div_of_nonneg_left (abs_nonneg _) hm hy
    · refine h1.trans ?_
      refine (div_le_div_of_nonneg_right (le_abs_self (y - x)) hx0.le).trans ?_
      exact div_le_div_of_nonneg_left (abs_nonneg _) hm hx
  have h4 : 2 * v * (u - v) ≤ 2 * (v / x) * (y - x) + 2 * V * ((y - x) ^ 2 / m ^ 2) := by
    have e : 2 * (v / x) * (y - x) = 2 * v * ((y - x) / x) := by ring
    rw [e]
    rcases le_total 0 v with hv | hv
    · have := mul_le_mul_of_nonneg_left h1 (show (0 : ℝ) ≤ 2 * v by linarith)
      have := mul_nonneg hV0 hq0
      linarith
    · have a1 := mul_le_mul_of_nonpos_left h2 (show 2 * v ≤ 0 by linarith)
      have a2 : -v ≤ V := (neg_le_abs v).trans hV
      have a3 : -v * ((y - x) ^ 2 / (x * y)) ≤ V * ((y - x) ^ 2 / m ^ 2) :=
        mul_le_mul a2 hq (by positivity) hV0
      nlinarith
  have e : (1 + 2 * V) / m ^ 2 * (y - x) ^ 2 =
      (y - x) ^ 2 / m ^ 2 + 2 * V * ((y - x) ^ 2 / m ^ 2) := by ring
  rw [e]
  nlinarith

section
variable {𝕜 : Type} [RCLike 𝕜] {p : ℕ}

theorem trace_spectral (U V : Matrix (Fin p) (Fin p) 𝕜) (a b : Fin p → ℝ) :
    RCLike.re (U * diagonal (fun j => (a j : 𝕜)) * Uᴴ *
      (V * diagonal (fun j => (b j : 𝕜)) * Vᴴ)).trace =
      ∑ i, ∑ j, ‖(Uᴴ * V) i j‖ ^ 2 * (a i * b j) := by
  have h1 : (U * diagonal (fun j => (a j : 𝕜)) * Uᴴ * (V * diagonal (fun j => (b j : 𝕜)) * Vᴴ)).trace =
      (diagonal (fun j => (a j : 𝕜)) * (Uᴴ * V) * (diagonal (fun j => (b j : 𝕜)) * (Uᴴ * V)ᴴ)).trace := by
    rw [conjTranspose_mul, conjTranspose_conjTranspose,
      show U * diagonal (fun j => (a j : 𝕜)) * Uᴴ * (V * diagonal (fun j => (b j : 𝕜)) * Vᴴ) =
        U * (diagonal (fun j => (a j : 𝕜)) * Uᴴ * (V * diagonal (fun j => (b j : 𝕜)) * Vᴴ)) by
        simp only [Matrix.mul_assoc], trace_mul_comm]
    simp only [Matrix.mul_assoc]
  rw [h1, trace, map_sum]
  apply Finset.sum_congr rfl; intro i _
  rw [diag_apply, Matrix.mul_apply, map_sum]
  apply Finset.sum_congr rfl; intro j _
  rw [diagonal_mul, diagonal_mul, conjTranspose_apply, RCLike.star_def,
    show (a i : 𝕜) * (Uᴴ * V) i j * ((b j : 𝕜) * (starRingEnd 𝕜) ((Uᴴ * V) i j)) =
      ((Uᴴ * V) i j * (starRingEnd 𝕜) ((Uᴴ * V) i j)) * ((a i : 𝕜) * (b j : 𝕜)) by ring,
    RCLike.mul_conj, ← RCLike.ofReal_pow, ← RCLike.ofReal_mul, ← RCLike.ofReal_mul, RCLike.ofReal_re]

theorem weights_row {U V : Matrix (Fin p) (Fin p) 𝕜} (hU : Uᴴ * U = 1) (hV : Vᴴ * V = 1) (i : Fin p) :
    ∑ j, ‖(Uᴴ * V) i j‖ ^ 2 = 1 := by
  have h : (Uᴴ * V) * (Uᴴ * V)ᴴ = 1 := by
    rw [conjTranspose_mul, conjTranspose_conjTranspose,
      show Uᴴ * V * (Vᴴ * U) = Uᴴ * (V * Vᴴ) * U by simp only [Matrix.mul_assoc],
      mul_eq_one_comm.1 hV, Matrix.mul_one, hU]
  have h2 := congrArg RCLike.re (congrFun (congrFun h i) i)
  rw [Matrix.mul_apply, map_sum, one_apply_eq, RCLike.one_re] at h2
  rw [← h2]
  apply Finset.sum_congr rfl; intro j _
  rw [conjTranspose_apply, RCLike.star_def, RCLike.mul_conj, ← RCLike.ofReal_pow, RCLike.ofReal_re]

theorem weights_col {U V : Matrix (Fin p) (Fin p) 𝕜} (hU : Uᴴ * U = 1) (hV : Vᴴ * V = 1) (j : Fin p) :
    ∑ i, ‖(Uᴴ * V) i j‖ ^ 2 = 1 := by
  have h := weights_row hV hU j
  rw [← h]
  apply Finset.sum_congr rfl; intro i _
  rw [← norm_star ((Vᴴ * U) j i), ← conjTranspose_apply, conjTranspose_mul, conjTranspose_conjTranspose]

/-- Klein's inequality with a quadratic remainder. -/
theorem klein {U V : Matrix (Fin p) (Fin p) 𝕜} (hU : Uᴴ * U = 1) (hV : Vᴴ * V = 1)
    (x y : Fin p → ℝ) (f g : ℝ → ℝ) (K : ℝ)
    (h : ∀ i j, f (y j) ≤ f (x i) + g (x i) * (y j - x i) + K * (y j - x i) ^ 2) :
    ∑ j, f (y j) ≤ ∑ i, f (x i) +
      RCLike.re (U * diagonal (fun j => (g (x j) : 𝕜)) * Uᴴ *
        (V * diagonal (fun j => (y j : 𝕜)) * Vᴴ - U * diagonal (fun j => (x j : 𝕜)) * Uᴴ)).trace +
      K * RCLike.re ((V * diagonal (fun j => (y j : 𝕜)) * Vᴴ - U * diagonal (fun j => (x j : 𝕜)) * Uᴴ) *
        (V * diagonal (fun j => (y j : 𝕜)) * Vᴴ - U * diagonal (fun j => (x j : 𝕜)) * Uᴴ)).trace := by
  set w : Fin p → Fin p → ℝ := fun i j => ‖(Uᴴ * V) i j‖ ^ 2 with hw
  have hr : ∀ i, ∑ j, w i j = 1 := weights_row hU hV
  have hc : ∀ j, ∑ i, w i j = 1 := weights_col hU hV
  have hUU : ∀ a b : Fin p → ℝ, RCLike.re (U * diagonal (fun j => (a j : 𝕜)) * Uᴴ *
      (U * diagonal (fun j => (b j : 𝕜)) * Uᴴ)).trace = ∑ i, a i * b i := fun a b => by
    rw [trace_spectral, hU]
    apply Finset.sum_congr rfl; intro i _
    rw [Finset.sum_eq_single i]
    · simp
    · intro j _ hj; rw [one_apply_ne' hj]; simp
    · simp
  have hVV : ∀ a b : Fin p → ℝ, RCLike.re (V * diagonal (fun j => (a j : 𝕜)) * Vᴴ *
      (V * diagonal (fun j => (b j : 𝕜)) * Vᴴ)).trace = ∑ i, a i * b i := fun a b => by
    rw [trace_spectral, hV]
    apply Finset.sum_congr rfl; intro i _
    rw [Finset.sum_eq_single i]
    · simp
    · intro j _ hj; rw [one_apply_ne' hj]; simp
    · simp
  have row : ∀ c : Fin p → ℝ, ∑ i, c i = ∑ i, ∑ j, w i j * c i := fun c => by
    apply Finset.sum_congr rfl; intro i _
    rw [← Finset.sum_mul, hr, one_mul]
  have col : ∀ c : Fin p → ℝ, ∑ j, c j = ∑ i, ∑ j, w i j * c j := fun c => by
    rw [Finset.sum_comm]
    apply Finset.sum_congr rfl; intro j _
    rw [← Finset.sum_mul, hc, one_mul]
  have e1 : RCLike.re (U * diagonal (fun j => (g (x j) : 𝕜)) * Uᴴ *
      (V * diagonal (fun j => (y j : 𝕜)) * Vᴴ - U * diagonal (fun j => (x j : 𝕜)) * Uᴴ)).trace =
      ∑ i, ∑ j, w i j * (g (x i) * (y j - x i)) := by
    rw [Matrix.mul_sub, trace_sub, map_sub, trace_spectral U V (fun j => g (x j)) y,
      hUU (fun j => g (x j)) x, row fun i => g (x i) * x i, ← Finset.sum_sub_distrib]
    apply Finset.sum_congr rfl; intro i _
    rw [← Finset.sum_sub_distrib]
    apply Finset.sum_congr rfl; intro j _
    simp only [hw]; ring
  have e2 : RCLike.re ((V * diagonal (fun j => (y j : 𝕜)) * Vᴴ -
        U * diagonal (fun j => (x j : 𝕜)) * Uᴴ) * (V * diagonal (fun j => (y j : 𝕜)) * Vᴴ -
        U * diagonal (fun j => (x j : 𝕜)) * Uᴴ)).trace = ∑ i, ∑ j, w i j * (y j - x i) ^ 2 := by
    rw [Matrix.mul_sub, Matrix.sub_mul, Matrix.sub_mul, trace_sub, trace_sub, trace_sub,
      trace_mul_comm (V * diagonal (fun j => (y j : 𝕜)) * Vᴴ) (U * diagonal (fun j => (x j : 𝕜)) * Uᴴ),
      map_sub, map_sub, map_sub, trace_spectral U V x y, hUU x x, hVV y y, row fun i => x i * x i,
      col fun j => y j * y j,
      ← Finset.sum_sub_distrib, ← Finset.sum_sub_distrib, ← Finset.sum_sub_distrib]
    apply Finset.sum_congr rfl; intro i _
    rw [← Finset.sum_sub_distrib, ← Finset.sum_sub_distrib, ← Finset.sum_sub_distrib]
    apply Finset.sum_congr rfl; intro j _
    simp only [hw]; ring
  rw [e1, e2, col fun j => f (y j), row fun i => f (x i), ← Finset.sum_add_distrib, Finset.mul_sum,
    ← Finset.sum_add_distrib]
  apply Finset.sum_le_sum; intro i _
  rw [← Finset.sum_add_distrib, Finset.mul_sum, ← Finset.sum_add_distrib]
  apply Finset.sum_le_sum; intro j _
  have := mul_le_mul_of_nonneg_left (h i j) (show 0 ≤ w i j from sq_nonneg _)
  calc _ ≤ _ := this
    _ = _ := by ring

theorem re_trace_mul_self_frob {A : Matrix (Fin p) (Fin p) 𝕜} (hA : A.IsHermitian) :
    RCLike.re (A * A).trace = frob A ^ 2 := by
  rw [frob_sq, hA.eq]

theorem frob_diagonal_sq (d : Fin p → ℝ) :
    frob (diagonal (fun j => (d j : 𝕜))) ^ 2 = ∑ j, d j ^ 2 := by
  unfold frob
  rw [Real.sq_sqrt (Finset.sum_nonneg fun i _ => Finset.sum_nonneg fun j _ => sq_nonneg _)]
  apply Finset.sum_congr rfl; intro a _
  rw [Finset.sum_eq_single a]
  · simp
  · intro b _ hb; simp [diagonal_apply_ne' _ hb]
  · simp

theorem frob_mul_le (A B : Matrix (Fin p) (Fin p) 𝕜) : frob (A * B) ≤ frob A * frob B := by
  simp only [frob_eq_norm]; exact Matrix.frobenius_norm_mul A B

theorem frob_conjTranspose (A : Matrix (Fin p) (Fin p) 𝕜) : frob Aᴴ = frob A := by
  simp only [frob_eq_norm]; exact Matrix.frobenius_norm_conjTranspose A

/-- One step along a geodesic: `X = W Wᴴ`, `Y = W diag(1+d) Wᴴ`. -/
theorem log_step {U V W : Matrix (Fin p) (Fin p) 𝕜} (hU : Uᴴ * U = 1) (hV : Vᴴ * V = 1)
    {x y d : Fin p → ℝ} {m A T : ℝ} (hm : 0 < m) (hx : ∀ i, m ≤ x i) (hy : ∀ i, m ≤ y i)
    (hA : ∀ i, |Real.log (x i)| ≤ A) (hA0 : 0 ≤ A)
    (hX : U * diagonal (fun j => (x j : 𝕜)) * Uᴴ = W * Wᴴ)
    (hY : V * diagonal (fun j => (y j : 𝕜)) * Vᴴ = W * diagonal (fun j => ((1 + d j : ℝ) : 𝕜)) * Wᴴ)
    (hT : frob W ^ 2 ≤ T) :
    ∑ j, Real.log (y j) ^ 2 ≤ ∑ j, Real.log (x j) ^ 2 +
      2 * Real.sqrt (∑ j, Real.log (x j) ^ 2) * Real.sqrt (∑ j, d j ^ 2) +
      ((1 + 2 * A) / m ^ 2 * T ^ 2) * Real.sqrt (∑ j, d j ^ 2) ^ 2 := by
  have hx0 : ∀ i, 0 < x i := fun i => hm.trans_le (hx i)
  have hk := klein hU hV x y (fun t => Real.log t ^ 2) (fun t => 2 * (Real.log t / t))
    ((1 + 2 * A) / m ^ 2) fun i j => log_sq_le hm (hx i) (hy j) (hA i)
  have hd0 : 0 ≤ ∑ j, d j ^ 2 := Finset.sum_nonneg fun j _ => sq_nonneg _
  have hdiff : V * diagonal (fun j => (y j : 𝕜)) * Vᴴ - U * diagonal (fun j => (x j : 𝕜)) * Uᴴ =
      W * diagonal (fun j => (d j : 𝕜)) * Wᴴ := by
    have e : (diagonal (fun j => ((1 + d j : ℝ) : 𝕜)) : Matrix (Fin p) (Fin p) 𝕜) =
        1 + diagonal (fun j => (d j : 𝕜)) := by
      rw [← diagonal_one, diagonal_add]
      congr 1; funext j; simp
    rw [hX, hY, e, Matrix.mul_add, Matrix.mul_one, Matrix.add_mul, add_sub_cancel_left]
  rw [hdiff] at hk
  -- the quadratic term
  have hherm : (W * diagonal (fun j => (d j : 𝕜)) * Wᴴ).IsHermitian := by
    rw [← hdiff]
    have h1 : ∀ (Q : Matrix (Fin p) (Fin p) 𝕜) (c : Fin p → ℝ),
        (Q * diagonal (fun j => (c j : 𝕜)) * Qᴴ).IsHermitian := fun Q c =>
      isHermitian_mul_mul_conjTranspose Q (by
        rw [IsHermitian, diagonal_conjTranspose]
        congr 1; funext j; simp)
    exact (h1 V y).sub (h1 U x)
  have hT0 : 0 ≤ T := (sq_nonneg _).trans hT
  have hquad : RCLike.re (W * diagonal (fun j => (d j : 𝕜)) * Wᴴ *
      (W * diagonal (fun j => (d j : 𝕜)) * Wᴴ)).trace ≤ T ^ 2 * Real.sqrt (∑ j, d j ^ 2) ^ 2 := by
    rw [re_trace_mul_self_frob hherm, Real.sq_sqrt hd0, ← frob_diagonal_sq (𝕜 := 𝕜) d, ← mul_pow]
    apply pow_le_pow_left₀ (frob_nonneg _)
    calc frob (W * diagonal (fun j => (d j : 𝕜)) * Wᴴ)
        ≤ frob W * frob (diagonal (fun j => (d j : 𝕜))) * frob Wᴴ :=
          (frob_mul_le _ _).trans (mul_le_mul_of_nonneg_right (frob_mul_le _ _) (frob_nonneg _))
      _ = frob W ^ 2 * frob (diagonal (fun j => (d j : 𝕜))) := by rw [frob_conjTranspose]; ring
      _ ≤ _ := mul_le_mul_of_nonneg_right hT (frob_nonneg _)
  -- the linear term
  set B : Matrix (Fin p) (Fin p) 𝕜 := U * diagonal (fun j => ((Real.log (x j) / x j : ℝ) : 𝕜)) * Uᴴ
    with hB
  set M := Wᴴ * B * W with hM
  have hBherm : B.IsHermitian := isHermitian_mul_mul_conjTranspose U (by
    rw [IsHermitian, diagonal_conjTranspose]
    congr 1; funext j; simp)
  have hMherm : M.IsHermitian := by
    have := isHermitian_mul_mul_conjTranspose Wᴴ hBherm
    rwa [conjTranspose_conjTranspose] at this
  have hBX : B * (W * Wᴴ) = U * diagonal (fun j => (Real.log (x j) : 𝕜)) * Uᴴ := by
    rw [← hX, hB,
      show U * diagonal (fun j => ((Real.log (x j) / x j : ℝ) : 𝕜)) * Uᴴ *
          (U * diagonal (fun j => (x j : 𝕜)) * Uᴴ) =
        U * diagonal (fun j => ((Real.log (x j) / x j : ℝ) : 𝕜)) * (Uᴴ * U) *
          diagonal (fun j => (x j : 𝕜)) * Uᴴ by simp only [Matrix.mul_assoc], hU, Matrix.mul_one,
      Matrix.mul_assoc U, diagonal_mul_diagonal]
    congr 3; funext j
    rw [← RCLike.ofReal_mul, div_mul_cancel₀ _ (hx0 j).ne']
  have hMM : RCLike.re (M * M).trace = ∑ j, Real.log (x j) ^ 2 := by
    have e : (M * M).trace = (B * (W * Wᴴ) * (B * (W * Wᴴ))).trace := by
      rw [hM, show Wᴴ * B * W * (Wᴴ * B * W) = Wᴴ * (B * W * (Wᴴ * B * W)) by
        simp only [Matrix.mul_assoc], trace_mul_comm]
      simp only [Matrix.mul_assoc]
    rw [e, hBX, trace_spectral, hU]
    apply Finset.sum_congr rfl; intro i _
    rw [Finset.sum_eq_single i]
    · simp [sq]
    · intro j _ hj; rw [one_apply_ne' hj]; simp
    · simp
  have hz : ∑ j, RCLike.re (M j j) ^ 2 ≤ ∑ j, Real.log (x j) ^ 2 := by
    rw [← hMM, re_trace_mul_self_frob hMherm]
    unfold frob
    rw [Real.sq_sqrt (Finset.sum_nonneg fun i _ => Finset.sum_nonneg fun j _ => sq_nonneg _)]
    apply Finset.sum_le_sum; intro j _
    calc RCLike.re (M j j) ^ 2 ≤ ‖M j j‖ ^ 2 := by
          apply sq_le_sq.2
          rw [abs_of_nonneg (norm_nonneg _)]
          exact RCLike.abs_re_le_norm _
      _ ≤ _ := Finset.single_le_sum (f := fun k => ‖M j k‖ ^ 2) (fun k _ => sq_nonneg _)
          (Finset.mem_univ j)
  have hlin : RCLike.re (U * diagonal (fun j => ((2 * (Real.log (x j) / x j) : ℝ) : 𝕜)) * Uᴴ *
      (W * diagonal (fun j => (d j : 𝕜)) * Wᴴ)).trace = 2 * ∑ j, RCLike.re (M j j) * d j := by
    have e1 : U * diagonal (fun j => ((2 * (Real.log (x j) / x j) : ℝ) : 𝕜)) * Uᴴ = ((2 : ℝ) : 𝕜) • B := by
      rw [hB, ← Matrix.smul_mul, ← Matrix.mul_smul, ← diagonal_smul]
      congr 3; funext j
      simp
    have e2 : (B * (W * diagonal (fun j => (d j : 𝕜)) * Wᴴ)).trace =
        (M * diagonal (fun j => (d j : 𝕜))).trace := by
      rw [← Matrix.mul_assoc, trace_mul_comm, hM]
      simp only [Matrix.mul_assoc]
    rw [e1, Matrix.smul_mul, trace_smul, smul_eq_mul, RCLike.re_ofReal_mul, e2, trace, map_sum]
    congr 1
    apply Finset.sum_congr rfl; intro j _
    rw [diag_apply, mul_diagonal, mul_comm, RCLike.re_ofReal_mul, mul_comm]
  have hcs : ∑ j, RCLike.re (M j j) * d j ≤
      Real.sqrt (∑ j, Real.log (x j) ^ 2) * Real.sqrt (∑ j, d j ^ 2) := by
    refine (Real.sum_mul_le_sqrt_mul_sqrt Finset.univ (fun j => RCLike.re (M j j)) d).trans ?_
    exact mul_le_mul_of_nonneg_right (Real.sqrt_le_sqrt hz) (Real.sqrt_nonneg _)
  have hK0 : 0 ≤ (1 + 2 * A) / m ^ 2 := by positivity
  have hq2 := mul_le_mul_of_nonneg_left hquad hK0
  rw [hlin] at hk
  calc _ ≤ _ := hk
    _ ≤ _ := by linarith

theorem abs_exp_sub_one_le' (a : ℝ) : |Real.exp a - 1| ≤ |a| * Real.exp |a| := by
  have h1 := Real.add_one_le_exp a
  have h2 := Real.add_one_le_exp (-a)
  have h3 : Real.exp a * Real.exp (-a) = 1 := by rw [← Real.exp_add, add_neg_cancel, Real.exp_zero]
  have h4 := Real.exp_pos a
  rcases le_total 0 a with ha | ha
  · rw [abs_of_nonneg ha, abs_of_nonneg (by linarith)]
    nlinarith
  · rw [abs_of_nonpos ha, abs_of_nonpos (by
      have := Real.exp_le_one_iff.2 ha
      linarith)]
    have h5 : 1 ≤ Real.exp (-a) := Real.one_le_exp (by linarith)
    nlinarith

theorem eigen_bounds {U : Matrix (Fin p) (Fin p) 𝕜} (hU : Uᴴ * U = 1) {x : Fin p → ℝ} {a b : ℝ}
    (h1 : Loewner ((a : 𝕜) • 1) (U * diagonal (fun j => (x j : 𝕜)) * Uᴴ))
    (h2 : Loewner (U * diagonal (fun j => (x j : 𝕜)) * Uᴴ) ((b : 𝕜) • 1)) (j : Fin p) :
    a ≤ x j ∧ x j ≤ b := by
  have e : ∀ c : ℝ, Uᴴ * ((c : 𝕜) • (1 : Matrix (Fin p) (Fin p) 𝕜)) * Uᴴᴴ =
      diagonal fun _ => (c : 𝕜) := fun c => by
    rw [conjTranspose_conjTranspose, Matrix.mul_smul, Matrix.smul_mul, Matrix.mul_one, hU,
      smul_one_eq_diagonal]
  have e' : Uᴴ * (U * diagonal (fun j => (x j : 𝕜)) * Uᴴ) * Uᴴᴴ = diagonal fun j => (x j : 𝕜) := by
    rw [conjTranspose_conjTranspose,
      show Uᴴ * (U * diagonal (fun j => (x j : 𝕜)) * Uᴴ) * U =
        (Uᴴ * U) * diagonal (fun j => (x j : 𝕜)) * (Uᴴ * U) by simp only [Matrix.mul_assoc], hU,
      Matrix.one_mul, Matrix.mul_one]
  have g1 := h1.congr Uᴴ
  have g2 := h2.congr Uᴴ
  rw [e, e'] at g1 g2
  exact ⟨(loewner_diagonal (l := fun _ => a)).1 g1 j, (loewner_diagonal (m := fun _ => b)).1 g2 j⟩

/-- The triangle inequality, from the identity. -/
theorem log_triangle {T : Matrix (Fin p) (Fin p) 𝕜} (hT : IsUnit T) (μ : Fin p → ℝ) :
    ∃ (U V : Matrix (Fin p) (Fin p) 𝕜) (x y : Fin p → ℝ), Uᴴ * U = 1 ∧ Vᴴ * V = 1 ∧
      T * Tᴴ = U * diagonal (fun j => (x j : 𝕜)) * Uᴴ ∧
      T * diagonal (fun j => ((Real.exp (μ j) : ℝ) : 𝕜)) * Tᴴ = V * diagonal (fun j => (y j : 𝕜)) * Vᴴ ∧
      Real.sqrt (∑ j, Real.log (y j) ^ 2) ≤
        Real.sqrt (∑ j, Real.log (x j) ^ 2) + Real.sqrt (∑ j, μ j ^ 2) := by
  set X : ℝ → Matrix (Fin p) (Fin p) 𝕜 := fun t =>
    T * diagonal (fun j => ((Real.exp (t * μ j) : ℝ) : 𝕜)) * Tᴴ with hX
  have hinj := Matrix.vecMul_injective_of_isUnit hT
  have hdiagPD : ∀ t : ℝ, (diagonal (fun j => ((Real.exp (t * μ j) : ℝ) : 𝕜))).PosDef := fun t =>
    PosDef.diagonal fun j => by simpa using Real.exp_pos (t * μ j)
  have hPD : ∀ t, (X t).PosDef := fun t => (hdiagPD t).mul_mul_conjTranspose_same hinj
  have hB : (T * Tᴴ).PosDef := by
    have := (PosDef.one (R := 𝕜) (n := Fin p)).mul_mul_conjTranspose_same hinj
    rwa [Matrix.mul_one] at this
  choose U x hU hx hUx using fun t => spectral_exists (X t) (hPD t)
  have hX0 : X 0 = T * Tᴴ := by simp [hX]
  have hX1 : X 1 = T * diagonal (fun j => ((Real.exp (μ j) : ℝ) : 𝕜)) * Tᴴ := by simp [hX]
  refine ⟨U 0, U 1, x 0, x 1, hU 0, hU 1, hX0 ▸ hUx 0, hX1 ▸ hUx 1, ?_⟩
  -- bounds
  set R : ℝ := ∑ j, |μ j| with hR
  have hR0 : 0 ≤ R := Finset.sum_nonneg fun j _ => abs_nonneg _
  have hμR : ∀ j, |μ j| ≤ R := fun j =>
    Finset.single_le_sum (f := fun j => |μ j|) (fun j _ => abs_nonneg _) (Finset.mem_univ j)
  obtain ⟨c, hc, hc1, hc2⟩ := exists_between (PosDef.one (R := 𝕜) (n := Fin p)) hB
  have hc0 : 0 < c := by linarith
  have htμ : ∀ t j, 0 ≤ t → t ≤ 1 → |t * μ j| ≤ R := fun t j h0 h1 => by
    rw [abs_mul, abs_of_nonneg h0]
    calc t * |μ j| ≤ 1 * |μ j| := mul_le_mul_of_nonneg_right h1 (abs_nonneg _)
      _ ≤ R := by rw [one_mul]; exact hμR j
  have hlow : ∀ t, 0 ≤ t → t ≤ 1 → Loewner (((Real.exp (-R) * c⁻¹ : ℝ) : 𝕜) • 1) (X t) := by
    intro t h0 h1
    have a1 := (loewner_diagonal (𝕜 := 𝕜) (l := fun _ => Real.exp (-R))
      (m := fun j => Real.exp (t * μ j))).2 fun j =>
        Real.exp_le_exp.2 (abs_le.1 (htμ t j h0 h1)).1
    have a2 := a1.congr T
    rw [show (diagonal fun _ => ((Real.exp (-R) : ℝ) : 𝕜)) =
      ((Real.exp (-R) : ℝ) : 𝕜) • (1 : Matrix (Fin p) (Fin p) 𝕜) by rw [smul_one_eq_diagonal],
      Matrix.mul_smul, Matrix.smul_mul, Matrix.mul_one] at a2
    have a3 := hc1.smul (Real.exp_pos (-R)).le
    rw [smul_smul, ← RCLike.ofReal_mul] at a3
    exact a3.trans a2
  have hupp : ∀ t, 0 ≤ t → t ≤ 1 → Loewner (X t) (((Real.exp R * c : ℝ) : 𝕜) • 1) := by
    intro t h0 h1
    have a1 := (loewner_diagonal (𝕜 := 𝕜) (m := fun _ => Real.exp R)
      (l := fun j => Real.exp (t * μ j))).2 fun j =>
        Real.exp_le_exp.2 (abs_le.1 (htμ t j h0 h1)).2
    have a2 := a1.congr T
    rw [show (diagonal fun _ => ((Real.exp R : ℝ) : 𝕜)) =
      ((Real.exp R : ℝ) : 𝕜) • (1 : Matrix (Fin p) (Fin p) 𝕜) by rw [smul_one_eq_diagonal],
      Matrix.mul_smul, Matrix.smul_mul, Matrix.mul_one] at a2
    have a3 := hc2.smul (Real.exp_pos R).le
    rw [smul_smul, ← RCLike.ofReal_mul] at a3
    exact a2.trans a3
  have hxb : ∀ t, 0 ≤ t → t ≤ 1 → ∀ j, Real.exp (-R) * c⁻¹ ≤ x t j ∧ x t j ≤ Real.exp R * c :=
    fun t h0 h1 j => eigen_bounds (hU t) (by rw [← hUx t]; exact hlow t h0 h1)
      (by rw [← hUx t]; exact hupp t h0 h1) j
  have hm0 : 0 < Real.exp (-R) * c⁻¹ := by positivity
  set A : ℝ := R + Real.log c with hAdef
  have hlc : 0 ≤ Real.log c := Real.log_nonneg hc
  have hA : ∀ t, 0 ≤ t → t ≤ 1 → ∀ j, |Real.log (x t j)| ≤ A := by
    intro t h0 h1 j
    obtain ⟨b1, b2⟩ := hxb t h0 h1 j
    have l1 := Real.log_le_log hm0 b1
    have l2 := Real.log_le_log (hx t j) b2
    rw [Real.log_mul (Real.exp_pos _).ne' (inv_pos.2 hc0).ne', Real.log_exp, Real.log_inv] at l1
    rw [Real.log_mul (Real.exp_pos _).ne' hc0.ne', Real.log_exp] at l2
    rw [abs_le]
    constructor <;> linarith
  set F : ℝ → ℝ := fun t => Real.sqrt (∑ j, Real.log (x t j) ^ 2) with hF
  set η : ℝ → ℝ := fun h => Real.sqrt (∑ j, (Real.exp (h * μ j) - 1) ^ 2) with hη
  refine telescope (F := F) (η := η) (a := Real.sqrt (∑ j, μ j ^ 2))
    (K := (1 + 2 * A) / (Real.exp (-R) * c⁻¹) ^ 2 * (p * (Real.exp R * c)) ^ 2) (R := R)
    (fun t => Real.sqrt_nonneg _) (by positivity) (Real.sqrt_nonneg _) hR0
    (fun h => Real.sqrt_nonneg _) (fun h h0 => ?_) (fun t h h0 hh hth => ?_)
  · rw [hη]
    apply Real.sqrt_le_iff.2
    refine ⟨by positivity, ?_⟩
    rw [mul_pow, mul_pow, Real.sq_sqrt (Finset.sum_nonneg fun j _ => sq_nonneg _),
      Finset.mul_sum, Finset.sum_mul]
    apply Finset.sum_le_sum; intro j _
    have b1 := abs_exp_sub_one_le' (h * μ j)
    have b2 : |h * μ j| ≤ h * R := by
      rw [abs_mul, abs_of_nonneg h0]; exact mul_le_mul_of_nonneg_left (hμR j) h0
    have b3 : |Real.exp (h * μ j) - 1| ≤ |h * μ j| * Real.exp (h * R) :=
      b1.trans (mul_le_mul_of_nonneg_left (Real.exp_le_exp.2 b2) (abs_nonneg _))
    calc (Real.exp (h * μ j) - 1) ^ 2 = |Real.exp (h * μ j) - 1| ^ 2 := (sq_abs _).symm
      _ ≤ (|h * μ j| * Real.exp (h * R)) ^ 2 := pow_le_pow_left₀ (abs_nonneg _) b3 2
      _ = h ^ 2 * μ j ^ 2 * Real.exp (h * R) ^ 2 := by rw [mul_pow, sq_abs]; ring
  · have ht1 : t ≤ 1 := by linarith
    have hth0 : 0 ≤ t + h := by linarith
    set W : Matrix (Fin p) (Fin p) 𝕜 := T * diagonal (fun j => ((Real.exp (t * μ j / 2) : ℝ) : 𝕜))
      with hW
    have hWH : Wᴴ = diagonal (fun j => ((Real.exp (t * μ j / 2) : ℝ) : 𝕜)) * Tᴴ := by
      rw [hW, conjTranspose_mul, diagonal_conjTranspose]
      congr 2; funext j; simp
    have hWW : X t = W * Wᴴ := by
      rw [hWH, hW, hX]
      simp only
      rw [show T * diagonal (fun j => ((Real.exp (t * μ j / 2) : ℝ) : 𝕜)) *
          (diagonal (fun j => ((Real.exp (t * μ j / 2) : ℝ) : 𝕜)) * Tᴴ) =
        T * (diagonal (fun j => ((Real.exp (t * μ j / 2) : ℝ) : 𝕜)) *
          diagonal (fun j => ((Real.exp (t * μ j / 2) : ℝ) : 𝕜))) * Tᴴ by simp only [Matrix.mul_assoc],
        diagonal_mul_diagonal]
      congr 3; funext j
      rw [← RCLike.ofReal_mul, ← Real.exp_add, add_halves]
    have hWY : X (t + h) =
        W * diagonal (fun j => ((1 + (Real.exp (h * μ j) - 1) : ℝ) : 𝕜)) * Wᴴ := by
      rw [hWH, hW, hX]
      simp only
      rw [show T * diagonal (fun j => ((Real.exp (t * μ j / 2) : ℝ) : 𝕜)) *
          diagonal (fun j => ((1 + (Real.exp (h * μ j) - 1) : ℝ) : 𝕜)) *
          (diagonal (fun j => ((Real.exp (t * μ j / 2) : ℝ) : 𝕜)) * Tᴴ) =
        T * (diagonal (fun j => ((Real.exp (t * μ j / 2) : ℝ) : 𝕜)) *
          (diagonal (fun j => ((1 + (Real.exp (h * μ j) - 1) : ℝ) : 𝕜)) *
          diagonal (fun j => ((Real.exp (t * μ j / 2) : ℝ) : 𝕜)))) * Tᴴ by
          simp only [Matrix.mul_assoc],
        diagonal_mul_diagonal, diagonal_mul_diagonal]
      congr 3; funext j
      rw [← RCLike.ofReal_mul, ← RCLike.ofReal_mul, add_sub_cancel, ← Real.exp_add, ← Real.exp_add]
      congr 2; ring
    have hfW : frob W ^ 2 ≤ p * (Real.exp R * c) := by
      rw [frob_sq, trace_mul_comm, ← hWW, hUx t, Matrix.mul_assoc, trace_mul_comm, Matrix.mul_assoc,
        hU t, Matrix.mul_one, trace_diagonal, map_sum]
      simp only [RCLike.ofReal_re]
      calc ∑ j, x t j ≤ ∑ _j : Fin p, Real.exp R * c :=
            Finset.sum_le_sum fun j _ => (hxb t h0 ht1 j).2
        _ = _ := by simp
    have := log_step (hU t) (hU (t + h)) hm0 (fun j => (hxb t h0 ht1 j).1)
      (fun j => (hxb (t + h) hth0 hth j).1) (hA t h0 ht1) (by positivity)
      (by rw [← hUx t, hWW]) (by rw [← hUx (t + h), hWY]) hfW
    rw [hF, hη]
    simp only
    rw [Real.sq_sqrt (Finset.sum_nonneg fun j _ => sq_nonneg _),
      Real.sq_sqrt (Finset.sum_nonneg fun j _ => sq_nonneg _)]
    exact this

end
end RS
