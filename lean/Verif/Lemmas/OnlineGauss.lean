import Verif.Props.HPD
import Verif.Lemmas.Rate
import Verif.Lemmas.DataCont
import Mathlib.NumberTheory.Harmonic.Bounds

/-
The online estimator with the gradient of the Gaussian cost: the recursion behind C168.
-/
set_option autoImplicit false

namespace RS
open Matrix ComplexOrder Filter Topology

/-! ## Scalar recursion -/

section scalar

/-- Abel summation: terms whose averages are bounded by `F`, weighted with `1/(j+1)`. -/
theorem weighted_sum_le {q : ℕ → ℝ} {F : ℝ} (hF : 0 ≤ F)
    (hQ : ∀ n : ℕ, ∑ j ∈ Finset.range n, q j ≤ F * n) (n : ℕ) :
    ∑ j ∈ Finset.range n, q j / (j + 1) ≤
      (∑ j ∈ Finset.range n, q j) / n + F * ∑ j ∈ Finset.range n, 1 / ((j : ℝ) + 1) := by
  induction n with
  | zero => simp
  | succ n ih =>
    rw [Finset.sum_range_succ, Finset.sum_range_succ (fun j => 1 / ((j : ℝ) + 1)),
      Finset.sum_range_succ (fun j => q j)]
    set T := ∑ j ∈ Finset.range n, q j / ((j : ℝ) + 1)
    set H := ∑ j ∈ Finset.range n, 1 / ((j : ℝ) + 1)
    have hQn := hQ n
    set Q := ∑ j ∈ Finset.range n, q j with hQd
    push_cast
    have key : Q / n - Q / (n + 1) ≤ F / (n + 1) := by
      rcases Nat.eq_zero_or_pos n with rfl | hn
      · simp [hQd]; positivity
      · have hn' : (0 : ℝ) < n := by exact_mod_cast hn
        have : Q / n ≤ F := by rwa [div_le_iff₀ hn']
        have e : Q / n - Q / (n + 1) = Q / n / (n + 1) := by field_simp; ring
        rw [e]
        gcongr
    have e1 : (Q + q n) / ((n : ℝ) + 1) = Q / (n + 1) + q n / (n + 1) := add_div _ _ _
    have e2 : F * (H + 1 / ((n : ℝ) + 1)) = F * H + F / (n + 1) := by ring
    rw [e1, e2]
    linarith

theorem harmonic_sum_le (n : ℕ) : ∑ j ∈ Finset.range n, 1 / ((j : ℝ) + 1) ≤ 1 + Real.log n := by
  have := harmonic_le_one_add_log n
  rw [harmonic] at this
  push_cast at this
  simpa [one_div] using this

/-- `E_{k+1} ≤ E_k + (s_k² / l + (E_k + σ_k) / k) / (2 (k + 1))` makes `E` grow like a logarithm. -/
theorem log_growth {E s : ℕ → ℝ} {l F : ℝ} (hl : 0 < l)
    (hQ : ∀ n : ℕ, ∑ j ∈ Finset.range n, s j ^ 2 ≤ F * n) (h0 : ∀ k, 0 ≤ E k)
    (hE : ∀ k : ℕ, 1 ≤ k → E (k + 1) ≤ E k +
      (s k ^ 2 / l + (E k + ∑ j ∈ Finset.range k, s j) / k) / (2 * (k + 1))) :
    ∃ C : ℝ, 0 ≤ C ∧ ∀ n : ℕ, 1 ≤ n → E n ≤ C * (1 + Real.log n) := by
  have hF : 0 ≤ F := by
    have := hQ 1
    simp only [Finset.sum_range_one, Nat.cast_one, mul_one] at this
    exact (sq_nonneg _).trans this
  set w : ℕ → ℝ := fun j => s j ^ 2 / l + (1 + F) / 2 with hw
  have hw0 : ∀ j, 0 ≤ w j := fun j => by simp only [hw]; positivity
  have hmean : ∀ k : ℕ, 1 ≤ k → (∑ j ∈ Finset.range k, s j) / k ≤ (1 + F) / 2 := by
    intro k hk
    have hk' : (0 : ℝ) < k := by exact_mod_cast hk
    rw [div_le_iff₀ hk']
    have h1 : ∑ j ∈ Finset.range k, s j ≤ ∑ j ∈ Finset.range k, (1 / 2 + s j ^ 2 / 2) :=
      Finset.sum_le_sum fun j _ => by nlinarith [sq_nonneg (s j - 1)]
    have e : ∑ j ∈ Finset.range k, s j ^ 2 / 2 = (∑ j ∈ Finset.range k, s j ^ 2) / 2 :=
      (Finset.sum_div ..).symm
    rw [Finset.sum_add_distrib, e, Finset.sum_const, Finset.card_range, nsmul_eq_mul] at h1
    have := hQ k
    linarith
  set B : ℕ → ℝ := fun n => ∑ j ∈ Finset.range n, w j / (j + 1) with hB
  have hB0 : ∀ n, 0 ≤ B n := fun n =>
    Finset.sum_nonneg fun j _ => div_nonneg (hw0 j) (by positivity)
  have claim : ∀ k : ℕ, 1 ≤ k → E k ≤ (2 - 1 / (k : ℝ)) * (E 1 + B k / 2) := by
    intro k hk
    induction k, hk using Nat.le_induction with
    | base => norm_num; linarith [hB0 1]
    | succ k hk ih =>
      have hk' : (1 : ℝ) ≤ k := by exact_mod_cast hk
      have hs := hE k hk
      have hm := hmean k hk
      have hBs : B (k + 1) = B k + w k / (k + 1) := by
        simp only [hB, Finset.sum_range_succ]
      rw [hBs, add_div (E k)] at *
      push_cast
      set A := E 1 + B k / 2 with hA
      have hA0 : 0 ≤ A := by have := h0 1; have := hB0 k; positivity
      have hstep : E (k + 1) ≤ E k * (1 + 1 / (2 * k * (k + 1))) + w k / (2 * (k + 1)) := by
        refine hs.trans ?_
        have e : E k * (1 + 1 / (2 * k * (k + 1))) + w k / (2 * (k + 1)) =
            E k + (s k ^ 2 / l + (E k / k + (1 + F) / 2)) / (2 * (k + 1)) := by
          simp only [hw]; field_simp; ring
        rw [e]
        gcongr
      refine hstep.trans ?_
      have hu : (2 - 1 / (k : ℝ)) * (1 + 1 / (2 * k * (k + 1))) ≤ 2 - 1 / (k + 1) := by
        have : 2 - 1 / ((k : ℝ) + 1) - (2 - 1 / (k : ℝ)) * (1 + 1 / (2 * k * (k + 1))) =
            1 / (2 * k ^ 2 * (k + 1)) := by field_simp; ring
        have h2 : 0 ≤ 1 / (2 * (k : ℝ) ^ 2 * (k + 1)) := by positivity
        linarith
      have h1 : E k * (1 + 1 / (2 * k * (k + 1))) ≤ (2 - 1 / ((k : ℝ) + 1)) * A := by
        calc E k * (1 + 1 / (2 * k * (k + 1)))
            ≤ (2 - 1 / (k : ℝ)) * A * (1 + 1 / (2 * k * (k + 1))) := by gcongr
          _ = (2 - 1 / (k : ℝ)) * (1 + 1 / (2 * k * (k + 1))) * A := by ring
          _ ≤ _ := by gcongr
      have h2 : w k / (2 * (k + 1)) ≤ (2 - 1 / ((k : ℝ) + 1)) * (w k / (2 * (k + 1))) := by
        have h3 : 1 / ((k : ℝ) + 1) ≤ 1 := by
          rw [div_le_one (by positivity)]; linarith
        have h4 : 0 ≤ w k / (2 * ((k : ℝ) + 1)) := div_nonneg (hw0 k) (by positivity)
        nlinarith
      have e : E 1 + (B k + w k / ((k : ℝ) + 1)) / 2 = A + w k / (2 * (k + 1)) := by
        rw [hA]; field_simp; ring
      rw [e, mul_add]
      linarith
  have hBle : ∀ n : ℕ, 1 ≤ n → B n ≤ (2 * F / l + (1 + F) / 2) * (1 + Real.log n) := by
    intro n hn
    have hn' : (0 : ℝ) < n := by exact_mod_cast hn
    have hlog : 0 ≤ Real.log n := Real.log_nonneg (by exact_mod_cast hn)
    have hH := harmonic_sum_le n
    have hW := weighted_sum_le hF hQ n
    have hQn : (∑ j ∈ Finset.range n, s j ^ 2) / n ≤ F := by
      rw [div_le_iff₀ hn']; exact hQ n
    have e : B n = (∑ j ∈ Finset.range n, s j ^ 2 / (j + 1)) / l +
        (1 + F) / 2 * ∑ j ∈ Finset.range n, 1 / ((j : ℝ) + 1) := by
      simp only [hB, hw]
      rw [Finset.sum_div, Finset.mul_sum, ← Finset.sum_add_distrib]
      exact Finset.sum_congr rfl fun j _ => by field_simp
    rw [e, add_mul]
    have h1 : ∑ j ∈ Finset.range n, s j ^ 2 / ((j : ℝ) + 1) ≤ 2 * F * (1 + Real.log n) := by
      nlinarith
    have h2 : (∑ j ∈ Finset.range n, s j ^ 2 / ((j : ℝ) + 1)) / l ≤
        2 * F / l * (1 + Real.log n) := by
      rw [div_mul_eq_mul_div]; gcongr
    have h3 : (1 + F) / 2 * ∑ j ∈ Finset.range n, 1 / ((j : ℝ) + 1) ≤
        (1 + F) / 2 * (1 + Real.log n) := by gcongr
    linarith
  refine ⟨2 * E 1 + (2 * F / l + (1 + F) / 2), ?_, fun n hn => ?_⟩
  · have := h0 1; positivity
  · have hlog : 0 ≤ Real.log n := Real.log_nonneg (by exact_mod_cast hn)
    have h1 := claim n hn
    have h2 := hBle n hn
    have h3 : (2 - 1 / (n : ℝ)) * (E 1 + B n / 2) ≤ 2 * (E 1 + B n / 2) := by
      have : 0 ≤ E 1 + B n / 2 := by have := h0 1; have := hB0 n; positivity
      have h4 : 0 ≤ 1 / (n : ℝ) := by positivity
      nlinarith
    have := h0 1
    nlinarith

/-- `e_{k+1} ≤ (1 - α_k) e_k + α_k ε_k + b_k` with `ε → 0`, `∑ b < ∞`, `∑ α = ∞` gives `e → 0`. -/
theorem averaging_tendsto {e α ε b : ℕ → ℝ} (he : ∀ k, 0 ≤ e k) (hα : ∀ k, 0 ≤ α k ∧ α k ≤ 1)
    (hε : Tendsto ε atTop (𝓝 0)) (hb : ∀ k, 0 ≤ b k) (hbs : Summable b)
    (hαs : Tendsto (fun n => ∑ j ∈ Finset.range n, α j) atTop atTop)
    (h : ∀ k, e (k + 1) ≤ (1 - α k) * e k + α k * ε k + b k) : Tendsto e atTop (𝓝 0) := by
  rw [Metric.tendsto_atTop]
  intro δ hδ
  have hd : 0 < δ / 3 := by positivity
  obtain ⟨N₁, hN₁⟩ := eventually_atTop.1 (hε.eventually (gt_mem_nhds hd))
  have htail := tendsto_sum_nat_add b
  obtain ⟨N₂, hN₂⟩ := eventually_atTop.1 (htail.eventually (gt_mem_nhds hd))
  set N := max N₁ N₂
  set B : ℕ → ℝ := fun k => ∑ j ∈ Finset.range k, b (N + j) with hB
  have hB0 : ∀ k, 0 ≤ B k := fun k => Finset.sum_nonneg fun j _ => hb _
  have hBle : ∀ k, B k ≤ δ / 3 := fun k => by
    have hs : Summable fun j => b (j + N) := (summable_nat_add_iff N).2 hbs
    have h1 := hs.sum_le_tsum (Finset.range k) fun j _ => hb _
    have h2 := (hN₂ N (le_max_right _ _)).le
    refine le_trans (le_of_eq ?_) (h1.trans h2)
    exact Finset.sum_congr rfl fun j _ => by rw [add_comm]
  set g : ℕ → ℝ := fun k => max (e (N + k) - δ / 3 - B k) 0 with hg
  have hstep : ∀ k, g (k + 1) ≤ (1 - α (N + k)) * g k := by
    intro k
    have h1 := h (N + k)
    have h2 := (hN₁ (N + k) ((le_max_left _ _).trans (Nat.le_add_right _ _))).le
    have hB' : B (k + 1) = B k + b (N + k) := by simp only [hB, Finset.sum_range_succ]
    have ha := hα (N + k)
    have h3 : e (N + k) - δ / 3 - B k ≤ g k := le_max_left _ _
    have h4 : 0 ≤ g k := le_max_right _ _
    refine max_le ?_ (mul_nonneg (by linarith) h4)
    rw [hB', ← add_assoc]
    have h5 : (1 - α (N + k)) * (e (N + k) - δ / 3 - B k) ≤ (1 - α (N + k)) * g k :=
      mul_le_mul_of_nonneg_left h3 (by linarith)
    have h6 : α (N + k) * ε (N + k) ≤ α (N + k) * (δ / 3) := mul_le_mul_of_nonneg_left h2 ha.1
    have h7 : 0 ≤ α (N + k) * B k := mul_nonneg ha.1 (hB0 k)
    nlinarith
  have hexp : ∀ k, g k ≤ Real.exp (-∑ j ∈ Finset.range k, α (N + j)) * g 0 := by
    intro k
    induction k with
    | zero => simp
    | succ k ih =>
      have h4 : 0 ≤ g k := le_max_right _ _
      have h5 : 1 - α (N + k) ≤ Real.exp (-α (N + k)) := by
        have := Real.add_one_le_exp (-α (N + k)); linarith
      calc g (k + 1) ≤ (1 - α (N + k)) * g k := hstep k
        _ ≤ Real.exp (-α (N + k)) * g k := mul_le_mul_of_nonneg_right h5 h4
        _ ≤ Real.exp (-α (N + k)) * (Real.exp (-∑ j ∈ Finset.range k, α (N + j)) * g 0) :=
          mul_le_mul_of_nonneg_left ih (Real.exp_pos _).le
        _ = _ := by rw [← mul_assoc, ← Real.exp_add, Finset.sum_range_succ]; congr 2; ring
  have hinf : Tendsto (fun k => ∑ j ∈ Finset.range k, α (N + j)) atTop atTop := by
    have e1 : (fun k => ∑ j ∈ Finset.range k, α (N + j)) = fun k =>
        (∑ j ∈ Finset.range (N + k), α j) - ∑ j ∈ Finset.range N, α j := by
      funext k; rw [Finset.sum_range_add]; ring
    rw [e1]
    have h1 : Tendsto (fun k => ∑ j ∈ Finset.range (N + k), α j) atTop atTop :=
      hαs.comp (tendsto_atTop_mono (fun k => Nat.le_add_left k N) tendsto_id)
    exact tendsto_atTop_add_const_right _ _ h1
  have hg0 : Tendsto g atTop (𝓝 0) := by
    have h1 : Tendsto (fun k => Real.exp (-∑ j ∈ Finset.range k, α (N + j)) * g 0) atTop (𝓝 (0 * g 0)) :=
      (Real.tendsto_exp_neg_atTop_nhds_zero.comp hinf).mul_const _
    rw [zero_mul] at h1
    exact squeeze_zero (fun k => le_max_right _ _) hexp h1
  obtain ⟨K, hK⟩ := eventually_atTop.1 (hg0.eventually (gt_mem_nhds hd))
  refine ⟨N + K, fun n hn => ?_⟩
  obtain ⟨k, rfl⟩ := Nat.exists_eq_add_of_le hn
  have h1 := hK (K + k) (Nat.le_add_right _ _)
  have h2 : e (N + (K + k)) - δ / 3 - B (K + k) ≤ g (K + k) := le_max_left _ _
  have h3 := hBle (K + k)
  rw [Real.dist_eq, sub_zero, abs_of_nonneg (he _), add_assoc]
  linarith

/-- Terms with bounded averages are summable with weights `1/(j+1)²`. -/
theorem summable_of_average {q : ℕ → ℝ} (hq : ∀ j, 0 ≤ q j) {F : ℝ}
    (hQ : ∀ n : ℕ, ∑ j ∈ Finset.range n, q j ≤ F * n) :
    Summable fun j : ℕ => q j / ((j : ℝ) + 1) ^ 2 := by
  have hF : 0 ≤ F := by
    have := hQ 1
    simp only [Finset.sum_range_one, Nat.cast_one, mul_one] at this
    exact (hq 0).trans this
  refine summable_of_sum_range_le (c := 2 * F) (fun j => div_nonneg (hq j) (by positivity)) fun n => ?_
  have key : ∀ n : ℕ, ∑ j ∈ Finset.range (n + 1), q j / ((j : ℝ) + 1) ^ 2 ≤
      (∑ j ∈ Finset.range (n + 1), q j) / ((n : ℝ) + 1) ^ 2 + 2 * F * (1 - 1 / ((n : ℝ) + 1)) := by
    intro n
    induction n with
    | zero => simp
    | succ n ih =>
      rw [Finset.sum_range_succ, Finset.sum_range_succ (fun j => q j) (n + 1)]
      have hQn := hQ (n + 1)
      push_cast at hQn ⊢
      set T := ∑ j ∈ Finset.range (n + 1), q j / ((j : ℝ) + 1) ^ 2
      set Q := ∑ j ∈ Finset.range (n + 1), q j
      set m : ℝ := (n : ℝ) + 1 with hm
      have hm1 : 1 ≤ m := by rw [hm]; linarith [Nat.cast_nonneg (α := ℝ) n]
      have h1 : Q / m ^ 2 - Q / (m + 1) ^ 2 ≤ 2 * F * (1 / m - 1 / (m + 1)) := by
        have e1 : Q / m ^ 2 - Q / (m + 1) ^ 2 = Q * ((2 * m + 1) / (m ^ 2 * (m + 1) ^ 2)) := by
          field_simp; ring
        have e2 : 2 * F * (1 / m - 1 / (m + 1)) = F * m * (2 / (m ^ 2 * (m + 1))) := by
          field_simp; ring
        rw [e1, e2]
        have h2 : (2 * m + 1) / (m ^ 2 * (m + 1) ^ 2) ≤ 2 / (m ^ 2 * (m + 1)) := by
          rw [div_le_div_iff₀ (by positivity) (by positivity)]
          nlinarith [sq_nonneg m, mul_pos (show 0 < m ^ 2 by positivity) (show 0 < m + 1 by positivity)]
        have h3 : 0 ≤ (2 * m + 1) / (m ^ 2 * (m + 1) ^ 2) := by positivity
        calc Q * ((2 * m + 1) / (m ^ 2 * (m + 1) ^ 2))
            ≤ F * m * ((2 * m + 1) / (m ^ 2 * (m + 1) ^ 2)) := by gcongr
          _ ≤ _ := by gcongr
      rw [add_div]
      nlinarith
  rcases n with _ | n
  · simpa using by positivity
  · refine (key n).trans ?_
    have hQn := hQ (n + 1)
    push_cast at hQn
    set m : ℝ := (n : ℝ) + 1 with hm
    have hm1 : 1 ≤ m := by rw [hm]; linarith [Nat.cast_nonneg (α := ℝ) n]
    have h1 : (∑ j ∈ Finset.range (n + 1), q j) / m ^ 2 ≤ F / m := by
      rw [div_le_div_iff₀ (by positivity) (by positivity)]
      nlinarith
    have h2 : F / m ≤ 2 * F * (1 / m) := by
      rw [mul_one_div]; gcongr; linarith
    linarith

end scalar

/-! ## One step -/

section step
variable {p : ℕ}

/-- `x x^H` -/
def outer (x : Fin p → ℂ) : Matrix (Fin p) (Fin p) ℂ := vecMulVec x (star x)

/-- `‖x‖²` -/
noncomputable def vsq (x : Fin p → ℂ) : ℝ := ∑ j, ‖x j‖ ^ 2

theorem vsq_nonneg (x : Fin p → ℂ) : 0 ≤ vsq x := Finset.sum_nonneg fun _ _ => by positivity

theorem outer_herm (x : Fin p → ℂ) : (outer x).IsHermitian :=
  (posSemidef_vecMulVec_self_star x).1

theorem dot_self_vsq (x : Fin p → ℂ) : star x ⬝ᵥ x = (vsq x : ℂ) := by
  simp only [dotProduct, vsq, Pi.star_apply]
  push_cast
  exact Finset.sum_congr rfl fun j _ => by
    rw [RCLike.star_def, RCLike.conj_mul]; rfl

theorem trace_outer (x : Fin p → ℂ) : (outer x).trace = (vsq x : ℂ) := by
  rw [outer, trace_vecMulVec, dotProduct_comm, dot_self_vsq]

theorem gauss_retr (M S : Matrix (Fin p) (Fin p) ℂ) (t : ℝ) :
    HPD.retr (fun _ : Fin 1 => M) (fun _ => t • (M - S)) 0 =
      M + (t : ℂ) • (M - S) + ((t ^ 2 / 2 : ℝ) : ℂ) • ((M - S) * M⁻¹ * (M - S)) := by
  have e : (t • (M - S) : Matrix (Fin p) (Fin p) ℂ) = (t : ℂ) • (M - S) := by
    ext i j; simp
  simp only [HPD.retr, e]
  congr 1
  rw [smul_smul, Matrix.mul_smul, Matrix.smul_mul, Matrix.mul_smul, smul_smul, Matrix.mul_assoc]
  congr 1
  push_cast
  ring

theorem gauss_rem_posSemidef {M S : Matrix (Fin p) (Fin p) ℂ} (hM : M.PosDef) (hS : S.IsHermitian) :
    ((M - S) * M⁻¹ * (M - S)).PosSemidef := by
  have h := (hM.inv.posSemidef).mul_mul_conjTranspose_same (M - S)
  rwa [(hM.1.sub hS).eq] at h

theorem gauss_rem {M S : Matrix (Fin p) (Fin p) ℂ} (hM : M.PosDef) :
    (M - S) * M⁻¹ * (M - S) = M - S - S + S * M⁻¹ * S := by
  have hu : IsUnit M.det := (isUnit_iff_isUnit_det M).1 hM.isUnit
  have h1 : M⁻¹ * M = 1 := nonsing_inv_mul _ hu
  have h2 : M * M⁻¹ = 1 := mul_nonsing_inv _ hu
  rw [sub_mul, h2, sub_mul, mul_sub, mul_sub, Matrix.one_mul, Matrix.one_mul, Matrix.mul_assoc S,
    h1, Matrix.mul_one, Matrix.mul_assoc]
  abel

theorem trace_outer_sandwich {M : Matrix (Fin p) (Fin p) ℂ} (hM : M.PosDef) (x : Fin p → ℂ) :
    (outer x * M⁻¹ * outer x).trace = ((vsq x * qf M x : ℝ) : ℂ) := by
  have e : outer x * M⁻¹ * outer x = (star x ⬝ᵥ (M⁻¹ *ᵥ x)) • outer x := by
    ext i j
    simp only [outer, Matrix.mul_apply, vecMulVec_apply, dotProduct, mulVec, Finset.sum_mul,
      Finset.mul_sum, Matrix.smul_apply, smul_eq_mul, Pi.star_apply]
    rw [Finset.sum_comm]
    refine Finset.sum_congr rfl fun a _ => Finset.sum_congr rfl fun b _ => by ring
  have hq : (qf M x : ℂ) = star x ⬝ᵥ (M⁻¹ *ᵥ x) := qf_coe hM x
  rw [e, trace_smul, trace_outer, ← hq, smul_eq_mul]
  push_cast
  ring

/-- The trace of the remainder of a step. -/
theorem gauss_rem_trace {M : Matrix (Fin p) (Fin p) ℂ} (hM : M.PosDef) (x : Fin p → ℂ) :
    (((M - outer x) * M⁻¹ * (M - outer x)).trace).re =
      M.trace.re - 2 * vsq x + vsq x * qf M x := by
  rw [gauss_rem hM, trace_add, trace_sub, trace_sub, trace_outer, trace_outer_sandwich hM]
  simp only [Complex.add_re, Complex.sub_re, Complex.ofReal_re]
  ring

theorem qf_le_of_lower {M : Matrix (Fin p) (Fin p) ℂ} {l : ℝ} (hl : 0 < l)
    (h : Loewner ((l : ℂ) • 1) M) (x : Fin p → ℂ) : qf M x ≤ vsq x / l := by
  have h1 : ((l : ℂ) • (1 : Matrix (Fin p) (Fin p) ℂ)).PosDef :=
    PosDef.one.smul (by exact_mod_cast hl)
  have h2 := qf_anti h1 h x
  have h3 := qf_smul (𝕜 := ℂ) (PosDef.one (n := Fin p)) hl x
  rw [qf_one] at h3
  exact h2.trans h3.le

end step

/-! ## The path -/

section path
variable {p : ℕ}

/-- The estimates from `M₀` over the samples `x 0, x 1, ...` with the gradient of the Gaussian cost
and steps `t 0, t 1, ...`. -/
noncomputable def gaussPath (t : ℕ → ℝ) (M₀ : Matrix (Fin p) (Fin p) ℂ) (x : ℕ → Fin p → ℂ) :
    ℕ → Matrix (Fin p) (Fin p) ℂ
  | 0 => M₀
  | k + 1 => HPD.retr (fun _ : Fin 1 => gaussPath t M₀ x k)
      (fun _ => t k • (gaussPath t M₀ x k - outer (x k))) 0

theorem gaussPath_posDef {t : ℕ → ℝ} {M₀ : Matrix (Fin p) (Fin p) ℂ} (h₀ : M₀.PosDef)
    (x : ℕ → Fin p → ℂ) (k : ℕ) : (gaussPath t M₀ x k).PosDef := by
  induction k with
  | zero => exact h₀
  | succ k ih =>
    refine C52_retr_posDef _ _ (fun _ => ih) (fun _ => ?_) 0
    have := (ih.1.sub (outer_herm (x k)))
    rw [IsHermitian, conjTranspose_smul, this.eq]
    simp

/-- The steps `-1 / (k + 1)`. -/
noncomputable def invStep (k : ℕ) : ℝ := -1 / ((k : ℝ) + 1)

/-- `∑_{j<k} x_j x_j^H` -/
def scatterSum (x : ℕ → Fin p → ℂ) (k : ℕ) : Matrix (Fin p) (Fin p) ℂ :=
  ∑ j ∈ Finset.range k, outer (x j)

/-- `k` times the distance of the estimate to the sample covariance grows by the remainders. -/
theorem gaussPath_excess {M₀ : Matrix (Fin p) (Fin p) ℂ} (x : ℕ → Fin p → ℂ) (k : ℕ) :
    let M := gaussPath invStep M₀ x
    ((k + 1 : ℕ) : ℂ) • M (k + 1) - scatterSum x (k + 1) =
      ((k : ℂ) • M k - scatterSum x k) + ((1 / (2 * ((k : ℝ) + 1)) : ℝ) : ℂ) •
        ((M k - outer (x k)) * (M k)⁻¹ * (M k - outer (x k))) := by
  simp only [gaussPath, gauss_retr, scatterSum, Finset.sum_range_succ, invStep]
  set M := gaussPath invStep M₀ x k
  set R := (M - outer (x k)) * M⁻¹ * (M - outer (x k))
  have hk : ((k : ℂ) + 1) ≠ 0 := by exact_mod_cast Nat.succ_ne_zero k
  ext i j
  simp only [Matrix.sub_apply, Matrix.add_apply, Matrix.smul_apply, smul_eq_mul]
  push_cast
  field_simp
  ring

theorem gaussPath_ge {M₀ : Matrix (Fin p) (Fin p) ℂ} (h₀ : M₀.PosDef) (x : ℕ → Fin p → ℂ) (k : ℕ) :
    ((k : ℂ) • gaussPath invStep M₀ x k - scatterSum x k).PosSemidef := by
  induction k with
  | zero => simpa [scatterSum] using PosSemidef.zero
  | succ k ih =>
    have := gaussPath_excess (M₀ := M₀) x k
    simp only at this
    rw [this]
    refine ih.add ((gauss_rem_posSemidef (gaussPath_posDef h₀ x k) (outer_herm _)).smul ?_)
    have : (0 : ℝ) ≤ 1 / (2 * ((k : ℝ) + 1)) := by positivity
    exact_mod_cast this

/-- Positive definite matrices above a sequence with a positive definite limit have a common lower
bound. -/
theorem lower_of_limit {M T : ℕ → Matrix (Fin p) (Fin p) ℂ} (hM : ∀ k, (M k).PosDef)
    {S : Matrix (Fin p) (Fin p) ℂ} (hS : S.PosDef) (hT : ∀ k, (T k).IsHermitian)
    (hlim : Tendsto T atTop (𝓝 S)) (hle : ∀ k, 1 ≤ k → Loewner (T k) (M k)) :
    ∃ l : ℝ, 0 < l ∧ ∀ k, Loewner ((l : ℂ) • 1) (M k) := by
  obtain ⟨c, hc, hsq⟩ := squeezed_of_frob hS
  have hc0 : 0 < c := by linarith
  obtain ⟨d, hd, hd1, -⟩ := exists_between (PosDef.one (n := Fin p)) hS
  have hd0 : 0 < d := by linarith
  have hev := frob_eventually hlim (show 0 < 1 / (2 * c) by positivity)
  obtain ⟨K, hK⟩ := eventually_atTop.1 hev
  -- late ones
  have hlate : ∀ k, max K 1 ≤ k → Loewner (((1 / (2 * d) : ℝ) : ℂ) • 1) (M k) := by
    intro k hk
    have h1 := (hsq S (T k - S) ((hT k).sub hS.1)).1
    rw [add_sub_cancel] at h1
    have h2 : Loewner (((1 / 2 : ℝ) : ℂ) • S) (S - ((c * frob (T k - S) : ℝ) : ℂ) • S) := by
      have hf : c * frob (T k - S) ≤ 1 / 2 := by
        have := (hK k ((le_max_left _ _).trans hk)).le
        calc c * frob (T k - S) ≤ c * (1 / (2 * c)) := by gcongr
          _ = 1 / 2 := by field_simp
      have := loewner_smul_le hS.posSemidef (show (1 / 2 : ℝ) ≤ 1 - c * frob (T k - S) by linarith)
      have e : S - ((c * frob (T k - S) : ℝ) : ℂ) • S =
          ((1 - c * frob (T k - S) : ℝ) : ℂ) • S := by
        push_cast; rw [sub_smul, one_smul]
      rw [e]
      exact this
    have h4 := hd1.smul (show (0 : ℝ) ≤ 1 / 2 by norm_num)
    rw [smul_smul] at h4
    have e : ((1 / (2 * d) : ℝ) : ℂ) = ((1 / 2 : ℝ) : ℂ) * ((d⁻¹ : ℝ) : ℂ) := by
      push_cast; field_simp
    rw [e]
    exact ((h4.trans h2).trans h1).trans (hle k ((le_max_right _ _).trans hk))
  -- early ones
  have hfin : ∀ n : ℕ, ∃ l : ℝ, 0 < l ∧ ∀ k < n, Loewner ((l : ℂ) • 1) (M k) := by
    intro n
    induction n with
    | zero => exact ⟨1, one_pos, fun k hk => absurd hk (Nat.not_lt_zero _)⟩
    | succ n ih =>
      obtain ⟨l, hl, h⟩ := ih
      obtain ⟨e, he, he1, -⟩ := exists_between (PosDef.one (n := Fin p)) (hM n)
      refine ⟨min l e⁻¹, lt_min hl (by positivity), fun k hk => ?_⟩
      rcases Nat.lt_succ_iff_lt_or_eq.1 hk with hk | rfl
      · exact (loewner_smul_le PosSemidef.one (min_le_left _ _)).trans (h k hk)
      · exact (loewner_smul_le PosSemidef.one (min_le_right _ _)).trans he1
  obtain ⟨l, hl, h⟩ := hfin (max K 1)
  refine ⟨min l (1 / (2 * d)), lt_min hl (by positivity), fun k => ?_⟩
  rcases lt_or_ge k (max K 1) with hk | hk
  · exact (loewner_smul_le PosSemidef.one (min_le_left _ _)).trans (h k hk)
  · exact (loewner_smul_le PosSemidef.one (min_le_right _ _)).trans (hlate k hk)

theorem scatterSum_herm (x : ℕ → Fin p → ℂ) (k : ℕ) : (scatterSum x k).IsHermitian := by
  unfold scatterSum IsHermitian
  rw [conjTranspose_sum]
  exact Finset.sum_congr rfl fun j _ => (outer_herm _).eq

/-- A lower bound for all estimates, if the sample covariances have a positive definite limit. -/
theorem gaussPath_lower {M₀ : Matrix (Fin p) (Fin p) ℂ} (h₀ : M₀.PosDef) (x : ℕ → Fin p → ℂ)
    {S : Matrix (Fin p) (Fin p) ℂ} (hS : S.PosDef)
    (hlim : Tendsto (fun k : ℕ => (k : ℂ)⁻¹ • scatterSum x k) atTop (𝓝 S)) :
    ∃ l : ℝ, 0 < l ∧ ∀ k, Loewner ((l : ℂ) • 1) (gaussPath invStep M₀ x k) := by
  refine lower_of_limit (gaussPath_posDef h₀ x) hS (fun k => ?_) hlim fun k hk => ?_
  · rw [IsHermitian, conjTranspose_smul, (scatterSum_herm x k).eq]
    simp
  · have hk0 : (k : ℂ) ≠ 0 := by exact_mod_cast (by omega : k ≠ 0)
    have := (gaussPath_ge h₀ x k).smul (show (0 : ℂ) ≤ (k : ℂ)⁻¹ by
      have : (0 : ℝ) ≤ (k : ℝ)⁻¹ := by positivity
      rw [show (k : ℂ)⁻¹ = (((k : ℝ)⁻¹ : ℝ) : ℂ) by push_cast; rfl]
      exact_mod_cast this)
    rw [smul_sub, smul_smul, inv_mul_cancel₀ hk0, one_smul] at this
    exact this

/-- The estimate is within `C (1 + log n) / n` of the sample covariance. -/
theorem gaussPath_rate {M₀ : Matrix (Fin p) (Fin p) ℂ} (h₀ : M₀.PosDef) (x : ℕ → Fin p → ℂ)
    {S : Matrix (Fin p) (Fin p) ℂ} (hS : S.PosDef)
    (hlim : Tendsto (fun k : ℕ => (k : ℂ)⁻¹ • scatterSum x k) atTop (𝓝 S)) {F : ℝ}
    (hF : ∀ n : ℕ, ∑ j ∈ Finset.range n, vsq (x j) ^ 2 ≤ F * n) :
    ∃ C : ℝ, 0 ≤ C ∧ ∀ n : ℕ, 1 ≤ n →
      frob (gaussPath invStep M₀ x n - (n : ℂ)⁻¹ • scatterSum x n) ≤ C * (1 + Real.log n) / n := by
  obtain ⟨l, hl, hlow⟩ := gaussPath_lower h₀ x hS hlim
  set M := gaussPath invStep M₀ x with hM
  set E : ℕ → ℝ := fun k => (((k : ℂ) • M k - scatterSum x k).trace).re with hE
  have htr : ∀ k, ((scatterSum x k).trace).re = ∑ j ∈ Finset.range k, vsq (x j) := fun k => by
    unfold scatterSum
    rw [trace_sum, Complex.re_sum]
    exact Finset.sum_congr rfl fun j _ => by rw [trace_outer, Complex.ofReal_re]
  have hE' : ∀ k : ℕ, E k = k * (M k).trace.re - ∑ j ∈ Finset.range k, vsq (x j) := fun k => by
    simp only [hE, trace_sub, trace_smul, Complex.sub_re, htr, smul_eq_mul, Complex.mul_re,
      Complex.natCast_re, Complex.natCast_im, zero_mul, sub_zero]
  have hE0 : ∀ k, 0 ≤ E k := fun k => by
    have := (gaussPath_ge h₀ x k).trace_nonneg
    exact (Complex.le_def.1 this).1
  obtain ⟨C, hC0, hC⟩ := log_growth (s := fun j => vsq (x j)) hl hF hE0 (by
    intro k hk
    have hk' : (0 : ℝ) < k := by exact_mod_cast hk
    have h1 := gaussPath_excess (M₀ := M₀) x k
    simp only at h1
    have hpd : (M k).PosDef := gaussPath_posDef h₀ x k
    have h2 : E (k + 1) = E k + 1 / (2 * ((k : ℝ) + 1)) *
        ((M k).trace.re - 2 * vsq (x k) + vsq (x k) * qf (M k) (x k)) := by
      simp only [hE]
      rw [hM, h1, trace_add, trace_smul, Complex.add_re, smul_eq_mul, Complex.re_ofReal_mul,
        ← gauss_rem_trace hpd]
    rw [h2]
    have h3 : (M k).trace.re = (E k + ∑ j ∈ Finset.range k, vsq (x j)) / k := by
      rw [hE' k]; field_simp; ring
    have h4 : vsq (x k) * qf (M k) (x k) ≤ vsq (x k) ^ 2 / l := by
      have := mul_le_mul_of_nonneg_left (qf_le_of_lower hl (hlow k) (x k)) (vsq_nonneg (x k))
      calc _ ≤ _ := this
        _ = _ := by ring
    have h5 := vsq_nonneg (x k)
    have h6 : (0 : ℝ) ≤ 1 / (2 * ((k : ℝ) + 1)) := by positivity
    rw [← h3]
    have : (M k).trace.re - 2 * vsq (x k) + vsq (x k) * qf (M k) (x k) ≤
        vsq (x k) ^ 2 / l + (M k).trace.re := by linarith
    have := mul_le_mul_of_nonneg_left this h6
    have e : (vsq (x k) ^ 2 / l + (M k).trace.re) / (2 * ((k : ℝ) + 1)) =
        1 / (2 * ((k : ℝ) + 1)) * (vsq (x k) ^ 2 / l + (M k).trace.re) := by ring
    rw [e]
    linarith)
  refine ⟨C, hC0, fun n hn => ?_⟩
  have hn' : (0 : ℝ) < n := by exact_mod_cast hn
  have hnc : (n : ℂ) ≠ 0 := by exact_mod_cast hn'.ne'
  have h1 := frob_le_trace (gaussPath_ge h₀ x n)
  have e : M n - (n : ℂ)⁻¹ • scatterSum x n =
      (((n : ℝ)⁻¹ : ℝ) : ℂ) • ((n : ℂ) • M n - scatterSum x n) := by
    push_cast
    rw [smul_sub, smul_smul, inv_mul_cancel₀ hnc, one_smul]
  rw [e]
  have h2 := frob_smul (𝕜 := ℂ) ((n : ℝ)⁻¹) ((n : ℂ) • M n - scatterSum x n)
  refine h2.le.trans ?_
  rw [abs_of_pos (by positivity), ← div_eq_inv_mul]
  gcongr
  exact h1.trans (hC n hn)

/-- With positive learning rates the estimates grow without bound if they start above the
samples. -/
theorem gaussPath_diverges {t : ℕ → ℝ} (ht : ∀ k, 0 ≤ t k) {M₀ : Matrix (Fin p) (Fin p) ℂ}
    (h₀ : M₀.PosDef) (x : ℕ → Fin p → ℂ) {R c : ℝ} (hc : 0 ≤ c) (hx : ∀ k, vsq (x k) ≤ R)
    (hM : Loewner (((R + c : ℝ) : ℂ) • 1) M₀) (n : ℕ) :
    Loewner (((R + c * (1 + ∑ k ∈ Finset.range n, t k) : ℝ) : ℂ) • 1) (gaussPath t M₀ x n) := by
  induction n with
  | zero => simpa [gaussPath] using hM
  | succ n ih =>
    have hpd := gaussPath_posDef (t := t) h₀ x n
    simp only [gaussPath, gauss_retr]
    set M := gaussPath t M₀ x n
    have hS : Loewner (outer (x n)) ((R : ℂ) • 1) := by
      have h1 := hermitian_le_frob (outer_herm (x n))
      refine h1.trans (loewner_smul_le PosSemidef.one ?_)
      have h2 := frob_le_trace (posSemidef_vecMulVec_self_star (x n))
      refine (h2.trans ?_).trans (hx n)
      have := trace_outer (x n)
      unfold outer at this
      rw [this]
      simp
    have hα := ht n
    rw [Finset.sum_range_succ]
    set α : ℝ := t n
    have hσ : 0 ≤ ∑ k ∈ Finset.range n, t k := Finset.sum_nonneg fun k _ => ht k
    generalize (∑ k ∈ Finset.range n, t k) = σ at ih hσ ⊢
    have h1 := (gauss_rem_posSemidef hpd (outer_herm (x n))).smul
      (show (0 : ℂ) ≤ ((α ^ 2 / 2 : ℝ) : ℂ) by
        have : (0 : ℝ) ≤ α ^ 2 / 2 := by positivity
        exact_mod_cast this)
    have h2 := ih.smul (show (0 : ℝ) ≤ 1 + α by positivity)
    have h3 := hS.smul hα
    have h4 : (((α * (c * σ) : ℝ) : ℂ) • (1 : Matrix (Fin p) (Fin p) ℂ)).PosSemidef :=
      PosSemidef.one.smul (show (0 : ℂ) ≤ ((α * (c * σ) : ℝ) : ℂ) by
        have : (0 : ℝ) ≤ α * (c * σ) := by positivity
        exact_mod_cast this)
    unfold Loewner at h2 h3 ⊢
    have := ((h1.add h2).add h3).add h4
    refine (congrArg Matrix.PosSemidef ?_).mpr this
    ext i j
    simp only [Matrix.sub_apply, Matrix.add_apply, Matrix.smul_apply, smul_eq_mul,
      show ∀ r : ℝ, (RCLike.ofReal r : ℂ) = (r : ℂ) from fun _ => rfl]
    push_cast
    ring

end path

end RS
