import Verif.Lemmas.Rate
import Verif.Model.Rounding

/-
The fixed-point loops with rounding errors: the loop in terms of the stored iterates, and the effect
of the errors on the Student-t iteration.
-/
set_option autoImplicit false

namespace RS
open Matrix ComplexOrder Filter Topology

/-! ### The loop -/

section
variable {𝕜 : Type} [RCLike 𝕜] {N p : ℕ}

/-- The error variable after `n` passes. -/
def seqDelta (d : ℕ → ℝ) : ℕ → Delta
  | 0 => .inf
  | n + 1 => .fin (d n)

theorem flLoop_run {fl : Rounding p 𝕜} {step : Matrix (Fin p) (Fin p) 𝕜 → Py (FMat p 𝕜)}
    {A : ℕ → Matrix (Fin p) (Fin p) 𝕜} {d : ℕ → ℝ}
    (hstep : ∀ k, ∃ B, step (A k) = .ok (.fin B) ∧ fl.mat k B = A (k + 1))
    (hd : ∀ k, fl.delta k (relErr (.fin (A (k + 1))) (.fin (A k))) = .fin (d k)) (tol : ℝ)
    (iterMax : ℤ) : ∀ (m n : ℕ), (iterMax - n).toNat = m →
    ∃ k, n ≤ k ∧ flLoop fl step tol iterMax ⟨.fin (A n), seqDelta d n, n⟩ =
        .ok ⟨.fin (A k), seqDelta d k, k⟩ ∧
      (∀ j, n ≤ j → j < k → (seqDelta d j).gt tol) ∧ ((k : ℤ) < iterMax → ¬ (seqDelta d k).gt tol) ∧
      (n < k → (k : ℤ) ≤ iterMax) := by
  intro m
  induction m with
  | zero =>
    intro n hn
    refine ⟨n, le_rfl, ?_, fun j h1 h2 => absurd h2 (not_lt.2 h1), fun h => by omega,
      fun h => absurd h (lt_irrefl _)⟩
    rw [flLoop, if_neg]
    rintro ⟨-, h⟩
    simp only at h
    omega
  | succ m ih =>
    intro n hn
    by_cases hg : (seqDelta d n).gt tol
    · obtain ⟨k, h1, h2, h3, h4, h5⟩ := ih (n + 1) (by push_cast; omega)
      obtain ⟨B, b1, b2⟩ := hstep n
      refine ⟨k, by omega, ?_, fun j i1 i2 => ?_, h4, fun _ => ?_⟩
      · rw [flLoop, if_pos ⟨hg, by show (n : ℤ) < iterMax; omega⟩]
        simp only [stepSig, b1, Rounding.fmat, b2, hd n]
        exact h2
      · rcases Nat.eq_or_lt_of_le i1 with rfl | i1
        · exact hg
        · exact h3 j i1 i2
      · rcases Nat.eq_or_lt_of_le h1 with h | h
        · omega
        · exact h5 h
    · refine ⟨n, le_rfl, ?_, fun j h1 h2 => absurd h2 (not_lt.2 h1), fun _ => hg,
        fun h => absurd h (lt_irrefl _)⟩
      rw [flLoop, if_neg]
      rintro ⟨h, -⟩
      exact hg h

/-- The call in terms of the stored iterates: what it returns and when it stops. -/
theorem flRunLoop_run {fl : Rounding p 𝕜} {step : Matrix (Fin p) (Fin p) 𝕜 → Py (FMat p 𝕜)}
    {A : ℕ → Matrix (Fin p) (Fin p) 𝕜} {d : ℕ → ℝ}
    (hstep : ∀ k, ∃ B, step (A k) = .ok (.fin B) ∧ fl.mat k B = A (k + 1))
    (hd : ∀ k, fl.delta k (relErr (.fin (A (k + 1))) (.fin (A k))) = .fin (d k)) (tol : ℝ)
    (iterMax : ℤ) :
    ∃ k, flRunLoop fl step tol iterMax (A 0) =
        .ok ⟨.fin (A k), seqDelta d k, k, decide ((k : ℤ) = iterMax)⟩ ∧
      (∀ j < k, (seqDelta d j).gt tol) ∧ ((k : ℤ) < iterMax → ¬ (seqDelta d k).gt tol) ∧
      (0 < k → (k : ℤ) ≤ iterMax) := by
  obtain ⟨k, -, h2, h3, h4⟩ := flLoop_run hstep hd tol iterMax _ 0 rfl
  refine ⟨k, ?_, fun j hj => h3 j (Nat.zero_le _) hj, h4⟩
  unfold flRunLoop
  simp only [seqDelta] at h2
  rw [show (⟨.fin (A 0), .inf, 0⟩ : FPState p 𝕜) = ⟨.fin (A 0), seqDelta d 0, 0⟩ from rfl]
  simp only [seqDelta, h2, Bind.bind, Except.bind, pure, Except.pure]
  rfl

/-- Geometric decrease against the tolerance. -/
theorem geometric_log {r C : ℝ} (hr0 : 0 ≤ r) (hr1 : r < 1) :
    ∃ K : ℝ, 0 ≤ K ∧ ∀ tol : ℝ, 0 < tol → tol ≤ 1 → ∃ k : ℕ,
      ((k + 1 : ℕ) : ℝ) ≤ K * (1 + Real.log (1 / tol)) ∧ C * r ^ k ≤ tol := by
  set s := max r (1 / 2) with hs
  have hs0 : 0 < s := by rw [hs]; exact lt_max_of_lt_right (by norm_num)
  have hs1 : s < 1 := by rw [hs]; exact max_lt hr1 (by norm_num)
  set C' := max C 1 with hC'
  have hC1 : 1 ≤ C' := le_max_right _ _
  set L := -Real.log s with hL
  have hL0 : 0 < L := by rw [hL]; linarith [Real.log_neg hs0 hs1]
  have hlC : 0 ≤ Real.log C' := Real.log_nonneg hC1
  refine ⟨Real.log C' / L + 1 / L + 2, by positivity, fun tol ht ht1 => ?_⟩
  have hlt : 0 ≤ Real.log (1 / tol) := Real.log_nonneg (by rw [le_div_iff₀ ht]; linarith)
  set k := ⌈(Real.log C' + Real.log (1 / tol)) / L⌉₊ with hk
  have hk1 : (Real.log C' + Real.log (1 / tol)) / L ≤ k := Nat.le_ceil _
  have hk2 : (k : ℝ) < (Real.log C' + Real.log (1 / tol)) / L + 1 := Nat.ceil_lt_add_one (by positivity)
  refine ⟨k, ?_, ?_⟩
  · push_cast
    have e : (Real.log C' + Real.log (1 / tol)) / L = Real.log C' / L + 1 / L * Real.log (1 / tol) := by
      ring
    rw [e] at hk2
    have h3 : 0 ≤ Real.log C' / L := by positivity
    have h4 : 0 ≤ 1 / L := by positivity
    nlinarith [mul_nonneg h3 hlt]
  · have h5 : C * r ^ k ≤ C' * s ^ k :=
      mul_le_mul (le_max_left _ _) (pow_le_pow_left₀ hr0 (le_max_left _ _) k) (by positivity)
        (by linarith)
    refine h5.trans ?_
    have h3 : Real.log (C' * s ^ k) ≤ Real.log tol := by
      rw [Real.log_mul (by positivity) (by positivity), Real.log_pow]
      rw [div_le_iff₀ hL0, Real.log_div one_ne_zero ht.ne', Real.log_one, hL] at hk1
      linarith
    exact (Real.log_le_log_iff (by positivity) ht).1 h3

/-! ### Errors in the order of positive definite matrices -/

/-- `A` lies between `S / (1 + e)` and `(1 + e) S`. -/
def Sand (S : Matrix (Fin p) (Fin p) 𝕜) (e : ℝ) (A : Matrix (Fin p) (Fin p) 𝕜) : Prop :=
  Loewner ((((1 + e)⁻¹ : ℝ) : 𝕜) • S) A ∧ Loewner A (((1 + e : ℝ) : 𝕜) • S)

theorem Sand.posDef {S A : Matrix (Fin p) (Fin p) 𝕜} {e : ℝ} (h : Sand S e A) (hS : S.PosDef)
    (he : 0 ≤ e) : A.PosDef :=
  h.1.posDef (hS.smul (by exact_mod_cast inv_pos.2 (by linarith)))

theorem Sand.mono {S A : Matrix (Fin p) (Fin p) 𝕜} {e e' : ℝ} (h : Sand S e A) (hS : S.PosDef)
    (he : 0 ≤ e) (hee : e ≤ e') : Sand S e' A :=
  ⟨(loewner_smul_le hS.posSemidef (inv_anti₀ (by linarith) (by linarith))).trans h.1,
    h.2.trans (loewner_smul_le hS.posSemidef (by linarith))⟩

theorem Sand.frob_le {S A : Matrix (Fin p) (Fin p) 𝕜} {e : ℝ} (h : Sand S e A) (hS : S.PosDef)
    (he : 0 ≤ e) : frob A ≤ (1 + e) * RCLike.re S.trace := by
  refine (frob_le_trace (h.posDef hS he).posSemidef).trans (h.2.trace_le.trans (le_of_eq ?_))
  rw [trace_smul, smul_eq_mul, RCLike.re_ofReal_mul]

theorem re_trace_le_frob (A : Matrix (Fin p) (Fin p) 𝕜) : RCLike.re A.trace ≤ p * frob A := by
  have h : ∀ i, RCLike.re (A i i) ≤ frob A := fun i =>
    (RCLike.re_le_norm _).trans (norm_entry_le A i i)
  calc RCLike.re A.trace = ∑ i, RCLike.re (A i i) := by simp [trace]
    _ ≤ ∑ _i : Fin p, frob A := Finset.sum_le_sum fun i _ => h i
    _ = p * frob A := by simp

theorem Sand.frob_ge {S A : Matrix (Fin p) (Fin p) 𝕜} {e : ℝ} (h : Sand S e A) :
    (1 + e)⁻¹ * RCLike.re S.trace ≤ p * frob A := by
  have := h.1.trace_le
  rw [trace_smul, smul_eq_mul, RCLike.re_ofReal_mul] at this
  exact this.trans (re_trace_le_frob A)

/-- A small error widens the interval a little. -/
theorem Sand.perturb {S T A : Matrix (Fin p) (Fin p) 𝕜} (hS : S.PosDef) {c E e f : ℝ} (hc : 0 ≤ c)
    (hsq : ∀ T E : Matrix (Fin p) (Fin p) 𝕜, E.IsHermitian →
      Loewner (T - ((c * frob E : ℝ) : 𝕜) • S) (T + E) ∧
      Loewner (T + E) (T + ((c * frob E : ℝ) : 𝕜) • S))
    (h : Sand S e T) (he : 0 ≤ e) (hT : T.IsHermitian) (hA : A.IsHermitian) (hf : frob (A - T) ≤ f)
    (hE : e + (1 + E) ^ 2 * (c * f) ≤ E) : Sand S (e + (1 + E) ^ 2 * (c * f)) A := by
  have hf0 : 0 ≤ f := (frob_nonneg _).trans hf
  have hE0 : 0 ≤ E := le_trans (by positivity) hE
  have hcf : 0 ≤ c * f := by positivity
  have hcf' : c * frob (A - T) ≤ c * f := mul_le_mul_of_nonneg_left hf hc
  obtain ⟨t1, t2⟩ := hsq T (A - T) (hA.sub hT)
  rw [add_sub_cancel] at t1 t2
  have hK : 1 ≤ (1 + E) ^ 2 := by nlinarith
  set e' := e + (1 + E) ^ 2 * (c * f) with he'
  have hee : e ≤ e' := by rw [he']; nlinarith
  constructor
  · have j : (1 + e')⁻¹ ≤ (1 + e)⁻¹ - c * frob (A - T) := by
      have h1 : (1 + e)⁻¹ - (1 + e')⁻¹ = (e' - e) / ((1 + e) * (1 + e')) := by
        have h0 : (1 + e') ≠ 0 := by linarith
        have h1 : (1 + e) ≠ 0 := by linarith
        field_simp
        ring
      have h2 : c * f ≤ (e' - e) / ((1 + e) * (1 + e')) := by
        rw [le_div_iff₀ (by positivity)]
        have h3 : (1 + e) * (1 + e') ≤ (1 + E) ^ 2 := by nlinarith
        have h4 : e' - e = c * f * (1 + E) ^ 2 := by rw [he']; ring
        rw [h4]
        exact mul_le_mul_of_nonneg_left h3 hcf
      linarith
    refine (loewner_smul_le hS.posSemidef j).trans (Loewner.trans ?_ t1)
    rw [RCLike.ofReal_sub, sub_smul]
    have := h.1
    unfold Loewner at this ⊢
    convert this using 1
    abel
  · refine (t2.trans ?_).trans (loewner_smul_le hS.posSemidef
      (show (1 + e) + c * frob (A - T) ≤ 1 + e' by rw [he']; nlinarith))
    rw [RCLike.ofReal_add (1 + e), add_smul]
    have := h.2
    unfold Loewner at this ⊢
    convert this using 1
    abel

/-! ### Contracting iterations with errors -/

/-- A step that brings every matrix between `S / (1 + e)` and `(1 + e) S` between `S / (1 + r e)`
and `(1 + r e) S`. -/
def Contracting (step : Matrix (Fin p) (Fin p) 𝕜 → Matrix (Fin p) (Fin p) 𝕜)
    (S : Matrix (Fin p) (Fin p) 𝕜) (r : ℝ) : Prop :=
  ∀ (T : Matrix (Fin p) (Fin p) 𝕜) (e : ℝ), 0 ≤ e → Sand S e T → Sand S (r * e) (step T)

/-- One pass with an error `u` relative to the exact result. -/
theorem contracting_fl_step {step : Matrix (Fin p) (Fin p) 𝕜 → Matrix (Fin p) (Fin p) 𝕜} {r : ℝ}
    {S T A : Matrix (Fin p) (Fin p) 𝕜} (hS : S.PosDef) (hstp : Contracting step S r)
    (hr0 : 0 ≤ r) (hr1 : r ≤ 1) {c E e u : ℝ}
    (hc : 0 ≤ c)
    (hsq : ∀ T E : Matrix (Fin p) (Fin p) 𝕜, E.IsHermitian →
      Loewner (T - ((c * frob E : ℝ) : 𝕜) • S) (T + E) ∧
      Loewner (T + E) (T + ((c * frob E : ℝ) : 𝕜) • S))
    (hu : 0 ≤ u) (he : 0 ≤ e) (heE : e ≤ E) (hT : Sand S e T) (hA : A.IsHermitian)
    (hf : frob (A - step T) ≤ u * frob (step T))
    (hE : r * e + (1 + E) ^ 2 * (c * (u * ((1 + E) * RCLike.re S.trace))) ≤ E) :
    Sand S (r * e + (1 + E) ^ 2 * (c * (u * ((1 + E) * RCLike.re S.trace)))) A := by
  have h1 : Sand S (r * e) (step T) :=
    hstp T e he hT
  have hre : 0 ≤ r * e := mul_nonneg hr0 he
  have hreE : r * e ≤ E := by nlinarith
  refine h1.perturb hS hc hsq hre (h1.posDef hS hre).1 hA (hf.trans ?_) hE
  refine mul_le_mul_of_nonneg_left ((h1.mono hS hre hreE).frob_le hS (by linarith)) hu

/-- The distance to the fixed point in terms of the next step and its error. -/
theorem contracting_fl_residual {step : Matrix (Fin p) (Fin p) 𝕜 → Matrix (Fin p) (Fin p) 𝕜} {r : ℝ}
    {S T A : Matrix (Fin p) (Fin p) 𝕜} (hS : S.PosDef) (hstp : Contracting step S r)
    (hr0 : 0 ≤ r) (hr1 : r < 1)
    {c E u η : ℝ} (hc : 0 ≤ c)
    (hsq : ∀ T E : Matrix (Fin p) (Fin p) 𝕜, E.IsHermitian →
      Loewner (T - ((c * frob E : ℝ) : 𝕜) • S) (T + E) ∧
      Loewner (T + E) (T + ((c * frob E : ℝ) : 𝕜) • S))
    (hu : 0 ≤ u) (hη0 : 0 ≤ η) (hE0 : 0 ≤ E)
    (hηu : ∀ u, (1 + E) ^ 2 * (c * (u * ((1 + E) * RCLike.re S.trace))) = η * u)
    (hT : Sand S E T) (hTH : T.IsHermitian) (hA : A.IsHermitian)
    (hf : frob (A - step T) ≤ u * frob (step T)) :
    frob (T - S) ≤ 3 * ((η * u + (1 + E) ^ 2 * (c * frob (A - T))) / (1 - r)) *
      RCLike.re S.trace := by
  have hf0 : 0 ≤ frob (A - T) := frob_nonneg _
  set f := frob (A - T) with hfd
  set β := η * u + (1 + E) ^ 2 * (c * f) with hβ
  have hβ0 : 0 ≤ β := by positivity
  have hr' : 0 < 1 - r := by linarith
  have hrk : ∀ k, 0 ≤ r ^ k ∧ r ^ k ≤ 1 := fun k => ⟨by positivity, pow_le_one₀ hr0 hr1.le⟩
  by_cases hb : β ≤ (1 - r) * E
  · obtain ⟨q, hq⟩ : ∃ q, q = β / (1 - r) := ⟨_, rfl⟩
    rw [← hq]
    have hβr : q ≤ E := by rw [hq]; rwa [div_le_iff₀' hr']
    have hq0 : 0 ≤ q := by rw [hq]; positivity
    have hβ1 : r * q + β = q := by
      rw [hq]
      field_simp
      ring
    have it : ∀ n, Sand S (r ^ n * (E - q) + q) T := by
      intro n
      induction n with
      | zero =>
        refine hT.mono hS hE0 (le_of_eq ?_)
        ring
      | succ n ih =>
        obtain ⟨i1, i2⟩ := hrk n
        obtain ⟨i3, i4⟩ := hrk (n + 1)
        have h5 : 0 ≤ r ^ n * (E - q) := mul_nonneg i1 (by linarith)
        have h6 : r ^ n * (E - q) ≤ E - q := mul_le_of_le_one_left (by linarith) i2
        have h7 : r ^ (n + 1) * (E - q) ≤ E - q := mul_le_of_le_one_left (by linarith) i4
        have e8 : r * (r ^ n * (E - q) + q) + β = r ^ (n + 1) * (E - q) + q := by
          rw [pow_succ]
          linear_combination hβ1
        have h9 : 0 ≤ (1 + E) ^ 2 * (c * f) := by positivity
        have h10 := contracting_fl_step hS hstp hr0 hr1.le hc hsq hu (E := E)
          (by linarith) (by linarith) ih hA hf (by rw [hηu]; linarith)
        rw [hηu] at h10
        have h12 : 0 ≤ r * (r ^ n * (E - q) + q) + η * u :=
          add_nonneg (mul_nonneg hr0 (add_nonneg h5 hq0)) (mul_nonneg hη0 hu)
        have h11 := h10.perturb hS hc hsq h12 hA hTH (f := f) (by rw [hfd, frob_sub_comm]) (E := E)
          (by linarith)
        rw [← e8, hβ, ← add_assoc]
        exact h11
    have hb2 : ∀ n, frob (T - S) ≤ 3 * (r ^ n * (E - q) + q) * RCLike.re S.trace :=
      fun n => frob_squeeze hS (add_nonneg (mul_nonneg (hrk n).1 (by linarith)) hq0) (it n).1 (it n).2
    have hl : Tendsto (fun n : ℕ => 3 * (r ^ n * (E - q) + q) * RCLike.re S.trace) atTop
        (𝓝 (3 * (0 * (E - q) + q) * RCLike.re S.trace)) :=
      ((((tendsto_pow_atTop_nhds_zero_of_lt_one hr0 hr1).mul_const _).add_const _).const_mul
        3).mul_const _
    have := ge_of_tendsto' hl hb2
    rwa [zero_mul, zero_add] at this
  · push Not at hb
    refine (frob_squeeze hS hE0 hT.1 hT.2).trans ?_
    have h3 : E ≤ β / (1 - r) := by rw [le_div_iff₀' hr']; exact hb.le
    have h4 : 0 ≤ RCLike.re S.trace := (RCLike.nonneg_iff.1 hS.posSemidef.trace_nonneg).1
    exact mul_le_mul_of_nonneg_right (by linarith) h4

/-- The stored matrices: positive definite, at a distance of the fixed point that decreases
geometrically down to the size of the errors, and bounded by the last step and the errors. -/
theorem contracting_fl {step : Matrix (Fin p) (Fin p) 𝕜 → Matrix (Fin p) (Fin p) 𝕜} {r : ℝ} (hp : 0 < p)
    {S init : Matrix (Fin p) (Fin p) 𝕜} (hS : S.PosDef) (hi : init.PosDef)
    (hstp : Contracting step S r) (hr0 : 0 ≤ r) (hr1 : r < 1) :
    ∃ C b B u0 : ℝ, 0 ≤ C ∧ 0 < b ∧ 0 < B ∧ 0 < u0 ∧ ∀ u : ℝ, 0 ≤ u → u ≤ u0 →
      ∀ A : ℕ → Matrix (Fin p) (Fin p) 𝕜, (∀ k, (A k).IsHermitian) →
      frob (A 0 - init) ≤ u * frob init →
      (∀ k, (A k).PosDef → frob (A (k + 1) - step (A k)) ≤
        u * frob (step (A k))) →
      ∀ k, (A k).PosDef ∧ b ≤ frob (A k) ∧ frob (A k) ≤ B ∧ frob (A k - S) ≤ C * (r ^ k + u) ∧
        frob (A k - S) ≤ C * (frob (A (k + 1) - A k) + u) := by
  obtain ⟨c0, hc0, h1, h2⟩ := exists_between hS hi
  have hc' : c0 = 1 + (c0 - 1) := by ring
  rw [hc'] at h1 h2
  have he0 : 0 ≤ c0 - 1 := by linarith
  have hs0 : Sand S (c0 - 1) init := ⟨h1, h2⟩
  obtain ⟨c, hc, hsq⟩ := squeezed_of_frob hS
  have hc0' : 0 ≤ c := by linarith
  have ht : 0 < RCLike.re S.trace := by
    have : Nonempty (Fin p) := ⟨⟨0, hp⟩⟩
    exact (RCLike.pos_iff.1 hS.trace_pos).1
  set t := RCLike.re S.trace with htd
  set E := c0 + 1 with hE
  have hE2 : 2 ≤ E := by rw [hE]; linarith
  set η := (1 + E) ^ 2 * (c * ((1 + E) * t)) with hη
  have hη0 : 0 ≤ η := by positivity
  have hr' : 0 < 1 - r := by linarith
  have hηu : ∀ u, (1 + E) ^ 2 * (c * (u * ((1 + E) * t))) = η * u := fun u => by rw [hη]; ring
  refine ⟨3 * t * (E + η / (1 - r) + (η + (1 + E) ^ 2 * c) / (1 - r)), (1 + E)⁻¹ * t / p,
    (1 + E) * t, (1 - r) / (η + 1), by positivity, by positivity, by positivity,
    by positivity, fun u hu huu A hAH hA0 hstep => ?_⟩
  have hu1 : η * u ≤ 1 - r := by
    have h3 : (η + 1) * u ≤ 1 - r := by rwa [le_div_iff₀' (by positivity)] at huu
    nlinarith
  have hq : 0 ≤ η * u / (1 - r) := by positivity
  have hq1 : η * u / (1 - r) ≤ 1 := by rwa [div_le_one hr']
  have hq2 : η * u ≤ η * u / (1 - r) := by
    rw [le_div_iff₀ hr']
    nlinarith [mul_nonneg hη0 hu]
  have hqr : r * (η * u / (1 - r)) + η * u = η * u / (1 - r) := by
    field_simp
    ring
  have hrk : ∀ k, 0 ≤ r ^ k ∧ r ^ k ≤ 1 := fun k => ⟨by positivity, pow_le_one₀ hr0 hr1.le⟩
  -- the interval around the fixed point
  have main : ∀ k, Sand S (r ^ k * (E - 1) + η * u / (1 - r)) (A k) := by
    intro k
    induction k with
    | zero =>
      have h3 : c0 - 1 + (1 + E) ^ 2 * (c * (u * ((1 + E) * t))) ≤ E := by
        rw [hηu, hE]; linarith
      have h4 := hs0.perturb hS hc0' hsq he0 hi.1 (hAH 0) (hA0.trans (mul_le_mul_of_nonneg_left
        ((hs0.mono hS he0 (by rw [hE]; linarith)).frob_le hS (by linarith)) hu)) h3
      rw [hηu] at h4
      refine h4.mono hS (by positivity) ?_
      rw [pow_zero, one_mul, hE]
      linarith
    | succ k ih =>
      obtain ⟨i1, i2⟩ := hrk k
      have h5 : r ^ k * (E - 1) ≤ E - 1 := by nlinarith
      have h6 : 0 ≤ r ^ k * (E - 1) := mul_nonneg i1 (by linarith)
      have e6 : r * (r ^ k * (E - 1) + η * u / (1 - r)) + (1 + E) ^ 2 * (c * (u * ((1 + E) * t))) =
          r ^ (k + 1) * (E - 1) + η * u / (1 - r) := by
        rw [hηu, pow_succ]
        linear_combination hqr
      have h7 : r ^ (k + 1) * (E - 1) ≤ E - 1 := by nlinarith [(hrk (k + 1)).2]
      have := contracting_fl_step hS hstp hr0 hr1.le hc0' hsq hu (E := E)
        (by linarith) (by linarith) ih (hAH (k + 1))
        (hstep k (ih.posDef hS (by linarith))) (by rw [← htd, e6]; linarith)
      rwa [← htd, e6] at this
  have hSE : ∀ k, 0 ≤ r ^ k * (E - 1) + η * u / (1 - r) ∧
      r ^ k * (E - 1) + η * u / (1 - r) ≤ E := fun k => by
    obtain ⟨i1, i2⟩ := hrk k
    exact ⟨by have := mul_nonneg i1 (by linarith : 0 ≤ E - 1); linarith, by nlinarith⟩
  have hsE : ∀ k, Sand S E (A k) := fun k => (main k).mono hS (hSE k).1 (hSE k).2
  have hP : ∀ k, (A k).PosDef := fun k => (hsE k).posDef hS (by linarith)
  intro k
  refine ⟨hP k, ?_, (hsE k).frob_le hS (by linarith), ?_, ?_⟩
  · rw [div_le_iff₀ (by exact_mod_cast hp), mul_comm (frob _)]
    exact (hsE k).frob_ge
  · refine (frob_squeeze hS (hSE k).1 (main k).1 (main k).2).trans ?_
    rw [← htd]
    have h3 : 0 ≤ r ^ k := (hrk k).1
    have h4 : r ^ k * (E - 1) + η * u / (1 - r) ≤ (E + η / (1 - r)) * (r ^ k + u) := by
      have e4 : η * u / (1 - r) = η / (1 - r) * u := by ring
      have h5 : 0 ≤ η / (1 - r) * r ^ k := by positivity
      rw [e4]
      linarith [mul_nonneg (by linarith : 0 ≤ E) hu]
    have h5 : 0 ≤ (η + (1 + E) ^ 2 * c) / (1 - r) * (r ^ k + u) := by positivity
    linarith [mul_le_mul_of_nonneg_left h4 (by linarith : 0 ≤ 3 * t),
      mul_nonneg (by linarith : 0 ≤ 3 * t) h5]
  · set f := frob (A (k + 1) - A k) with hf
    have hf0 : 0 ≤ f := frob_nonneg _
    set β := η * u + (1 + E) ^ 2 * (c * f) with hβ
    have hβ0 : 0 ≤ β := by positivity
    have key : frob (A k - S) ≤ 3 * (β / (1 - r)) * t :=
      contracting_fl_residual hS hstp hr0 hr1 hc0' hsq hu hη0 (by linarith) hηu (hsE k)
        (hAH k) (hAH (k + 1)) (hstep k (hP k))
    refine key.trans ?_
    have e9 : β / (1 - r) ≤ (η + (1 + E) ^ 2 * c) / (1 - r) * (f + u) := by
      rw [div_mul_eq_mul_div]
      refine div_le_div_of_nonneg_right ?_ hr'.le
      rw [hβ]
      have h3 : 0 ≤ (1 + E) ^ 2 * c := by positivity
      linarith [mul_nonneg h3 hu, mul_nonneg hη0 hf0]
    have h5 : 0 ≤ (E + η / (1 - r)) * (f + u) := by positivity
    linarith [mul_le_mul_of_nonneg_left e9 (by linarith : 0 ≤ 3 * t),
      mul_nonneg (by linarith : 0 ≤ 3 * t) h5]

theorem student_contracting {nu : ℝ} (hnu : 0 < nu) (X : Matrix (Fin N) (Fin p) 𝕜)
    {S : Matrix (Fin p) (Fin p) 𝕜} (hS : S.PosDef) (hfix : mStep (wStudent nu p) X S = S) :
    ∃ r : ℝ, 0 ≤ r ∧ r < 1 ∧ Contracting (mStep (wStudent nu p) X) S r := by
  obtain ⟨r, hr0, hr1, hr⟩ := student_rate hnu X hS
  exact ⟨r, hr0, hr1, fun T e he hT => student_squeeze hnu X hS hfix hr he hT.1 hT.2⟩

/-- The Student-t iteration with errors. -/
theorem student_fl {nu : ℝ} (hnu : 0 < nu) (hp : 0 < p) (X : Matrix (Fin N) (Fin p) 𝕜)
    {S init : Matrix (Fin p) (Fin p) 𝕜} (hS : S.PosDef) (hi : init.PosDef)
    (hfix : mStep (wStudent nu p) X S = S) :
    ∃ r C b B u0 : ℝ, 0 ≤ r ∧ r < 1 ∧ 0 ≤ C ∧ 0 < b ∧ 0 < B ∧ 0 < u0 ∧ ∀ u : ℝ, 0 ≤ u → u ≤ u0 →
      ∀ A : ℕ → Matrix (Fin p) (Fin p) 𝕜, (∀ k, (A k).IsHermitian) →
      frob (A 0 - init) ≤ u * frob init →
      (∀ k, (A k).PosDef → frob (A (k + 1) - mStep (wStudent nu p) X (A k)) ≤
        u * frob (mStep (wStudent nu p) X (A k))) →
      ∀ k, (A k).PosDef ∧ b ≤ frob (A k) ∧ frob (A k) ≤ B ∧ frob (A k - S) ≤ C * (r ^ k + u) ∧
        frob (A k - S) ≤ C * (frob (A (k + 1) - A k) + u) := by
  obtain ⟨r, hr0, hr1, hr⟩ := student_contracting hnu X hS hfix
  obtain ⟨C, b, B, u0, h⟩ := contracting_fl hp hS hi hr hr0 hr1
  exact ⟨r, C, b, B, u0, hr0, hr1, h⟩

/-! ### From the stored matrices to the calls -/

/-- What the stored matrices `A`, the exact steps and the results `res` satisfy: everything is known
up to `u`. -/
structure FlRun (fl : Rounding p 𝕜) (step : Matrix (Fin p) (Fin p) 𝕜 → Py (FMat p 𝕜))
    (A res : ℕ → Matrix (Fin p) (Fin p) 𝕜) (Q : Matrix (Fin p) (Fin p) 𝕜) (r C u : ℝ) : Prop where
  step_eq : ∀ k, ∃ M, step (A k) = .ok (.fin M) ∧ fl.mat k M = A (k + 1)
  err : ∀ k d, 0 ≤ d → |fl.err k d - d| ≤ u * (1 + d)
  err_nonneg : ∀ k d, 0 ≤ d → 0 ≤ fl.err k d
  pos : ∀ k, 0 < frob (A k)
  posDef : ∀ k, (res k).PosDef
  near : ∀ k, frob (res k - Q) ≤ C * (r ^ k + u)
  moves : ∀ k, frob (A (k + 1) - A k) / frob (A k) ≤ C * (r ^ k + u)
  close : ∀ k, frob (res (k + 1) - Q) ≤ C * (frob (A (k + 1) - A k) / frob (A k) + u)

theorem fl_calls {r C u0 : ℝ} (hr0 : 0 ≤ r) (hr1 : r < 1) (hC : 0 ≤ C) (hu0 : 0 < u0) :
    ∃ C' K u1 : ℝ, 0 ≤ C' ∧ 0 < u1 ∧ u1 ≤ u0 ∧ ∀ u, 0 ≤ u → u ≤ u1 → ∀ (fl : Rounding p 𝕜)
      (step : Matrix (Fin p) (Fin p) 𝕜 → Py (FMat p 𝕜)) (A res : ℕ → Matrix (Fin p) (Fin p) 𝕜)
      (Q : Matrix (Fin p) (Fin p) 𝕜) (tol : ℝ) (iterMax : ℤ) (call : Py (FPOut p 𝕜)),
      FlRun fl step A res Q r C u →
      (∀ k δ w, flRunLoop fl step tol iterMax (A 0) = .ok ⟨.fin (A k), δ, k, w⟩ →
        call = .ok ⟨.fin (res k), δ, k, w⟩) →
      (∃ result delta iteration warned, call = .ok ⟨.fin result, delta, iteration, warned⟩ ∧
        result.PosDef ∧ frob (result - Q) ≤ C' * (r ^ iteration + u)) ∧
      (0 < tol → C' * u ≤ tol → tol ≤ 1 → K * (1 + Real.log (1 / tol)) < iterMax →
        ∃ result d iteration, call = .ok ⟨.fin result, .fin d, iteration, false⟩ ∧ d ≤ tol ∧
          iteration ≤ K * (1 + Real.log (1 / tol))) ∧
      (0 < iterMax → ∃ result d iteration warned,
        call = .ok ⟨.fin result, .fin d, iteration, warned⟩ ∧ frob (result - Q) ≤ C' * (d + u)) := by
  obtain ⟨K, hK0, hK⟩ := geometric_log (C := 2 * (2 * C + 1)) hr0 hr1
  refine ⟨C + (4 * C + 2) + 3 * C, K, min u0 (1 / 2), by positivity,
    lt_min hu0 (by norm_num), min_le_left _ _, fun u hu huu fl step A res Q tol iterMax call h hcall => ?_⟩
  have hu2 : u ≤ 1 / 2 := huu.trans (min_le_right _ _)
  have hpos := h.pos
  set d0 : ℕ → ℝ := fun k => frob (A (k + 1) - A k) / frob (A k) with hd0
  have hd00 : ∀ k, 0 ≤ d0 k := fun k => div_nonneg (frob_nonneg _) (hpos k).le
  set d : ℕ → ℝ := fun k => fl.err k (d0 k) with hd
  have hrel : ∀ k, fl.delta k (relErr (.fin (A (k + 1))) (.fin (A k))) = .fin (d k) := fun k => by
    simp only [relErr, if_neg (hpos k).ne', Rounding.delta, hd, hd0]
  have hd1 : ∀ k, d k ≤ (2 * C + 1) * (r ^ k + u) := fun k => by
    have h1 := (abs_le.1 (h.err k (d0 k) (hd00 k))).2
    have h2 : d0 k ≤ C * (r ^ k + u) := h.moves k
    have h3 : d k ≤ d0 k + u * (1 + d0 k) := by simp only [hd]; linarith
    have h4 : u * d0 k ≤ d0 k := by nlinarith [hd00 k]
    have h5 : 0 ≤ r ^ k := by positivity
    linarith
  have hd2 : ∀ k, d0 k ≤ 2 * (d k + u) := fun k => by
    have h1 := (abs_le.1 (h.err k (d0 k) (hd00 k))).1
    have h3 : d0 k - u * (1 + d0 k) ≤ d k := by simp only [hd]; linarith
    nlinarith [hd00 k]
  obtain ⟨k, k1, k2, k3, -⟩ := flRunLoop_run h.step_eq hrel tol iterMax
  have kc := hcall _ _ _ k1
  refine ⟨⟨res k, _, k, _, kc, h.posDef k, (h.near k).trans (mul_le_mul_of_nonneg_right
    (by linarith) (by positivity))⟩,
    fun ht hut ht1 hm => ?_, fun hm => ?_⟩
  · obtain ⟨n, hn1, hn2⟩ := hK tol ht ht1
    have hdn : d n ≤ tol := by
      refine (hd1 n).trans ?_
      have h7 : 0 ≤ C * u := mul_nonneg hC hu
      linarith
    have hkn : k ≤ n + 1 := by
      by_contra hcon
      push Not at hcon
      have := k2 (n + 1) hcon
      exact absurd hdn (not_le.2 this)
    have hkR : (k : ℝ) ≤ ((n + 1 : ℕ) : ℝ) := by exact_mod_cast hkn
    have hlt : (k : ℤ) < iterMax := by
      have : (k : ℝ) < (iterMax : ℝ) := by linarith
      exact_mod_cast this
    have hst := k3 hlt
    rw [decide_eq_false hlt.ne] at kc
    cases k with
    | zero => exact absurd trivial hst
    | succ j => exact ⟨_, _, _, kc, not_lt.1 hst, hkR.trans hn1⟩
  · cases k with
    | zero => exact absurd trivial (k3 (by exact_mod_cast hm))
    | succ j =>
      refine ⟨_, _, _, _, kc, (h.close j).trans ?_⟩
      have h6 : d0 j ≤ 2 * (d j + u) := hd2 j
      have h7 : 0 ≤ d j := h.err_nonneg j _ (hd00 j)
      have h8 : d0 j + u ≤ 3 * (d j + u) := by linarith
      have h9 : 0 ≤ (C + (4 * C + 2)) * (d j + u) := by positivity
      linarith [mul_le_mul_of_nonneg_left h8 hC]

end
end RS
