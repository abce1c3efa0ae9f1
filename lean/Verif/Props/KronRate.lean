import Verif.Lemmas.KronRateRun
import Verif.Props.KronExist

/-
Rate of the Kronecker MM algorithm: distance to the limit, number of iterations and accuracy of a
call that stops by itself (C165).
-/
set_option autoImplicit false

namespace RS
open Matrix ComplexOrder Filter Topology

section
variable {𝕜 : Type} [RCLike 𝕜] {N a b : ℕ}

/-! ## Specification -/

/-- The distances of the two returned matrices to `A` and `B` decrease geometrically with the number
of iterations done, whatever the stopping rule. -/
def KronGeometric (call : ℝ → ℤ → Py (Option (KronOut a b 𝕜))) (A : Matrix (Fin a) (Fin a) 𝕜)
    (B : Matrix (Fin b) (Fin b) 𝕜) : Prop :=
  ∃ r C : ℝ, 0 ≤ r ∧ r < 1 ∧ ∀ (tol : ℝ) (iterMax : ℤ), ∃ o, call tol iterMax = .ok (some o) ∧
    frobDist o.A A ≤ C * r ^ o.iteration ∧ frobDist o.B B ≤ C * r ^ o.iteration

/-- With a larger `iter_max` the call stops by itself within `K (1 + log(1/tol))` iterations, without
the non-convergence message. -/
def KronLog (call : ℝ → ℤ → Py (Option (KronOut a b 𝕜))) : Prop :=
  ∃ K : ℝ, ∀ (tol : ℝ) (iterMax : ℤ), 0 < tol → tol ≤ 1 →
    K * (1 + Real.log (1 / tol)) < iterMax → ∃ o, call tol iterMax = .ok (some o) ∧
      o.warned = false ∧ o.iteration ≤ K * (1 + Real.log (1 / tol))

/-- A call that stops before `iter_max` is within a constant times the tolerance of `A` and `B`. The
constant does not depend on the tolerance. -/
def KronAccurate (call : ℝ → ℤ → Py (Option (KronOut a b 𝕜))) (A : Matrix (Fin a) (Fin a) 𝕜)
    (B : Matrix (Fin b) (Fin b) 𝕜) : Prop :=
  ∃ C : ℝ, 0 ≤ C ∧ ∀ (tol : ℝ) (iterMax : ℤ), ∃ o, call tol iterMax = .ok (some o) ∧
    (o.iteration < iterMax → frobDist o.A A ≤ C * tol ∧ frobDist o.B B ≤ C * tol)

/-! ## The number of iterations -/

/-- Errors below `C r^k` are below `tol` after `K (1 + log(1/tol)) - 1` steps. -/
theorem log_steps {err : ℕ → ℝ} {r C : ℝ} (hr0 : 0 ≤ r) (hr1 : r < 1)
    (h : ∀ k, err k ≤ C * r ^ k) :
    ∃ K : ℝ, ∀ tol : ℝ, 0 < tol → tol ≤ 1 → ∃ k : ℕ, err k ≤ tol ∧
      ((k + 1 : ℕ) : ℝ) ≤ K * (1 + Real.log (1 / tol)) := by
  obtain ⟨s, hs⟩ : ∃ s, s = max r (1 / 2) := ⟨_, rfl⟩
  have hs0 : 0 < s := by rw [hs]; exact lt_max_of_lt_right (by norm_num)
  have hs1 : s < 1 := by rw [hs]; exact max_lt hr1 (by norm_num)
  obtain ⟨C', hC'⟩ : ∃ C', C' = max C 1 := ⟨_, rfl⟩
  have hC1 : 1 ≤ C' := hC' ▸ le_max_right _ _
  have h' : ∀ k, err k ≤ C' * s ^ k := fun k =>
    (h k).trans (mul_le_mul (hC' ▸ le_max_left _ _)
      (pow_le_pow_left₀ hr0 (hs ▸ le_max_left _ _) k) (by positivity) (by linarith))
  obtain ⟨L, hL⟩ : ∃ L, L = -Real.log s := ⟨_, rfl⟩
  have hL0 : 0 < L := by rw [hL]; linarith [Real.log_neg hs0 hs1]
  have hlC : 0 ≤ Real.log C' := Real.log_nonneg hC1
  refine ⟨Real.log C' / L + 1 / L + 2, fun tol ht ht1 => ?_⟩
  have hlt : 0 ≤ Real.log (1 / tol) := Real.log_nonneg (by rw [le_div_iff₀ ht]; linarith)
  obtain ⟨k, hk⟩ : ∃ k, k = ⌈(Real.log C' + Real.log (1 / tol)) / L⌉₊ := ⟨_, rfl⟩
  have hk1 : (Real.log C' + Real.log (1 / tol)) / L ≤ k := hk ▸ Nat.le_ceil _
  have hk2 : (k : ℝ) < (Real.log C' + Real.log (1 / tol)) / L + 1 :=
    hk ▸ Nat.ceil_lt_add_one (by positivity)
  refine ⟨k, (h' k).trans ?_, ?_⟩
  · have h3 : Real.log (C' * s ^ k) ≤ Real.log tol := by
      rw [Real.log_mul (by positivity) (by positivity), Real.log_pow]
      rw [div_le_iff₀ hL0, Real.log_div one_ne_zero ht.ne', Real.log_one, hL] at hk1
      linarith
    exact (Real.log_le_log_iff (by positivity) ht).1 h3
  · push_cast
    have e : (Real.log C' + Real.log (1 / tol)) / L = Real.log C' / L + 1 / L * Real.log (1 / tol) := by
      ring
    rw [e] at hk2
    have h3 : 0 ≤ Real.log C' / L := by positivity
    have h4 : 0 ≤ 1 / L := by positivity
    nlinarith [mul_nonneg h3 hlt]

/-! ## The theorems -/

/-- Real or complex data. If `(A, B)` solves the fixed-point equations and every solution is
`(s A, t B)`, there are scales `s`, `t` depending on the data only such that
`estimation_cov_kronecker_MM` approaches `s A` and `t B` geometrically; the number of iterations
needed for a tolerance grows at most like the logarithm of its inverse; and a call that stops by
itself is within a constant times the tolerance. -/
theorem C165_rate (sq : Sqrtm 𝕜) (hsq : SqrtmPD sq) (X : Matrix (Fin N) (Fin (a * b)) 𝕜)
    (hX : KronData fun i => unstack (X i)) (ha : 0 < a) (hb : 0 < b)
    (A : Matrix (Fin a) (Fin a) 𝕜) (B : Matrix (Fin b) (Fin b) 𝕜)
    (hfix : KronFixed (fun i => unstack (X i)) A B)
    (huniq : ∀ A' B', KronFixed (fun i => unstack (X i)) A' B' →
      ∃ s t : ℝ, A' = (s : 𝕜) • A ∧ B' = (t : 𝕜) • B) :
    ∃ s t : ℝ, 0 < s ∧ 0 < t ∧
      KronGeometric (fun tol iterMax => kroneckerMM sq X a b tol iterMax) ((s : 𝕜) • A)
        ((t : 𝕜) • B) ∧
      KronLog (fun tol iterMax => kroneckerMM sq X a b tol iterMax) ∧
      KronAccurate (fun tol iterMax => kroneckerMM sq X a b tol iterMax) ((s : 𝕜) • A)
        ((t : 𝕜) • B) := by
  obtain ⟨P, Q, hP0, hQ0, hstep⟩ := kronSeq_exists hX ha hb
  obtain ⟨s, t, hs, ht, r, C, hr0, hr1, hC, h⟩ := kron_rate X hX ha hb hfix.posA hfix.posB hfix.eqA
    hfix.eqB (fun A' B' h1 h2 h3 h4 => huniq A' B' ⟨h1, h2, h3, h4⟩) (hP0 ▸ PosDef.one)
    (hQ0 ▸ PosDef.one) hstep
  refine ⟨s, t, hs, ht, ⟨r, C, hr0, hr1, fun tol iterMax => ?_⟩, ?_, ⟨C, hC, fun tol iterMax => ?_⟩⟩
  · obtain ⟨o, A1, B1, d, h1, h2, h3, h4, -⟩ := C67_run sq hsq X hX ha hb tol iterMax
    obtain ⟨e1, e2⟩ := h4.iterates hP0 hQ0 hstep _ le_rfl
    refine ⟨o, h1, ?_⟩
    rw [← h2, ← h3, e1, e2, frobDist_eq, frobDist_eq]
    exact ⟨(h _).1, (h _).2.1⟩
  · obtain ⟨K, hK⟩ := log_steps (err := kronErr P Q) hr0 hr1 fun k => (h k).2.2.1
    refine ⟨K, fun tol iterMax ht0 ht1 hm => ?_⟩
    obtain ⟨k, hk1, hk2⟩ := hK tol ht0 ht1
    obtain ⟨o, A1, B1, d, h1, h2, h3, h4, -⟩ := C67_run sq hsq X hX ha hb tol iterMax
    have hle : o.iteration ≤ k + 1 := by
      by_contra hcon
      push Not at hcon
      have h5 := h4.continued (k + 1) hcon
      rw [h4.error ha hb hP0 hQ0 hstep k (by omega)] at h5
      exact absurd h5 (not_lt.2 hk1)
    have hleR : (o.iteration : ℝ) ≤ ((k + 1 : ℕ) : ℝ) := by exact_mod_cast hle
    have hle' := hleR.trans hk2
    refine ⟨o, h1, ?_, hle'⟩
    rw [kroneckerMM_warned h1, beq_eq_false_iff_ne]
    have : (o.iteration : ℝ) < (iterMax : ℝ) := lt_of_le_of_lt hle' hm
    have : (o.iteration : ℤ) < iterMax := by exact_mod_cast this
    omega
  · obtain ⟨o, A1, B1, d, h1, h2, h3, h4, -⟩ := C67_run sq hsq X hX ha hb tol iterMax
    obtain ⟨e1, e2⟩ := h4.iterates hP0 hQ0 hstep _ le_rfl
    refine ⟨o, h1, fun hlt => ?_⟩
    rw [← h2, ← h3, e1, e2, frobDist_eq, frobDist_eq]
    have h5 := h4.stopped hlt
    cases hit : o.iteration with
    | zero => rw [hit, h4.start.2.2] at h5; exact absurd trivial h5
    | succ k =>
      rw [hit, h4.error ha hb hP0 hQ0 hstep k (by omega)] at h5
      have h6 := mul_le_mul_of_nonneg_left (not_lt.1 h5) hC
      exact ⟨(h k).2.2.2.1.trans h6, (h k).2.2.2.2.trans h6⟩

/-- The same from a condition on the samples only. -/
theorem C165_spread (sq : Sqrtm 𝕜) (hsq : SqrtmPD sq) (X : Matrix (Fin N) (Fin (a * b)) 𝕜)
    (hN : 0 < N) (ha : 0 < a) (hb : 0 < b) (h0 : ∀ i, X i ≠ 0)
    (hS : KronSpread fun i => (unstack (X i) : Matrix (Fin b) (Fin a) 𝕜)) :
    ∃ (A : Matrix (Fin a) (Fin a) 𝕜) (B : Matrix (Fin b) (Fin b) 𝕜),
      KronFixed (fun i => unstack (X i)) A B ∧
      KronGeometric (fun tol iterMax => kroneckerMM sq X a b tol iterMax) A B ∧
      KronLog (fun tol iterMax => kroneckerMM sq X a b tol iterMax) ∧
      KronAccurate (fun tol iterMax => kroneckerMM sq X a b tol iterMax) A B := by
  have hD := kronSpread_data hN ha hb (fun i => unstack_ne_zero (h0 i)) hS
  obtain ⟨A, B, hfix, huniq⟩ := kronSpread_exists X hN ha hb h0 hS
  obtain ⟨s, t, hs, ht, h⟩ := C165_rate sq hsq X hD ha hb A B hfix huniq
  exact ⟨(s : 𝕜) • A, (t : 𝕜) • B, kronFixed_smul hfix hs ht, h⟩

/-- `fit` of `KroneckerEllipticalMM` on more than `a b` complex samples in general position: with
`iter_max` above `K (1 + log(1/tol))` the attributes `A_` and `B_` are within `C tol` of one pair of
positive definite matrices, for all tolerances. -/
theorem C165_fit (sq : Sqrtm ℂ) (hsq : SqrtmPD sq) (X : Matrix (Fin N) (Fin (a * b)) ℂ)
    (ha : 0 < a) (hb : 0 < b) (hN : a * b < N) (hX : GeneralPosition X) :
    ∃ (A : Matrix (Fin a) (Fin a) ℂ) (B : Matrix (Fin b) (Fin b) ℂ) (K C : ℝ), A.PosDef ∧ B.PosDef ∧
      ∀ (tol : ℝ) (iterMax : ℤ), 0 < tol → tol ≤ 1 → K * (1 + Real.log (1 / tol)) < iterMax → ∃ f,
        kronMMFit sq ⟨a, b, tol, iterMax⟩ (.cplx (.d2 N (a * b) X)) = .ok f ∧
        frobDist f.A A ≤ C * tol ∧ frobDist f.B B ≤ C * tol ∧
        f.covariance = .cplx (.d2 (a * b) (a * b) (kron f.A f.B)) := by
  have hn := generalPosition_nonzero hX (Nat.mul_pos ha hb)
  have h0 : ∀ i, X i ≠ 0 := fun i h => hn i (by ext j; simp [sample, h])
  have hab : 0 < a * b := Nat.mul_pos ha hb
  obtain ⟨A, B, hfix, -, ⟨K, hK⟩, ⟨C, hC, hacc⟩⟩ := C165_spread sq hsq X (by omega) ha hb h0
    (C145_general_position X ha hb hN hX)
  refine ⟨A, B, K, C, hfix.posA, hfix.posB, fun tol iterMax ht0 ht1 hm => ?_⟩
  obtain ⟨o, h1, h2, h3⟩ := hK tol iterMax ht0 ht1 hm
  obtain ⟨o', h4, h5⟩ := hacc tol iterMax
  have e : o' = o := by
    rw [h1] at h4
    simpa using h4.symm
  subst e
  have hlt : (o'.iteration : ℤ) < iterMax := by
    have : (o'.iteration : ℝ) < (iterMax : ℝ) := lt_of_le_of_lt h3 hm
    exact_mod_cast this
  obtain ⟨h6, h7⟩ := h5 hlt
  refine ⟨⟨o'.A, o'.B, .cplx (.d2 (a * b) (a * b) (kron o'.A o'.B))⟩, ?_, h6, h7, rfl⟩
  simp only [kronMMFit, arraytoreal_check_complex N (a * b) (by omega) hab X, Bind.bind, Except.bind,
    h1, npKron_eq, setCovariance_complex (a * b) hab, pure, Except.pure]

end

/-- The hypotheses of `C165_rate` are met by the four samples of `C111`, with the identity as fixed
point. -/
example : KronData (fun i => (unstack (pauliData i) : Matrix (Fin 2) (Fin 2) ℝ)) ∧
    KronFixed (fun i => (unstack (pauliData i) : Matrix (Fin 2) (Fin 2) ℝ)) 1 1 ∧
    ∀ A' B', KronFixed (fun i => (unstack (pauliData i) : Matrix (Fin 2) (Fin 2) ℝ)) A' B' →
      ∃ s t : ℝ, A' = (s : ℝ) • (1 : Matrix (Fin 2) (Fin 2) ℝ) ∧
        B' = (t : ℝ) • (1 : Matrix (Fin 2) (Fin 2) ℝ) :=
  ⟨pauli_data.1, pauli_data.2.1, fun A' B' h => C111_unique pauliData pauli_data.1 (by norm_num)
    (by norm_num) pauli_data.2.2 _ _ _ _ pauli_data.2.1 h⟩

/-- Those of `C165_fit` by samples of every size. -/
example (a b : ℕ) : GeneralPosition (powerData ℂ (a * b + 1) (a * b)) :=
  powerData_generalPosition ℂ _ _

end RS
