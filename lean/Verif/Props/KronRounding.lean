import Verif.Model.KronRounding
import Verif.Lemmas.KronRounding
import Verif.Props.KronRate
import Verif.Props.RoundingFloor

/-
Rounding errors in the Kronecker MM algorithm (C171).
-/
set_option autoImplicit false

namespace RS
open Matrix ComplexOrder

section
variable {𝕜 : Type} [RCLike 𝕜] {N a b : ℕ}

/-! ## Specification -/

/-- Every stored matrix has the relative accuracy `u` in Frobenius norm and is Hermitian if the exact
one is; every stored error is non-negative and accurate up to `u (1 + error)`. -/
structure KronRounding.Within (fl : KronRounding a b 𝕜) (u : ℝ) : Prop where
  matA_hermitian : ∀ n M, M.IsHermitian → (fl.matA n M).IsHermitian
  matA : ∀ n M, M.IsHermitian → frobDist (fl.matA n M) M ≤ u * frobDist M 0
  matB_hermitian : ∀ n M, M.IsHermitian → (fl.matB n M).IsHermitian
  matB : ∀ n M, M.IsHermitian → frobDist (fl.matB n M) M ≤ u * frobDist M 0
  err_nonneg : ∀ n d, 0 ≤ d → 0 ≤ fl.err n d
  err : ∀ n d, 0 ≤ d → |fl.err n d - d| ≤ u * (1 + d)

/-- Nothing is rounded. -/
def KronRounding.exact (a b : ℕ) (𝕜 : Type) : KronRounding a b 𝕜 :=
  ⟨fun _ => id, fun _ => id, fun _ => id⟩

/-- `P` is a positive multiple of `A` up to the relative error `ε`. -/
def NearMultiple {n : ℕ} (A P : Matrix (Fin n) (Fin n) 𝕜) (ε : ℝ) : Prop :=
  ∃ s : ℝ, 0 < s ∧ frobDist P ((s : 𝕜) • A) ≤ ε * frobDist ((s : 𝕜) • A) 0

/-- Calls with small enough rounding errors `u` behave like exact ones up to a multiple of `u`. They
return two positive definite matrices, as close to multiples of `A` and `B` as `r ^ iteration + u`;
they reach every tolerance above `C u`, in a number of iterations that grows like its logarithm and
without the non-convergence message; and a call that stops before `iter_max` is as close as
`tol + u`. -/
def KronStable (call : KronRounding a b 𝕜 → ℝ → ℤ → Py (Option (KronOut a b 𝕜)))
    (A : Matrix (Fin a) (Fin a) 𝕜) (B : Matrix (Fin b) (Fin b) 𝕜) : Prop :=
  ∃ r C K u0 : ℝ, 0 ≤ r ∧ r < 1 ∧ 0 ≤ C ∧ 0 < u0 ∧ ∀ u : ℝ, 0 ≤ u → u ≤ u0 →
    ∀ fl : KronRounding a b 𝕜, fl.Within u → ∀ (tol : ℝ) (iterMax : ℤ), ∃ o,
      call fl tol iterMax = .ok (some o) ∧ o.A.PosDef ∧ o.B.PosDef ∧
      NearMultiple A o.A (C * (r ^ o.iteration + u)) ∧ NearMultiple B o.B (C * (r ^ o.iteration + u)) ∧
      (0 < tol → C * u ≤ tol → tol ≤ 1 → K * (1 + Real.log (1 / tol)) < iterMax →
        o.warned = false ∧ o.iteration ≤ K * (1 + Real.log (1 / tol))) ∧
      (o.iteration < iterMax → NearMultiple A o.A (C * (tol + u)) ∧ NearMultiple B o.B (C * (tol + u)))

/-- `P` and `Q` are the matrices that are stored: they start at the identity, and each pair is the
rounded result of the exact step from the one before. -/
structure IsKronFlRun (fl : KronRounding a b 𝕜) (M : Fin N → Matrix (Fin b) (Fin a) 𝕜)
    (P : ℕ → Matrix (Fin a) (Fin a) 𝕜) (Q : ℕ → Matrix (Fin b) (Fin b) 𝕜) : Prop where
  start : P 0 = 1 ∧ Q 0 = 1
  next : ∀ k, ∃ P' Q', KronUpdate M (P k) P' (Q k) Q' ∧ P (k + 1) = fl.matA k P' ∧
    Q (k + 1) = fl.matB k Q'

/-! ## Without rounding -/

theorem kronStep_pyInv {sq : Sqrtm 𝕜} {M : Fin N → Matrix (Fin b) (Fin a) 𝕜}
    {A iA A' iA' : Matrix (Fin a) (Fin a) 𝕜} {B B' : Matrix (Fin b) (Fin b) 𝕜}
    (h : kronStep sq M A iA B = .ok (A', iA', B')) : pyInv A' = .ok iA' := by
  simp only [kronStep, bind, Except.bind, pure, Except.pure] at h
  repeat' split at h
  all_goals first
    | (cases h; done)
    | skip
  all_goals
    simp only [Except.ok.injEq, Prod.mk.injEq] at h
    obtain ⟨h1, h2, -⟩ := h
    subst h1 h2
    assumption

theorem kronLoopFl_exact (sq : Sqrtm 𝕜) (M : Fin N → Matrix (Fin b) (Fin a) 𝕜) (tol : ℝ)
    (iterMax : ℤ) (s : KronState a b 𝕜) :
    kronLoopFl (.exact a b 𝕜) sq M tol iterMax s = kronLoop sq M tol iterMax s := by
  induction s using kronLoop.induct sq M tol iterMax with
  | case1 s h e he => rw [kronLoopFl, kronLoop, if_pos h, if_pos h, he]
  | case2 s h A iA B hs ih =>
    have e2 : ∀ d, (KronRounding.exact a b 𝕜).delta s.iteration d = d := fun d => by cases d <;> rfl
    rw [kronLoopFl, kronLoop, if_pos h, if_pos h, hs]
    simp only [e2]
    have e3 : pyInv ((KronRounding.exact a b 𝕜).matA s.iteration A) = .ok iA := kronStep_pyInv hs
    rw [e3]
    exact ih
  | case3 s h => rw [kronLoopFl, kronLoop, if_neg h, if_neg h]

/-- Without rounding the calls are the ones of the exact model, whatever the data. -/
theorem C171_exact {p : ℕ} (sq : Sqrtm 𝕜) (X : Matrix (Fin N) (Fin p) 𝕜) (tol : ℝ) (iterMax : ℤ) :
    kroneckerMMFl (.exact a b 𝕜) sq X tol iterMax = kroneckerMM sq X a b tol iterMax := by
  unfold kroneckerMMFl kroneckerMM
  simp only [kronLoopFl_exact]

/-- The same for `fit`. -/
theorem C171_exact_fit (P : KronMMParams) (sq : Sqrtm ℂ) (X : NDArr) :
    kronMMFitFl P (.exact P.a P.b ℂ) sq X = kronMMFit sq P X := by
  unfold kronMMFitFl kronMMFit
  simp only [C171_exact]
  rfl

/-! ## The run -/

/-- The stored errors. -/
noncomputable def kronStored (fl : KronRounding a b 𝕜) (P : ℕ → Matrix (Fin a) (Fin a) 𝕜)
    (Q : ℕ → Matrix (Fin b) (Fin b) 𝕜) : ℕ → Delta
  | 0 => .inf
  | k + 1 => .fin (fl.err k (kronErr P Q k))

theorem kronLoopFl_run (fl : KronRounding a b 𝕜) (sq : Sqrtm 𝕜) (hsq : SqrtmPD sq)
    {M : Fin N → Matrix (Fin b) (Fin a) 𝕜} (hM : KronData M) (ha : 0 < a) (hb : 0 < b)
    {P : ℕ → Matrix (Fin a) (Fin a) 𝕜} {Q : ℕ → Matrix (Fin b) (Fin b) 𝕜}
    (h : IsKronFlRun fl M P Q) (hP : ∀ k, (P k).PosDef) (hQ : ∀ k, (Q k).PosDef) (tol : ℝ)
    (iterMax : ℤ) (n k : ℕ) (hn : (iterMax - k).toNat = n) :
    ∃ m, k ≤ m ∧ kronLoopFl fl sq M tol iterMax ⟨P k, (P k)⁻¹, Q k, kronStored fl P Q k, k⟩ =
        .ok ⟨P m, (P m)⁻¹, Q m, kronStored fl P Q m, m⟩ ∧
      (∀ j, k ≤ j → j < m → (kronStored fl P Q j).gt tol ∧ (j : ℤ) < iterMax) ∧
      ((kronStored fl P Q m).gt tol → iterMax ≤ m) := by
  induction n generalizing k with
  | zero =>
    refine ⟨k, le_rfl, ?_, fun j h1 h2 => absurd h1 (by omega), fun _ => by omega⟩
    rw [kronLoopFl, if_neg (by simp only; omega)]
  | succ n ih =>
    rw [kronLoopFl]
    by_cases hc : (kronStored fl P Q k).gt tol ∧ (k : ℤ) < iterMax
    · obtain ⟨m, h1, h2, h3, h4⟩ := ih (k + 1) (by push_cast; omega)
      refine ⟨m, by omega, ?_, fun j j1 j2 => ?_, h4⟩
      · rw [if_pos hc]
        obtain ⟨P', Q', up, e1, e2⟩ := h.next k
        obtain ⟨A', B', e3, up'⟩ := kronStep_ok sq hsq hM ha hb (hP k) (hQ k)
        have eA : A' = P' := up.uniqA A' up'.posA up'.eqA
        have eB : B' = Q' := up.uniqB B' up'.posB (by rw [← eA]; exact up'.eqB)
        simp only [e3, eA, eB, ← e1, ← e2, pyInv_posDef (hP (k + 1))]
        rw [← h2]
        congr 2
        simp only [relErr, if_neg (frob_pos ha (hP k)).ne', if_neg (frob_pos hb (hQ k)).ne',
          Delta.pyMax, Delta.lt, kronStored, kronErr]
        split_ifs with hlt
        · simp only [KronRounding.delta, max_eq_right hlt.le]
        · simp only [KronRounding.delta, max_eq_left (not_lt.1 hlt)]
      · rcases Nat.eq_or_lt_of_le j1 with rfl | j1
        · exact hc
        · exact h3 j j1 j2
    · refine ⟨k, le_rfl, by rw [if_neg hc], fun j h1 h2 => absurd h1 (by omega), fun hg => ?_⟩
      by_contra hcon
      exact hc ⟨hg, by omega⟩

theorem kroneckerMMFl_run (fl : KronRounding a b 𝕜) (sq : Sqrtm 𝕜) (hsq : SqrtmPD sq)
    {X : Matrix (Fin N) (Fin (a * b)) 𝕜} (hX : KronData fun i => unstack (X i)) (ha : 0 < a)
    (hb : 0 < b) {P : ℕ → Matrix (Fin a) (Fin a) 𝕜} {Q : ℕ → Matrix (Fin b) (Fin b) 𝕜}
    (h : IsKronFlRun fl (fun i => unstack (X i)) P Q) (hP : ∀ k, (P k).PosDef)
    (hQ : ∀ k, (Q k).PosDef) (tol : ℝ) (iterMax : ℤ) :
    ∃ m, kroneckerMMFl fl sq X tol iterMax =
        .ok (some ⟨P m, Q m, tol, m, decide ((m : ℤ) = iterMax)⟩) ∧
      (∀ j < m, (kronStored fl P Q j).gt tol ∧ (j : ℤ) < iterMax) ∧
      ((kronStored fl P Q m).gt tol → iterMax ≤ m) := by
  obtain ⟨m, -, h1, h2, h3⟩ := kronLoopFl_run fl sq hsq hX ha hb h hP hQ tol iterMax _ 0 rfl
  refine ⟨m, ?_, fun j hj => h2 j (Nat.zero_le j) hj, h3⟩
  have e : (fun i => reshapeF (a := a) (b := b) rfl (X i)) = fun i => unstack (X i) :=
    funext fun i => reshapeF_eq (X i) rfl
  unfold kroneckerMMFl
  rw [dif_neg (by simp), e]
  rw [h.start.1, h.start.2, inv_one] at h1
  simp only [kronStored] at h1
  simp only [h1, Bind.bind, Except.bind, pure, Except.pure]
  rfl

/-- What a call computes, given the pairs it would store: it goes on while the stored error, the larger
of the two relative changes up to its rounding, exceeds the tolerance and there are iterations left;
it returns the last pair, the tolerance and the number of iterations, and complains when that number
is `iter_max`. -/
theorem C171_run (sq : Sqrtm 𝕜) (hsq : SqrtmPD sq) (X : Matrix (Fin N) (Fin (a * b)) 𝕜)
    (hX : KronData fun i => unstack (X i)) (ha : 0 < a) (hb : 0 < b) (fl : KronRounding a b 𝕜)
    (P : ℕ → Matrix (Fin a) (Fin a) 𝕜) (Q : ℕ → Matrix (Fin b) (Fin b) 𝕜)
    (h : IsKronFlRun fl (fun i => unstack (X i)) P Q) (hP : ∀ k, (P k).PosDef ∧ (Q k).PosDef)
    (tol : ℝ) (iterMax : ℤ) :
    ∃ (k : ℕ) (e : ℕ → Delta), e 0 = .inf ∧
      (∀ n, e (n + 1) = .fin (fl.err n (max (frobDist (P (n + 1)) (P n) / frobDist (P n) 0)
        (frobDist (Q (n + 1)) (Q n) / frobDist (Q n) 0)))) ∧
      kroneckerMMFl fl sq X tol iterMax =
        .ok (some ⟨P k, Q k, tol, k, decide ((k : ℤ) = iterMax)⟩) ∧
      (∀ j < k, (e j).gt tol ∧ (j : ℤ) < iterMax) ∧ ((e k).gt tol → iterMax ≤ k) := by
  obtain ⟨m, h1, h2, h3⟩ := kroneckerMMFl_run fl sq hsq hX ha hb h (fun k => (hP k).1)
    (fun k => (hP k).2) tol iterMax
  refine ⟨m, kronStored fl P Q, rfl, fun n => ?_, h1, h2, h3⟩
  simp only [kronStored, kronErr, frobDist_eq, sub_zero]

/-! ## Stability -/

open Classical in
/-- The pairs a call would store. -/
theorem kronFlRun_exists (fl : KronRounding a b 𝕜) {X : Matrix (Fin N) (Fin (a * b)) 𝕜}
    (hX : KronData fun i => unstack (X i)) (ha : 0 < a) (hb : 0 < b) :
    ∃ (P : ℕ → Matrix (Fin a) (Fin a) 𝕜) (Q : ℕ → Matrix (Fin b) (Fin b) 𝕜), P 0 = 1 ∧ Q 0 = 1 ∧
      ∀ k, (P k).PosDef → (Q k).PosDef → ∃ P' Q',
        KronUpdate (fun i => unstack (X i)) (P k) P' (Q k) Q' ∧ P (k + 1) = fl.matA k P' ∧
        Q (k + 1) = fl.matB k Q' := by
  have hex : ∀ s : Matrix (Fin a) (Fin a) 𝕜 × Matrix (Fin b) (Fin b) 𝕜,
      ∃ t : Matrix (Fin a) (Fin a) 𝕜 × Matrix (Fin b) (Fin b) 𝕜, s.1.PosDef → s.2.PosDef →
        KronUpdate (fun i => unstack (X i)) s.1 t.1 s.2 t.2 := fun s => by
    by_cases h : s.1.PosDef ∧ s.2.PosDef
    · obtain ⟨A', B', u⟩ := kronUpdate_exists hX ha hb h.1 h.2
      exact ⟨(A', B'), fun _ _ => u⟩
    · exact ⟨s, fun h1 h2 => absurd ⟨h1, h2⟩ h⟩
  choose t ht using hex
  let S : ℕ → Matrix (Fin a) (Fin a) 𝕜 × Matrix (Fin b) (Fin b) 𝕜 :=
    Nat.rec (1, 1) fun k s => (fl.matA k (t s).1, fl.matB k (t s).2)
  exact ⟨fun k => (S k).1, fun k => (S k).2, rfl, rfl, fun k h1 h2 =>
    ⟨_, _, ht (S k) h1 h2, rfl, rfl⟩⟩

theorem kronMin_of_fixed {X : Matrix (Fin N) (Fin (a * b)) 𝕜}
    (hX : KronData fun i => unstack (X i)) (ha : 0 < a) (hb : 0 < b)
    {A : Matrix (Fin a) (Fin a) 𝕜} {B : Matrix (Fin b) (Fin b) 𝕜}
    (hfix : KronFixed (fun i => unstack (X i)) A B)
    (huniq : ∀ A' B', KronFixed (fun i => unstack (X i)) A' B' →
      ∃ s t : ℝ, A' = (s : 𝕜) • A ∧ B' = (t : 𝕜) • B) : KronMin X A B := by
  have hN := kronData_pos hX ha
  have h0 : ∀ i, X i ≠ 0 := fun i h => hX.nonzero i (by ext r c; simp [unstack, h])
  refine ⟨hN, ha, hb, h0, hfix.posA, hfix.posB, hfix.eqA, hfix.eqB, fun A' B' hA' hB' he => ?_,
    fun P Q hP hQ => kronUpdate_exists hX ha hb hP hQ⟩
  obtain ⟨A'', B'', u⟩ := kronUpdate_exists hX ha hb hA' hB'
  obtain ⟨h1, h2⟩ := kron_stationary X hX ha hb hA' hB' u (by
    rw [he]
    exact kron_fixed_minimises X hN h0 hfix.posA hfix.posB hfix.eqA hfix.eqB u.posA u.posB)
  exact huniq A' B' ⟨hA', hB', h1, h2⟩

theorem nearMultiple_of_ray {n : ℕ} {A P : Matrix (Fin n) (Fin n) 𝕜} {ε : ℝ} (h : RayDist A P ε) :
    NearMultiple A P ε := by
  obtain ⟨s, hs, h1⟩ := h
  exact ⟨s, hs, by rw [frobDist_eq, frobDist_eq, sub_zero]; exact h1⟩

/-- Real or complex data. If `(A, B)` solves the fixed-point equations and every solution is
`(s A, t B)`, the calls of `estimation_cov_kronecker_MM` withstand rounding errors. The scales are not
determined: roundings can let them drift. -/
theorem C171_stable (sq : Sqrtm 𝕜) (hsq : SqrtmPD sq) (X : Matrix (Fin N) (Fin (a * b)) 𝕜)
    (hX : KronData fun i => unstack (X i)) (ha : 0 < a) (hb : 0 < b)
    (A : Matrix (Fin a) (Fin a) 𝕜) (B : Matrix (Fin b) (Fin b) 𝕜)
    (hfix : KronFixed (fun i => unstack (X i)) A B)
    (huniq : ∀ A' B', KronFixed (fun i => unstack (X i)) A' B' →
      ∃ s t : ℝ, A' = (s : 𝕜) • A ∧ B' = (t : 𝕜) • B) :
    KronStable (fun fl tol iterMax => kroneckerMMFl fl sq X tol iterMax) A B := by
  obtain ⟨r, C, u0, hr0, hr1, hC, hu0, hmain⟩ := kron_fl (kronMin_of_fixed hX ha hb hfix huniq)
    (PosDef.one (n := Fin a) (R := 𝕜)) (PosDef.one (n := Fin b) (R := 𝕜))
  obtain ⟨K, hK0, hK⟩ := geometric_log (C := 2 * (2 * C + 1)) hr0 hr1
  refine ⟨r, C + (4 * C + 2) + 3 * C, K, min u0 (1 / 2), hr0, hr1, by positivity,
    lt_min hu0 (by norm_num), fun u hu huu fl hfl tol iterMax => ?_⟩
  have hu2 : u ≤ 1 / 2 := huu.trans (min_le_right _ _)
  obtain ⟨P, Q, hP0, hQ0, hnext⟩ := kronFlRun_exists fl hX ha hb
  have hseq : KronFlSeq X u P Q := fun k P' Q' hP hQ up => by
    obtain ⟨P'', Q'', up', e1, e2⟩ := hnext k hP hQ
    have eA : P' = P'' := up'.uniqA P' up.posA up.eqA
    have eB : Q' = Q'' := up'.uniqB Q' up.posB (by rw [← eA]; exact up.eqB)
    have h1 := hfl.matA k P' up.posA.1
    have h2 := hfl.matB k Q' up.posB.1
    rw [frobDist_eq, frobDist_eq, sub_zero] at h1 h2
    rw [e1, e2, ← eA, ← eB]
    exact ⟨hfl.matA_hermitian _ _ up.posA.1, h1, hfl.matB_hermitian _ _ up.posB.1, h2⟩
  have hall := hmain u hu (huu.trans (min_le_left _ _)) P Q hP0 hQ0 hseq
  have hrun : IsKronFlRun fl (fun i => unstack (X i)) P Q :=
    ⟨⟨hP0, hQ0⟩, fun k => hnext k (hall k).1 (hall k).2.1⟩
  obtain ⟨m, k1, k2, k3⟩ := kroneckerMMFl_run fl sq hsq hX ha hb hrun (fun k => (hall k).1)
    (fun k => (hall k).2.1) tol iterMax
  obtain ⟨d0, hd0⟩ : ∃ d0 : ℕ → ℝ, d0 = kronErr P Q := ⟨_, rfl⟩
  have hd00 : ∀ k, 0 ≤ d0 k := fun k => by
    rw [hd0]
    exact le_max_of_le_left (div_nonneg (frob_nonneg _) (frob_nonneg _))
  have hd1 : ∀ k, fl.err k (d0 k) ≤ (2 * C + 1) * (r ^ k + u) := fun k => by
    have h1 := (abs_le.1 (hfl.err k (d0 k) (hd00 k))).2
    have h2 : d0 k ≤ C * (r ^ k + u) := hd0 ▸ (hall k).2.2.2.2.1
    have h4 : u * d0 k ≤ d0 k := by nlinarith [hd00 k]
    have h5 : 0 ≤ r ^ k := by positivity
    linarith
  have hd2 : ∀ k, d0 k ≤ 2 * (fl.err k (d0 k) + u) := fun k => by
    have h1 := (abs_le.1 (hfl.err k (d0 k) (hd00 k))).1
    nlinarith [hd00 k]
  have es : ∀ k, kronStored fl P Q (k + 1) = .fin (fl.err k (d0 k)) := fun k => by
    rw [hd0]
    rfl
  have hs0 : 0 ≤ r ^ m + u := by positivity
  have hle : C * (r ^ m + u) ≤ (C + (4 * C + 2) + 3 * C) * (r ^ m + u) :=
    mul_le_mul_of_nonneg_right (by linarith) hs0
  refine ⟨_, k1, (hall m).1, (hall m).2.1, nearMultiple_of_ray ((hall m).2.2.1.mono hle),
    nearMultiple_of_ray ((hall m).2.2.2.1.mono hle), fun ht hut ht1 hm => ?_, fun hlt => ?_⟩
  · obtain ⟨n, hn1, hn2⟩ := hK tol ht ht1
    have hdn : fl.err n (d0 n) ≤ tol := by
      refine (hd1 n).trans ?_
      have h7 : 0 ≤ C * u := mul_nonneg hC hu
      linarith
    have hkn : m ≤ n + 1 := by
      by_contra hcon
      push Not at hcon
      have := (k2 (n + 1) hcon).1
      rw [es] at this
      exact absurd hdn (not_le.2 this)
    have hkR : (m : ℝ) ≤ ((n + 1 : ℕ) : ℝ) := by exact_mod_cast hkn
    have hlt : (m : ℤ) < iterMax := by
      have : (m : ℝ) < (iterMax : ℝ) := by linarith
      exact_mod_cast this
    exact ⟨decide_eq_false hlt.ne, hkR.trans hn1⟩
  · have hst : ¬ (kronStored fl P Q m).gt tol := fun h => absurd (k3 h) (not_le.2 hlt)
    cases m with
    | zero => exact absurd trivial hst
    | succ j =>
      rw [es] at hst
      have h5 : fl.err j (d0 j) ≤ tol := not_lt.1 hst
      have h6 := hd2 j
      have h7 := hfl.err_nonneg j _ (hd00 j)
      have h8 : C * (d0 j + u) ≤ (C + (4 * C + 2) + 3 * C) * (tol + u) := by
        have h9 : d0 j + u ≤ 3 * (tol + u) := by linarith
        have h10 : 0 ≤ (C + (4 * C + 2)) * (tol + u) := by
          have : 0 ≤ tol + u := by linarith
          positivity
        linarith [mul_le_mul_of_nonneg_left h9 hC]
      have h11 := (hall j).2.2.2.2.2
      rw [← hd0] at h11
      exact ⟨nearMultiple_of_ray (h11.1.mono h8), nearMultiple_of_ray (h11.2.mono h8)⟩

/-- The same from a condition on the samples only. -/
theorem C171_spread (sq : Sqrtm 𝕜) (hsq : SqrtmPD sq) (X : Matrix (Fin N) (Fin (a * b)) 𝕜)
    (hN : 0 < N) (ha : 0 < a) (hb : 0 < b) (h0 : ∀ i, X i ≠ 0)
    (hS : KronSpread fun i => (unstack (X i) : Matrix (Fin b) (Fin a) 𝕜)) :
    ∃ (A : Matrix (Fin a) (Fin a) 𝕜) (B : Matrix (Fin b) (Fin b) 𝕜),
      KronFixed (fun i => unstack (X i)) A B ∧
      KronStable (fun fl tol iterMax => kroneckerMMFl fl sq X tol iterMax) A B := by
  have hD := kronSpread_data hN ha hb (fun i => unstack_ne_zero (h0 i)) hS
  obtain ⟨A, B, hfix, huniq⟩ := kronSpread_exists X hN ha hb h0 hS
  exact ⟨A, B, hfix, C171_stable sq hsq X hD ha hb A B hfix huniq⟩

/-- `fit` of `KroneckerEllipticalMM` on more than `a b` complex samples in general position, with
rounding errors `u` and a tolerance above `C u`: with `iter_max` above `K (1 + log(1/tol))` the
attributes `A_` and `B_` are within `C (tol + u)` of multiples of one pair of positive definite
matrices, in relative terms. -/
theorem C171_fit (sq : Sqrtm ℂ) (hsq : SqrtmPD sq) (X : Matrix (Fin N) (Fin (a * b)) ℂ)
    (ha : 0 < a) (hb : 0 < b) (hN : a * b < N) (hX : GeneralPosition X) :
    ∃ (A : Matrix (Fin a) (Fin a) ℂ) (B : Matrix (Fin b) (Fin b) ℂ) (K C u0 : ℝ), A.PosDef ∧
      B.PosDef ∧ 0 < u0 ∧ ∀ (u : ℝ) (fl : KronRounding a b ℂ), 0 ≤ u → u ≤ u0 → fl.Within u →
      ∀ (tol : ℝ) (iterMax : ℤ), 0 < tol → C * u ≤ tol → tol ≤ 1 →
        K * (1 + Real.log (1 / tol)) < iterMax → ∃ f,
        kronMMFitFl ⟨a, b, tol, iterMax⟩ fl sq (.cplx (.d2 N (a * b) X)) = .ok f ∧
        NearMultiple A f.A (C * (tol + u)) ∧ NearMultiple B f.B (C * (tol + u)) ∧
        f.covariance = .cplx (.d2 (a * b) (a * b) (kron f.A f.B)) := by
  have hn := generalPosition_nonzero hX (Nat.mul_pos ha hb)
  have h0 : ∀ i, X i ≠ 0 := fun i h => hn i (by ext j; simp [sample, h])
  have hab : 0 < a * b := Nat.mul_pos ha hb
  obtain ⟨A, B, hfix, r, C, K, u0, -, -, hC, hu0, h⟩ := C171_spread sq hsq X (by omega) ha hb h0
    (C145_general_position X ha hb hN hX)
  refine ⟨A, B, K, C, u0, hfix.posA, hfix.posB, hu0, fun u fl hu huu hfl tol iterMax ht0 hut ht1 hm => ?_⟩
  obtain ⟨o, h1, -, -, -, -, h2, h3⟩ := h u hu huu fl hfl tol iterMax
  obtain ⟨-, h4⟩ := h2 ht0 hut ht1 hm
  have hlt : (o.iteration : ℤ) < iterMax := by
    have : (o.iteration : ℝ) < (iterMax : ℝ) := lt_of_le_of_lt h4 hm
    exact_mod_cast this
  obtain ⟨h6, h7⟩ := h3 hlt
  refine ⟨⟨o.A, o.B, .cplx (.d2 (a * b) (a * b) (kron o.A o.B))⟩, ?_, h6, h7, rfl⟩
  simp only [kronMMFitFl, arraytoreal_check_complex N (a * b) (by omega) hab X, Bind.bind, Except.bind,
    h1, npKron_eq, setCovariance_complex (a * b) hab, pure, Except.pure]

/-! ## The limit of the accuracy -/

/-- Some rounding errors within `u`, in the stored `A` only, keep the calls from ever reaching a
tolerance below `u / 2`: they use up all their iterations and complain. -/
theorem C171_floor (sq : Sqrtm 𝕜) (hsq : SqrtmPD sq) (X : Matrix (Fin N) (Fin (a * b)) 𝕜)
    (hX : KronData fun i => unstack (X i)) (ha : 0 < a) (hb : 0 < b) (u : ℝ) (hu : 0 ≤ u)
    (hu1 : u ≤ 1 / 2) :
    ∃ fl : KronRounding a b 𝕜, fl.Within u ∧ fl.matB = (fun _ M => M) ∧ fl.err = (fun _ d => d) ∧
      ∀ (tol : ℝ) (iterMax : ℤ), tol < u / 2 → 0 ≤ iterMax → ∃ o,
        kroneckerMMFl fl sq X tol iterMax = .ok (some o) ∧ o.A.PosDef ∧ o.B.PosDef ∧
        (o.iteration : ℤ) = iterMax ∧ o.warned = true := by
  have hex : ∀ s : Matrix (Fin a) (Fin a) 𝕜 × Matrix (Fin b) (Fin b) 𝕜,
      ∃ t : Matrix (Fin a) (Fin a) 𝕜 × Matrix (Fin b) (Fin b) 𝕜, s.1.PosDef → s.2.PosDef →
        KronUpdate (fun i => unstack (X i)) s.1 t.1 s.2 t.2 := fun s => by
    by_cases h : s.1.PosDef ∧ s.2.PosDef
    · obtain ⟨A', B', u⟩ := kronUpdate_exists hX ha hb h.1 h.2
      exact ⟨(A', B'), fun _ _ => u⟩
    · exact ⟨s, fun h1 h2 => absurd ⟨h1, h2⟩ h⟩
  choose t ht using hex
  choose v hv hfar using fun s : Matrix (Fin a) (Fin a) 𝕜 × Matrix (Fin b) (Fin b) 𝕜 =>
    exists_far s.1 (t s).1 hu hu1
  have hv1 : ∀ s, 0 < 1 + v s := fun s => by
    rcases hv s with h | h <;> rw [h] <;> linarith
  obtain ⟨S, hS0, hSs⟩ : ∃ S : ℕ → Matrix (Fin a) (Fin a) 𝕜 × Matrix (Fin b) (Fin b) 𝕜,
      S 0 = (1, 1) ∧ ∀ k, S (k + 1) = (((1 + v (S k) : ℝ) : 𝕜) • (t (S k)).1, (t (S k)).2) :=
    ⟨Nat.rec (1, 1) fun _ s => (((1 + v s : ℝ) : 𝕜) • (t s).1, (t s).2), rfl, fun _ => rfl⟩
  have hpd : ∀ k, (S k).1.PosDef ∧ (S k).2.PosDef := by
    intro k
    induction k with
    | zero => rw [hS0]; exact ⟨PosDef.one, PosDef.one⟩
    | succ k ih =>
      have up := ht (S k) ih.1 ih.2
      rw [hSs]
      exact ⟨up.posA.smul (by exact_mod_cast hv1 _), up.posB⟩
  obtain ⟨fl, hfl⟩ : ∃ fl : KronRounding a b 𝕜,
      fl = ⟨fun n M => ((1 + v (S n) : ℝ) : 𝕜) • M, fun _ M => M, fun _ d => d⟩ := ⟨_, rfl⟩
  refine ⟨fl, ⟨fun n M h => ?_, fun n M _ => ?_, fun n M h => ?_, fun n M _ => ?_, fun n d h => ?_,
    fun n d h => ?_⟩, by rw [hfl], by rw [hfl], fun tol iterMax htol hm => ?_⟩
  · rw [hfl]
    exact h.smul (RCLike.conj_ofReal _)
  · rw [hfl, frobDist_eq, frobDist_eq, sub_zero]
    have e : ((1 + v (S n) : ℝ) : 𝕜) • M - M = ((v (S n) : ℝ) : 𝕜) • M := by
      rw [RCLike.ofReal_add, RCLike.ofReal_one, add_smul, one_smul, add_sub_cancel_left]
    show frob (((1 + v (S n) : ℝ) : 𝕜) • M - M) ≤ _
    rw [e, frob_smul]
    refine le_of_eq ?_
    rcases hv (S n) with h | h <;> rw [h]
    · rw [abs_of_nonneg hu]
    · rw [abs_neg, abs_of_nonneg hu]
  · rw [hfl]; exact h
  · rw [hfl, frobDist_eq, frobDist_eq]
    simp only [sub_self]
    rw [(frob_eq_zero _).2 rfl]
    exact mul_nonneg hu (frob_nonneg _)
  · rw [hfl]; exact h
  · rw [hfl]
    simp only [sub_self, abs_zero]
    exact mul_nonneg hu (by linarith)
  · have hrun : IsKronFlRun fl (fun i => unstack (X i)) (fun k => (S k).1) (fun k => (S k).2) :=
      ⟨by simp [hS0], fun k => ⟨_, _, ht (S k) (hpd k).1 (hpd k).2, by simp only [hSs, hfl],
        by simp only [hSs, hfl]⟩⟩
    obtain ⟨m, k1, k2, k3⟩ := kroneckerMMFl_run fl sq hsq hX ha hb hrun (fun k => (hpd k).1)
      (fun k => (hpd k).2) tol iterMax
    have hgt : (kronStored fl (fun k => (S k).1) (fun k => (S k).2) m).gt tol := by
      cases m with
      | zero => trivial
      | succ j =>
        have hp := frob_pos ha (hpd j).1
        have h1 : u / 2 ≤ kronErr (fun k => (S k).1) (fun k => (S k).2) j := by
          refine le_max_of_le_left ?_
          rw [le_div_iff₀ hp]
          simp only [hSs]
          exact hfar (S j)
        have h2 : tol < kronErr (fun k => (S k).1) (fun k => (S k).2) j := by linarith
        rw [hfl]
        exact h2
    have hge := k3 hgt
    have hme : (m : ℤ) = iterMax := by
      rcases Nat.eq_zero_or_pos m with rfl | hpos
      · push_cast at hge ⊢
        omega
      · have := (k2 (m - 1) (by omega)).2
        omega
    exact ⟨_, k1, (hpd m).1, (hpd m).2, hme, by simp [hme]⟩

end

/-- The hypotheses of `C171_stable` are met by the four samples of `C111`, with the identity as fixed
point. -/
example (sq : Sqrtm ℝ) (hsq : SqrtmPD sq) :
    KronStable (fun fl tol iterMax => kroneckerMMFl fl sq pauliData tol iterMax)
      (1 : Matrix (Fin 2) (Fin 2) ℝ) (1 : Matrix (Fin 2) (Fin 2) ℝ) :=
  C171_stable sq hsq pauliData pauli_data.1 (by norm_num) (by norm_num) 1 1 pauli_data.2.1
    fun A' B' h => C111_unique pauliData pauli_data.1 (by norm_num) (by norm_num) pauli_data.2.2 _ _ _ _
      pauli_data.2.1 h

/-- Storing every `A` a little too large and every `B` a little too small is within `u`. -/
example (a b : ℕ) (u : ℝ) (hu : 0 ≤ u) : (⟨fun _ M => ((1 + u : ℝ) : ℂ) • M,
    fun _ M => ((1 - u : ℝ) : ℂ) • M, fun _ d => d⟩ : KronRounding a b ℂ).Within u := by
  have e : ∀ {n : ℕ} (v : ℝ) (M : Matrix (Fin n) (Fin n) ℂ), |v| = u →
      frobDist (((1 + v : ℝ) : ℂ) • M) M ≤ u * frobDist M 0 := fun v M hv => by
    rw [frobDist_eq, frobDist_eq, sub_zero]
    have e1 : ((1 + v : ℝ) : ℂ) • M - M = ((v : ℝ) : ℂ) • M := by
      rw [Complex.ofReal_add, Complex.ofReal_one, add_smul, one_smul, add_sub_cancel_left]
    rw [e1]
    exact le_of_eq (by rw [← hv]; exact frob_smul v M)
  exact ⟨fun n M h => h.smul (Complex.conj_ofReal _), fun n M _ => e u M (abs_of_nonneg hu),
    fun n M h => h.smul (Complex.conj_ofReal _), fun n M _ => e (-u) M (by rw [abs_neg, abs_of_nonneg hu]),
    fun n d h => h, fun n d h => by simp only [sub_self, abs_zero]; exact mul_nonneg hu (by linarith)⟩

end RS
