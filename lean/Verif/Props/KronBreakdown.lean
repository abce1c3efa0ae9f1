import Verif.Lemmas.KronBreakdown
import Verif.Props.KronExist

/-
Number of wrong samples that the Kronecker MM algorithm withstands (C173).
-/
set_option autoImplicit false

namespace RS
open Matrix ComplexOrder

section
variable {𝕜 : Type} [RCLike 𝕜] {N a b : ℕ}

/-- Samples in general position, `m` of which are replaced by any nonzero vectors, with
`m max(a, b) + a b < N`: the algorithm still converges, and the condition numbers of the two matrices
that it tends to are bounded by a number that does not depend on the replacements. -/
theorem C173_withstands (sq : Sqrtm 𝕜) (hsq : SqrtmPD sq) (X : Matrix (Fin N) (Fin (a * b)) 𝕜)
    (ha : 0 < a) (hb : 0 < b) (hX : GeneralPosition X) (m : ℕ) (hm : m * max a b + a * b < N) :
    ∃ κ : ℝ, 0 < κ ∧ ∀ X', Contaminated m X X' → NonzeroSamples X' →
      ∃ (A : Matrix (Fin a) (Fin a) 𝕜) (B : Matrix (Fin b) (Fin b) 𝕜),
        (∃ s : ℝ, 0 < s ∧ EigenGe s A ∧ EigenLe (κ * s) A) ∧
        (∃ s : ℝ, 0 < s ∧ EigenGe s B ∧ EigenLe (κ * s) B) ∧
        (∀ ε : ℝ, 0 < ε → ∃ (tol₀ : ℝ) (K : ℕ), 0 < tol₀ ∧
          ∀ (tol : ℝ) (iterMax : ℤ), tol ≤ tol₀ → K ≤ iterMax → ∃ o,
            kroneckerMM sq X' a b tol iterMax = .ok (some o) ∧
            frobDist o.A A < ε ∧ frobDist o.B B < ε) ∧
        ∀ tol : ℝ, 0 < tol → ∃ K : ℕ, ∀ iterMax : ℤ, K < iterMax → ∃ o,
          kroneckerMM sq X' a b tol iterMax = .ok (some o) ∧ o.warned = false ∧ o.iteration ≤ K := by
  obtain ⟨κ, hκ, h⟩ := kron_bounded ha hb hX hm
  refine ⟨κ, hκ, fun X' hX' hn => ?_⟩
  obtain ⟨hS, hc⟩ := h X' hX' hn
  have h0 : ∀ i, X' i ≠ 0 := fun i h => hn i (by ext j; simp [sample, h])
  obtain ⟨A, B, hfix, h1, h2⟩ := C145_converges sq hsq X' (by omega) ha hb h0 hS
  exact ⟨A, B, (hc A B hfix).1, (hc A B hfix).2, h1, h2⟩

/-- The same for `fit` of `KroneckerEllipticalMM` on complex data. -/
theorem C173_fit (sq : Sqrtm ℂ) (hsq : SqrtmPD sq) (X : Matrix (Fin N) (Fin (a * b)) ℂ)
    (ha : 0 < a) (hb : 0 < b) (hX : GeneralPosition X) (m : ℕ) (hm : m * max a b + a * b < N) :
    ∃ κ : ℝ, 0 < κ ∧ ∀ X', Contaminated m X X' → NonzeroSamples X' →
      ∃ (A : Matrix (Fin a) (Fin a) ℂ) (B : Matrix (Fin b) (Fin b) ℂ),
        (∃ s : ℝ, 0 < s ∧ EigenGe s A ∧ EigenLe (κ * s) A) ∧
        (∃ s : ℝ, 0 < s ∧ EigenGe s B ∧ EigenLe (κ * s) B) ∧
        ∀ ε : ℝ, 0 < ε → ∃ (tol₀ : ℝ) (K : ℕ), 0 < tol₀ ∧
          ∀ (tol : ℝ) (iterMax : ℤ), tol ≤ tol₀ → K ≤ iterMax → ∃ f,
            kronMMFit sq ⟨a, b, tol, iterMax⟩ (.cplx (.d2 N (a * b) X')) = .ok f ∧
            frobDist f.A A < ε ∧ frobDist f.B B < ε ∧
            f.covariance = .cplx (.d2 (a * b) (a * b) (kron f.A f.B)) := by
  obtain ⟨κ, hκ, h⟩ := kron_bounded ha hb hX hm
  refine ⟨κ, hκ, fun X' hX' hn => ?_⟩
  obtain ⟨hS, hc⟩ := h X' hX' hn
  have h0 : ∀ i, X' i ≠ 0 := fun i h => hn i (by ext j; simp [sample, h])
  have hD := kronSpread_data (by omega) ha hb (fun i => unstack_ne_zero (h0 i)) hS
  obtain ⟨A, B, hfix, huniq⟩ := kronSpread_exists X' (by omega) ha hb h0 hS
  obtain ⟨s, t, hs, ht, h1⟩ := C111_fit sq hsq X' hD ha hb A B hfix huniq
  have h2 := hc _ _ (kronFixed_smul hfix hs ht)
  exact ⟨_, _, h2.1, h2.2, h1⟩

/-- If `N < m max(a, b)` samples are made equal to one unit vector there is no stationary pair, whatever
the other samples are; if `N = m max(a, b)` there is none or it is not unique up to scale. -/
theorem C173_breaks (X : Matrix (Fin N) (Fin (a * b)) 𝕜) (hN : 0 < N) (ha : 0 < a) (hb : 0 < b)
    (hab : 1 < a * b) (J : Finset (Fin N)) (hJ : N ≤ J.card * max a b) (j : Fin (a * b))
    (h0 : ∀ i, i ∉ J → X i ≠ 0) (X' : Matrix (Fin N) (Fin (a * b)) 𝕜)
    (hX' : ∀ i, X' i = if i ∈ J then Pi.single j 1 else X i) :
    (N < J.card * max a b → ∀ A B, ¬ KronFixed (fun i => (unstack (X' i) : Matrix (Fin b) (Fin a) 𝕜)) A B) ∧
    ¬ ∃ (A : Matrix (Fin a) (Fin a) 𝕜) (B : Matrix (Fin b) (Fin b) 𝕜),
      KronFixed (fun i => unstack (X' i)) A B ∧
      ∀ A' B', KronFixed (fun i => unstack (X' i)) A' B' →
        ∃ s t : ℝ, A' = (s : 𝕜) • A ∧ B' = (t : 𝕜) • B := by
  constructor
  · intro hlt A B hfix
    obtain ⟨⟨c, r⟩, hcr⟩ := finProdFinEquiv.surjective j
    have h := kronFixed_count hN hfix (J := J) (r := r) (c := c) fun i hi => by
      ext r' c'
      rw [hX' i, if_pos hi, ← hcr]
      simp only [unstack, of_apply, Matrix.single, Pi.single_apply, finProdFinEquiv.injective.eq_iff,
        Prod.mk.injEq]
      simp only [eq_comm, and_comm]
    rcases le_total a b with hle | hle
    · rw [max_eq_right hle] at hlt
      exact absurd h.2 (not_le.2 hlt)
    · rw [max_eq_left hle] at hlt
      exact absurd h.1 (not_le.2 hlt)
  · rw [C145_iff X' hN ha hb fun i => ?_]
    · exact kron_breaks hN ha hb hab hJ (j := j) fun i hi => by rw [hX' i, if_pos hi]
    · rw [hX' i]
      split_ifs with hi
      · intro e
        have := congrFun e j
        simp at this
      · exact h0 i hi

/-- Together: the share of wrong samples that the algorithm withstands is `1 / max(a, b)` as `N` grows,
where Tyler's estimator in the same dimension withstands `1 / (a b)` (C128). -/
theorem C173_share (X : Matrix (Fin N) (Fin (a * b)) 𝕜) (ha : 0 < a) (hb : 0 < b) (hab : 1 < a * b)
    (hN : a * b < N) (hX : GeneralPosition X) (m : ℕ) (hmN : m ≤ N) :
    (m * max a b + a * b < N → ∃ κ : ℝ, 0 < κ ∧ ∀ X', Contaminated m X X' → NonzeroSamples X' →
      ∃ (A : Matrix (Fin a) (Fin a) 𝕜) (B : Matrix (Fin b) (Fin b) 𝕜),
        KronFixed (fun i => unstack (X' i)) A B ∧
        (∀ A' B', KronFixed (fun i => unstack (X' i)) A' B' →
          ∃ s t : ℝ, A' = (s : 𝕜) • A ∧ B' = (t : 𝕜) • B) ∧
        (∃ s : ℝ, 0 < s ∧ EigenGe s A ∧ EigenLe (κ * s) A) ∧
        (∃ s : ℝ, 0 < s ∧ EigenGe s B ∧ EigenLe (κ * s) B)) ∧
    (N ≤ m * max a b → ∃ X', Contaminated m X X' ∧ NonzeroSamples X' ∧
      ¬ ∃ (A : Matrix (Fin a) (Fin a) 𝕜) (B : Matrix (Fin b) (Fin b) 𝕜),
        KronFixed (fun i => unstack (X' i)) A B ∧
        ∀ A' B', KronFixed (fun i => unstack (X' i)) A' B' →
          ∃ s t : ℝ, A' = (s : 𝕜) • A ∧ B' = (t : 𝕜) • B) := by
  classical
  constructor
  · intro hm
    obtain ⟨κ, hκ, h⟩ := kron_bounded ha hb hX hm
    refine ⟨κ, hκ, fun X' hX' hn => ?_⟩
    obtain ⟨hS, hc⟩ := h X' hX' hn
    have h0 : ∀ i, X' i ≠ 0 := fun i h => hn i (by ext j; simp [sample, h])
    obtain ⟨A, B, hfix, huniq⟩ := kronSpread_exists X' (by omega) ha hb h0 hS
    exact ⟨A, B, hfix, huniq, hc A B hfix⟩
  · intro hm
    obtain ⟨J, -, hJ⟩ := Finset.exists_subset_card_eq (s := (Finset.univ : Finset (Fin N)))
      (n := m) (by simpa using hmN)
    have hn0 := generalPosition_nonzero hX (Nat.mul_pos ha hb)
    have h0 : ∀ i, X i ≠ 0 := fun i h => hn0 i (by ext j; simp [sample, h])
    have hne : ∀ i, (if i ∈ J then Pi.single (⟨0, by omega⟩ : Fin (a * b)) (1 : 𝕜) else X i) ≠ 0 := fun i => by
      split_ifs with hi
      · intro e
        have := congrFun e (⟨0, by omega⟩ : Fin (a * b))
        simp at this
      · exact h0 i
    refine ⟨of fun i => if i ∈ J then Pi.single (⟨0, by omega⟩ : Fin (a * b)) (1 : 𝕜) else X i,
      ⟨J, hJ.le, fun i hi => ?_⟩, fun i e => ?_,
      (C173_breaks X (by omega) ha hb hab J (by rw [hJ]; exact hm) ⟨0, by omega⟩ (fun i _ => h0 i) _
        fun i => rfl).2⟩
    · ext j
      simp [sample, hi]
    · exact hne i (by
        funext j
        have := congrFun e j
        simpa [sample] using this)

/-- The hypotheses of `C173_withstands` can be met: 17 samples of length 6 = 2 · 3, of which 3 are
replaced. -/
example : GeneralPosition (powerData ℂ 17 (2 * 3)) ∧ 3 * max 2 3 + 2 * 3 < 17 :=
  ⟨powerData_generalPosition ℂ _ _, by norm_num⟩

end
end RS
