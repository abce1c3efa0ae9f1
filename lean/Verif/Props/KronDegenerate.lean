import Verif.Lemmas.KronDegenerate
import Verif.Props.Structured
import Mathlib.LinearAlgebra.FiniteDimensional.Basic
import Mathlib.LinearAlgebra.Dimension.Constructions

/-
The Kronecker MM algorithm on degenerate data, C148.
-/
set_option autoImplicit false

namespace RS
open Matrix ComplexOrder

variable {𝕜 : Type} [RCLike 𝕜] {N a b : ℕ}

theorem kronLoop_first (sq : Sqrtm 𝕜) (M : Fin N → Matrix (Fin b) (Fin a) 𝕜) (tol : ℝ)
    (iterMax : ℤ) (hi : 0 < iterMax) (e : PyErr) (h : kronStep sq M 1 1 1 = .error e) :
    kronLoop sq M tol iterMax ⟨1, 1, 1, .inf, 0⟩ = .error e := by
  rw [kronLoop, if_pos ⟨trivial, by simpa using hi⟩]
  simp only [h]

theorem unstack_eq_zero (x : Fin (a * b) → 𝕜) : unstack x = 0 ↔ x = 0 := by
  constructor
  · intro h
    funext k
    have h1 : x (finProdFinEquiv (finProdFinEquiv.symm k)) = 0 :=
      congrFun (congrFun h (finProdFinEquiv.symm k).2) (finProdFinEquiv.symm k).1
    rwa [Equiv.apply_symm_apply] at h1
  · rintro rfl
    ext i j
    simp [unstack]

/-- A zero sample: `ValueError`. -/
theorem C148_zero_sample (sq : Sqrtm 𝕜) (hsq : SqrtmPSD sq) (X : Matrix (Fin N) (Fin (a * b)) 𝕜)
    (tol : ℝ) (iterMax : ℤ) (hi : 0 < iterMax) (h0 : ∃ i, X i = 0) :
    kroneckerMM sq X a b tol iterMax = .error .valueError := by
  obtain ⟨i, hi0⟩ := h0
  rw [kroneckerMM_eq, kronLoop_first sq _ tol iterMax hi _
    (kronStep_zero hsq i ((unstack_eq_zero _).2 hi0))]
  rfl

/-- Samples that, as matrices, all vanish in a direction `v` of the columns (always so when
`n_samples * b < a`): `LinAlgError`. -/
theorem C148_columns (sq : Sqrtm 𝕜) (hsq : SqrtmPSD sq) (X : Matrix (Fin N) (Fin (a * b)) 𝕜)
    (tol : ℝ) (iterMax : ℤ) (hi : 0 < iterMax) (h0 : ∀ i, X i ≠ 0) (v : Fin a → 𝕜) (hv : v ≠ 0)
    (hX : ∀ i, unstack (X i) *ᵥ v = 0) :
    kroneckerMM sq X a b tol iterMax = .error .linAlgError := by
  rw [kroneckerMM_eq, kronLoop_first sq _ tol iterMax hi _
    (kronStep_cols hsq (fun i h => h0 i ((unstack_eq_zero _).1 h)) hv hX)]
  rfl

/-- The first pass when there are enough columns but the samples vanish in a direction `u` of the
rows. -/
theorem kron_first_rows (sq : Sqrtm 𝕜) (hsq : SqrtmPSD sq) (X : Matrix (Fin N) (Fin (a * b)) 𝕜)
    (ha : 0 < a) (h0 : ∀ i, X i ≠ 0) (hc : ∀ v, (∀ i, unstack (X i) *ᵥ v = 0) → v = 0)
    (u : Fin b → 𝕜) (hu : u ≠ 0) (hX : ∀ i, (unstack (X i))ᴴ *ᵥ u = 0) (tol : ℝ) (iterMax : ℤ)
    (hi : 0 < iterMax) :
    ∃ (A : Matrix (Fin a) (Fin a) 𝕜) (B : Matrix (Fin b) (Fin b) 𝕜) (d : ℝ),
      A.PosDef ∧ B *ᵥ u = 0 ∧ 1 / Real.sqrt b ≤ d ∧
      kronLoop sq (fun i => unstack (X i)) tol iterMax ⟨1, 1, 1, .inf, 0⟩ =
        kronLoop sq (fun i => unstack (X i)) tol iterMax ⟨A, A⁻¹, B, .fin d, 1⟩ := by
  obtain ⟨A, B, e, hA, -, hBu⟩ := kronStep_rows hsq
    (fun i h => h0 i ((unstack_eq_zero _).1 h)) hc ha hX
  have hb : 0 < b := by
    rcases Nat.eq_zero_or_pos b with h | h
    · subst h; exact (hu (funext fun i => i.elim0)).elim
    · exact h
  have fa : frob (1 : Matrix (Fin a) (Fin a) 𝕜) ≠ 0 := by
    rw [frob_one]; exact (Real.sqrt_pos.2 (by exact_mod_cast ha)).ne'
  have hsb : 0 < Real.sqrt b := Real.sqrt_pos.2 (by exact_mod_cast hb)
  have fb : frob (1 : Matrix (Fin b) (Fin b) 𝕜) ≠ 0 := by
    rw [frob_one]; exact hsb.ne'
  have hge : 1 / Real.sqrt b ≤ frob (B - 1) / frob (1 : Matrix (Fin b) (Fin b) 𝕜) := by
    rw [frob_one]
    exact div_le_div_of_nonneg_right (frob_sub_one hu hBu) hsb.le
  obtain ⟨d, hd, hmax⟩ : ∃ d : ℝ, 1 / Real.sqrt b ≤ d ∧
      (relErr (.fin A) (.fin (1 : Matrix (Fin a) (Fin a) 𝕜))).pyMax
        (relErr (.fin B) (.fin (1 : Matrix (Fin b) (Fin b) 𝕜))) = .fin d := by
    simp only [relErr, if_neg fa, if_neg fb, Delta.pyMax, Delta.lt]
    split_ifs with h
    · exact ⟨_, hge, rfl⟩
    · exact ⟨_, hge.trans (not_lt.1 h), rfl⟩
  refine ⟨A, B, d, hA, hBu, hd, ?_⟩
  rw [kronLoop, if_pos ⟨trivial, by simpa using hi⟩]
  simp only [e, hmax]

/-- Samples that all vanish in a direction `u` of the rows (always so when `n_samples * a < b`):
`LinAlgError` in the second iteration, if there is one. -/
theorem C148_rows_partial (sq : Sqrtm 𝕜) (hsq : SqrtmPSD sq) (X : Matrix (Fin N) (Fin (a * b)) 𝕜)
    (ha : 0 < a) (tol : ℝ) (ht : tol < 1 / Real.sqrt b) (iterMax : ℤ) (hi : 2 ≤ iterMax)
    (h0 : ∀ i, X i ≠ 0) (u : Fin b → 𝕜) (hu : u ≠ 0) (hX : ∀ i, (unstack (X i))ᴴ *ᵥ u = 0) :
    kroneckerMM sq X a b tol iterMax = .error .linAlgError := by
  by_cases hc : ∀ v : Fin a → 𝕜, (∀ i, unstack (X i) *ᵥ v = 0) → v = 0
  · obtain ⟨A, B, d, -, hBu, hd, e⟩ := kron_first_rows sq hsq X ha h0 hc u hu hX tol iterMax
      (by omega)
    have hB : B.det = 0 := exists_mulVec_eq_zero_iff.1 ⟨u, hu, hBu⟩
    rw [kroneckerMM_eq, e, kronLoop, if_pos ⟨lt_of_lt_of_le ht hd, by push_cast; omega⟩]
    simp only [kronStep, bind, Except.bind, pyInv_singular hB]
    rfl
  · push Not at hc
    obtain ⟨v, h1, h2⟩ := hc
    exact C148_columns sq hsq X tol iterMax (by omega) h0 v h2 h1

/-- With at least two iterations allowed and a tolerance below `1 / sqrt b` the estimation returns
exactly on data without zero samples that are rich enough in rows and columns, and what it returns
is then positive definite; otherwise it raises `ValueError` (a zero sample) or `LinAlgError`. -/
theorem C148_partial (sq : Sqrtm 𝕜) (hsq : SqrtmPSD sq) (X : Matrix (Fin N) (Fin (a * b)) 𝕜)
    (ha : 0 < a) (hb : 0 < b) (tol : ℝ) (ht : tol < 1 / Real.sqrt b) (iterMax : ℤ)
    (hi : 2 ≤ iterMax) :
    ((KronData fun i => unstack (X i)) ↔
      ∃ o, kroneckerMM sq X a b tol iterMax = .ok (some o) ∧ o.A.PosDef ∧ o.B.PosDef) ∧
    (¬ (KronData fun i => unstack (X i)) →
      kroneckerMM sq X a b tol iterMax =
        .error (open Classical in if ∃ i, X i = 0 then .valueError else .linAlgError)) := by
  have hneg : ¬ (KronData fun i => unstack (X i)) → kroneckerMM sq X a b tol iterMax =
      .error (open Classical in if ∃ i, X i = 0 then .valueError else .linAlgError) := by
    intro hd
    by_cases h0 : ∃ i, X i = 0
    · rw [if_pos h0]
      exact C148_zero_sample sq hsq X tol iterMax (by omega) h0
    · rw [if_neg h0]
      push Not at h0
      by_cases hc : ∀ v : Fin a → 𝕜, (∀ i, unstack (X i) *ᵥ v = 0) → v = 0
      · by_cases hr : ∀ u : Fin b → 𝕜, (∀ i, (unstack (X i))ᴴ *ᵥ u = 0) → u = 0
        · exact (hd ⟨fun i h => h0 i ((unstack_eq_zero _).1 h), hc, hr⟩).elim
        · push Not at hr
          obtain ⟨u, h1, h2⟩ := hr
          exact C148_rows_partial sq hsq X ha tol ht iterMax hi h0 u h2 h1
      · push Not at hc
        obtain ⟨v, h1, h2⟩ := hc
        exact C148_columns sq hsq X tol iterMax (by omega) h0 v h2 h1
  refine ⟨⟨fun h => ?_, ?_⟩, hneg⟩
  · obtain ⟨o, A, B, d, h1, h2, h3, -, h5⟩ := C67_run sq hsq.toPD X h ha hb tol iterMax
    have := h5 o.iteration le_rfl
    rw [h2, h3] at this
    exact ⟨o, h1, this⟩
  · rintro ⟨o, ho, -⟩
    by_contra hd
    rw [hneg hd] at ho
    cases ho

/-- `fit` of `KroneckerEllipticalMM` likewise. -/
theorem C148_fit_partial (sq : Sqrtm ℂ) (hsq : SqrtmPSD sq) (P : KronMMParams) (ha : 0 < P.a)
    (hb : 0 < P.b) (ht : P.tol < 1 / Real.sqrt P.b) (hi : 2 ≤ P.iterMax) (hN : 0 < N)
    (X : Matrix (Fin N) (Fin (P.a * P.b)) ℂ) (hX : ¬ KronData fun i => unstack (X i)) :
    kronMMFit sq P (.cplx (.d2 N (P.a * P.b) X)) =
      .error (open Classical in if ∃ i, X i = 0 then .valueError else .linAlgError) := by
  have h := (C148_partial sq hsq X ha hb P.tol ht P.iterMax hi).2 hX
  simp only [kronMMFit, arraytoreal_check_complex N (P.a * P.b) hN (Nat.mul_pos ha hb) X, bind,
    Except.bind, h]

/-- With one iteration allowed, data poor in rows give a covariance matrix that is not invertible
and no exception: all the data sets of `C148_rows_partial` with enough columns. -/
theorem C148_one_iteration (sq : Sqrtm ℂ) (hsq : SqrtmPSD sq) (P : KronMMParams) (ha : 0 < P.a)
    (hi : P.iterMax = 1) (X : Matrix (Fin N) (Fin (P.a * P.b)) ℂ) (h0 : ∀ i, X i ≠ 0)
    (hc : ∀ v, (∀ i, unstack (X i) *ᵥ v = 0) → v = 0) (u : Fin P.b → ℂ) (hu : u ≠ 0)
    (hX : ∀ i, (unstack (X i))ᴴ *ᵥ u = 0) :
    ∃ (f : KronFit P.a P.b) (C : Matrix (Fin (P.a * P.b)) (Fin (P.a * P.b)) ℂ),
      kronMMFit sq P (.cplx (.d2 N (P.a * P.b) X)) = .ok f ∧
      f.covariance = .cplx (.d2 (P.a * P.b) (P.a * P.b) C) ∧ C.det = 0 ∧ f.B.det = 0 := by
  obtain ⟨A, B, d, -, hBu, -, e⟩ := kron_first_rows sq hsq X ha h0 hc u hu hX P.tol P.iterMax
    (by omega)
  have hB : B.det = 0 := exists_mulVec_eq_zero_iff.1 ⟨u, hu, hBu⟩
  have hb : 0 < P.b := by
    rcases Nat.eq_zero_or_pos P.b with h | h
    · refine (hu (funext fun i => ?_)).elim
      exact absurd i.2 (by omega)
    · exact h
  have hN : 0 < N := by
    rcases Nat.eq_zero_or_pos N with h | h
    · have := congrFun (hc (fun _ => 1) fun i => absurd i.2 (by omega)) ⟨0, ha⟩
      simp at this
    · exact h
  have hab := Nat.mul_pos ha hb
  have hk : kroneckerMM sq X P.a P.b P.tol P.iterMax =
      .ok (some ⟨A, B, P.tol, 1, true⟩) := by
    rw [kroneckerMM_eq, e, kronLoop, if_neg (by simp [hi])]
    simp [Except.map, hi]
  refine ⟨⟨A, B, .cplx (.d2 (P.a * P.b) (P.a * P.b) (kron A B))⟩, kron A B, ?_, rfl, ?_, hB⟩
  · simp only [kronMMFit, arraytoreal_check_complex N (P.a * P.b) hN hab X, bind, Except.bind, hk,
      npKron_eq, setCovariance_complex (P.a * P.b) hab, pure, Except.pure]
  · rw [det_kron, hB, zero_pow ha.ne', mul_zero]

/-- Fewer equations than unknowns. -/
theorem common_kernel {m n : ℕ} (C : Fin N → Matrix (Fin m) (Fin n) 𝕜) (h : N * m < n) :
    ∃ v : Fin n → 𝕜, v ≠ 0 ∧ ∀ i, C i *ᵥ v = 0 := by
  let f : (Fin n → 𝕜) →ₗ[𝕜] (Fin N → Fin m → 𝕜) := LinearMap.pi fun i => (C i).mulVecLin
  have hf : LinearMap.ker f ≠ ⊥ := by
    apply LinearMap.ker_ne_bot_of_finrank_lt
    rw [Module.finrank_pi_fintype]
    simpa using h
  obtain ⟨v, hv, hv0⟩ := (Submodule.ne_bot_iff _).1 hf
  exact ⟨v, hv0, fun i => congrFun (LinearMap.mem_ker.1 hv) i⟩

/-- Too few samples for one of the two factors, `n_samples * b < a` or `n_samples * a < b`: the
estimation raises `LinAlgError`. -/
theorem C148_few_samples_partial (sq : Sqrtm 𝕜) (hsq : SqrtmPSD sq)
    (X : Matrix (Fin N) (Fin (a * b)) 𝕜) (ha : 0 < a) (tol : ℝ) (ht : tol < 1 / Real.sqrt b)
    (iterMax : ℤ) (hi : 2 ≤ iterMax) (h0 : ∀ i, X i ≠ 0) (hN : N * b < a ∨ N * a < b) :
    kroneckerMM sq X a b tol iterMax = .error .linAlgError := by
  rcases hN with hN | hN
  · obtain ⟨v, hv, h⟩ := common_kernel (fun i => (unstack (X i) : Matrix (Fin b) (Fin a) 𝕜)) hN
    exact C148_columns sq hsq X tol iterMax (by omega) h0 v hv h
  · obtain ⟨u, hu, h⟩ := common_kernel (fun i => (unstack (X i) : Matrix (Fin b) (Fin a) 𝕜)ᴴ) hN
    exact C148_rows_partial sq hsq X ha tol ht iterMax hi h0 u hu h

/-- The contract on `sqrtm` can be met. -/
theorem exists_sqrtmPSD : ∃ sq : Sqrtm 𝕜, SqrtmPSD sq := by
  classical
  have key : ∀ {n : ℕ} {S : Matrix (Fin n) (Fin n) 𝕜}, S.PosSemidef →
      ∃ R : Matrix (Fin n) (Fin n) 𝕜, R.PosSemidef ∧ R * R = S := fun hS => by
    obtain ⟨e, he⟩ := eigh_exists (ι := Fin _) (𝕜 := 𝕜)
    exact ⟨sqrtm e _, C08_sqrtm_posSemidef e he _ hS, C08_sqrtm_mul_self e he _ hS⟩
  refine ⟨fun n S => if h : S.PosSemidef then .ok (key h).choose else .error .valueError,
    fun n S hS => ⟨(key hS).choose, ?_, (key hS).choose_spec⟩⟩
  simp only [dif_pos hS]

/-- One sample `(1, 0)` with `a = 1`, `b = 2` and one iteration: `fit` stores a singular
covariance. -/
theorem C148_violated (sq : Sqrtm ℂ) (hsq : SqrtmPSD sq) (tol : ℝ) :
    ∃ (f : KronFit 1 2) (C : Matrix (Fin (1 * 2)) (Fin (1 * 2)) ℂ),
      kronMMFit sq ⟨1, 2, tol, 1⟩ (.cplx (.d2 1 (1 * 2) fun _ j => if j.1 = 0 then 1 else 0)) =
        .ok f ∧ f.covariance = .cplx (.d2 (1 * 2) (1 * 2) C) ∧ C.det = 0 := by
  have k1 : ∀ i : Fin 1, (fun (_ : Fin 1) (j : Fin (1 * 2)) => if j.1 = 0 then (1 : ℂ) else 0) i ≠
      0 := by
    intro i h
    have := congrFun h ⟨0, by norm_num⟩
    simp at this
  have k2 : ∀ v : Fin 1 → ℂ, (∀ i : Fin 1, (unstack ((fun (_ : Fin 1) (j : Fin (1 * 2)) =>
      if j.1 = 0 then (1 : ℂ) else 0) i) : Matrix (Fin 2) (Fin 1) ℂ) *ᵥ v = 0) → v = 0 := by
    intro v hv
    have := congrFun (hv 0) 0
    funext i
    rw [Subsingleton.elim i 0]
    simpa [unstack, mulVec, dotProduct, finProdFinEquiv] using this
  have k3 : (![0, 1] : Fin 2 → ℂ) ≠ 0 := by
    intro h
    have := congrFun h 1
    simp at this
  have k4 : ∀ i : Fin 1, (unstack ((fun (_ : Fin 1) (j : Fin (1 * 2)) =>
      if j.1 = 0 then (1 : ℂ) else 0) i) : Matrix (Fin 2) (Fin 1) ℂ)ᴴ *ᵥ ![0, 1] = 0 := by
    intro i
    funext j
    rw [Subsingleton.elim j 0]
    simp [unstack, mulVec, dotProduct, finProdFinEquiv]
  obtain ⟨f, C, h1, h2, h3, -⟩ := C148_one_iteration sq hsq ⟨1, 2, tol, 1⟩ Nat.one_pos rfl _ k1 k2
    _ k3 k4
  exact ⟨f, C, h1, h2, h3⟩

/-- One nonzero sample, `a = 2`, `b = 5`, the default parameters. -/
example : ∃ (sq : Sqrtm ℝ) (X : Matrix (Fin 1) (Fin (2 * 5)) ℝ),
    SqrtmPSD sq ∧ kroneckerMM sq X 2 5 (1 / 1000) 30 = .error .linAlgError := by
  obtain ⟨sq, hsq⟩ := exists_sqrtmPSD (𝕜 := ℝ)
  refine ⟨sq, fun _ _ => 1, hsq, C148_few_samples_partial sq hsq _ (by norm_num) _ ?_ _
    (by norm_num) (fun i h => ?_) (Or.inr (by norm_num))⟩
  · rw [lt_div_iff₀ (Real.sqrt_pos.2 (by norm_num)), ← lt_div_iff₀' (by norm_num)]
    rw [Real.sqrt_lt' (by norm_num)]
    norm_num
  · have := congrFun h 0
    simp at this

end RS
