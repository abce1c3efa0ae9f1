import Verif.Lemmas.KronConverge
import Verif.Props.Structured
import Verif.Props.Converge

/-
Convergence of the Kronecker MM algorithm (C111).
-/
set_option autoImplicit false

namespace RS
open Matrix ComplexOrder Filter Topology

section
variable {𝕜 : Type} [RCLike 𝕜] {N a b : ℕ}

theorem kroneckerMM_warned {sq : Sqrtm 𝕜} {X : Matrix (Fin N) (Fin (a * b)) 𝕜} {tol : ℝ}
    {iterMax : ℤ} {o : KronOut a b 𝕜} (h : kroneckerMM sq X a b tol iterMax = .ok (some o)) :
    o.warned = ((o.iteration : ℤ) == iterMax) := by
  rw [kroneckerMM_eq] at h
  cases hk : kronLoop sq (fun i => unstack (X i)) tol iterMax ⟨1, 1, 1, .inf, 0⟩ with
  | error e => rw [hk] at h; exact absurd h (by simp [Except.map])
  | ok s =>
    rw [hk] at h
    simp only [Except.map, Except.ok.injEq, Option.some.injEq] at h
    subst h
    rfl

/-- Real or complex data. If `(A, B)` solves the fixed-point equations and every solution is
`(s A, t B)`, the two estimates come arbitrarily close to `s A` and `t B`, for scales `s`, `t` that
depend on the data only, once enough iterations are done, whatever the stopping rule. -/
theorem C111_converges (sq : Sqrtm 𝕜) (hsq : SqrtmPD sq) (X : Matrix (Fin N) (Fin (a * b)) 𝕜)
    (hX : KronData fun i => unstack (X i)) (ha : 0 < a) (hb : 0 < b)
    (A : Matrix (Fin a) (Fin a) 𝕜) (B : Matrix (Fin b) (Fin b) 𝕜)
    (hfix : KronFixed (fun i => unstack (X i)) A B)
    (huniq : ∀ A' B', KronFixed (fun i => unstack (X i)) A' B' →
      ∃ s t : ℝ, A' = (s : 𝕜) • A ∧ B' = (t : 𝕜) • B) :
    ∃ s t : ℝ, 0 < s ∧ 0 < t ∧ ∀ ε : ℝ, 0 < ε → ∃ K : ℕ, ∀ (tol : ℝ) (iterMax : ℤ), ∃ o,
      kroneckerMM sq X a b tol iterMax = .ok (some o) ∧
      (K ≤ o.iteration → frobDist o.A ((s : 𝕜) • A) < ε ∧ frobDist o.B ((t : 𝕜) • B) < ε) := by
  obtain ⟨P, Q, hP0, hQ0, hstep⟩ := kronSeq_exists hX ha hb
  obtain ⟨s, t, hs, ht, tP, tQ⟩ := kron_tendsto X hX ha hb hfix.posA hfix.posB hfix.eqA hfix.eqB
    (fun A' B' h1 h2 h3 h4 => huniq A' B' ⟨h1, h2, h3, h4⟩) (hP0 ▸ PosDef.one) (hQ0 ▸ PosDef.one)
    hstep
  refine ⟨s, t, hs, ht, fun ε hε => ?_⟩
  obtain ⟨K, hK⟩ := eventually_atTop.1 (((frob_of_tendsto tP).eventually (gt_mem_nhds hε)).and
    ((frob_of_tendsto tQ).eventually (gt_mem_nhds hε)))
  refine ⟨K, fun tol iterMax => ?_⟩
  obtain ⟨o, A1, B1, d, h1, h2, h3, h4, -⟩ := C67_run sq hsq X hX ha hb tol iterMax
  refine ⟨o, h1, fun hk => ?_⟩
  obtain ⟨e1, e2⟩ := h4.iterates hP0 hQ0 hstep _ le_rfl
  rw [← h2, ← h3, e1, e2, frobDist_eq, frobDist_eq]
  exact hK _ hk

/-- With a positive tolerance the loop stops by itself, without the non-convergence warning, as soon
as `iter_max` is large enough. -/
theorem C111_stops (sq : Sqrtm 𝕜) (hsq : SqrtmPD sq) (X : Matrix (Fin N) (Fin (a * b)) 𝕜)
    (hX : KronData fun i => unstack (X i)) (ha : 0 < a) (hb : 0 < b)
    (A : Matrix (Fin a) (Fin a) 𝕜) (B : Matrix (Fin b) (Fin b) 𝕜)
    (hfix : KronFixed (fun i => unstack (X i)) A B)
    (huniq : ∀ A' B', KronFixed (fun i => unstack (X i)) A' B' →
      ∃ s t : ℝ, A' = (s : 𝕜) • A ∧ B' = (t : 𝕜) • B) (tol : ℝ) (htol : 0 < tol) :
    ∃ K : ℕ, ∀ iterMax : ℤ, K < iterMax → ∃ o, kroneckerMM sq X a b tol iterMax = .ok (some o) ∧
      o.warned = false ∧ o.iteration ≤ K := by
  obtain ⟨P, Q, hP0, hQ0, hstep⟩ := kronSeq_exists hX ha hb
  obtain ⟨s, t, hs, ht, tP, tQ⟩ := kron_tendsto X hX ha hb hfix.posA hfix.posB hfix.eqA hfix.eqB
    (fun A' B' h1 h2 h3 h4 => huniq A' B' ⟨h1, h2, h3, h4⟩) (hP0 ▸ PosDef.one) (hQ0 ▸ PosDef.one)
    hstep
  have eA := rel_tendsto (frob_pos ha (hfix.posA.smul (by exact_mod_cast hs))) tP
  have eB := rel_tendsto (frob_pos hb (hfix.posB.smul (by exact_mod_cast ht))) tQ
  obtain ⟨K, hK⟩ := eventually_atTop.1 ((eA.eventually (gt_mem_nhds htol)).and
    (eB.eventually (gt_mem_nhds htol)))
  refine ⟨K + 1, fun iterMax hm => ?_⟩
  obtain ⟨o, A1, B1, d, h1, h2, h3, h4, -⟩ := C67_run sq hsq X hX ha hb tol iterMax
  have hle : o.iteration ≤ K + 1 := by
    by_contra hcon
    push Not at hcon
    have h5 := h4.continued (K + 1) hcon
    rw [h4.error ha hb hP0 hQ0 hstep K (by omega)] at h5
    exact absurd h5 (not_lt.2 (max_lt (hK K le_rfl).1 (hK K le_rfl).2).le)
  refine ⟨o, h1, ?_, hle⟩
  rw [kroneckerMM_warned h1, beq_eq_false_iff_ne]
  push_cast at hm
  omega

/-- A small tolerance gives a small error: for every `ε` there are a tolerance and a number of
iterations such that every call with at most that tolerance and at least that `iter_max` is within
`ε` of the limit. -/
theorem C111_tolerance (sq : Sqrtm 𝕜) (hsq : SqrtmPD sq) (X : Matrix (Fin N) (Fin (a * b)) 𝕜)
    (hX : KronData fun i => unstack (X i)) (ha : 0 < a) (hb : 0 < b)
    (A : Matrix (Fin a) (Fin a) 𝕜) (B : Matrix (Fin b) (Fin b) 𝕜)
    (hfix : KronFixed (fun i => unstack (X i)) A B)
    (huniq : ∀ A' B', KronFixed (fun i => unstack (X i)) A' B' →
      ∃ s t : ℝ, A' = (s : 𝕜) • A ∧ B' = (t : 𝕜) • B) :
    ∃ s t : ℝ, 0 < s ∧ 0 < t ∧ ∀ ε : ℝ, 0 < ε → ∃ (tol₀ : ℝ) (K : ℕ), 0 < tol₀ ∧
      ∀ (tol : ℝ) (iterMax : ℤ), tol ≤ tol₀ → K ≤ iterMax → ∃ o,
        kroneckerMM sq X a b tol iterMax = .ok (some o) ∧
        frobDist o.A ((s : 𝕜) • A) < ε ∧ frobDist o.B ((t : 𝕜) • B) < ε := by
  obtain ⟨P, Q, hP0, hQ0, hstep⟩ := kronSeq_exists hX ha hb
  obtain ⟨s, t, hs, ht, tP, tQ⟩ := kron_tendsto X hX ha hb hfix.posA hfix.posB hfix.eqA hfix.eqB
    (fun A' B' h1 h2 h3 h4 => huniq A' B' ⟨h1, h2, h3, h4⟩) (hP0 ▸ PosDef.one) (hQ0 ▸ PosDef.one)
    hstep
  refine ⟨s, t, hs, ht, fun ε hε => ?_⟩
  obtain ⟨K, hK⟩ := eventually_atTop.1 (((frob_of_tendsto tP).eventually (gt_mem_nhds hε)).and
    ((frob_of_tendsto tQ).eventually (gt_mem_nhds hε)))
  obtain ⟨δ, hδ, hδK⟩ := exists_small_gap (kronErr P Q) K
  refine ⟨δ, K, hδ, fun tol iterMax htol hm => ?_⟩
  obtain ⟨o, A1, B1, d, h1, h2, h3, h4, -⟩ := C67_run sq hsq X hX ha hb tol iterMax
  refine ⟨o, h1, ?_⟩
  obtain ⟨e1, e2⟩ := h4.iterates hP0 hQ0 hstep _ le_rfl
  rw [← h2, ← h3, e1, e2, frobDist_eq, frobDist_eq]
  rcases le_or_gt K o.iteration with hk | hk
  · exact hK _ hk
  · have h5 := h4.stopped (by omega)
    cases hit : o.iteration with
    | zero => rw [hit, h4.start.2.2] at h5; exact absurd trivial h5
    | succ k =>
      rw [hit, h4.error ha hb hP0 hQ0 hstep k (by omega)] at h5
      have h6 : kronErr P Q k = 0 := le_antisymm (hδK k (by omega) ((not_lt.1 h5).trans htol))
        (le_max_of_le_left (div_nonneg (frob_nonneg _) (frob_nonneg _)))
      have hP : ∀ k, (P k).PosDef := fun k => by
        cases k; exacts [hP0 ▸ PosDef.one, (hstep _).posA]
      have hQ : ∀ k, (Q k).PosDef := fun k => by
        cases k; exacts [hQ0 ▸ PosDef.one, (hstep _).posB]
      obtain ⟨z1, z2⟩ := kronErr_zero (frob_pos ha (hP k)) (frob_pos hb (hQ k)) h6
      have h7 := kronSeq_const hstep z1 z2
      have h8 := hK (max K (k + 1)) (le_max_left _ _)
      rw [(h7 _ ((Nat.le_succ k).trans (le_max_right _ _))).1,
        (h7 _ ((Nat.le_succ k).trans (le_max_right _ _))).2] at h8
      rw [z1, z2]
      exact h8

/-- The same for `fit` of `KroneckerEllipticalMM` on complex data: the attributes `A_` and `B_`, and
with them `covariance_`, their Kronecker product. -/
theorem C111_fit (sq : Sqrtm ℂ) (hsq : SqrtmPD sq) (X : Matrix (Fin N) (Fin (a * b)) ℂ)
    (hX : KronData fun i => unstack (X i)) (ha : 0 < a) (hb : 0 < b)
    (A : Matrix (Fin a) (Fin a) ℂ) (B : Matrix (Fin b) (Fin b) ℂ)
    (hfix : KronFixed (fun i => unstack (X i)) A B)
    (huniq : ∀ A' B', KronFixed (fun i => unstack (X i)) A' B' →
      ∃ s t : ℝ, A' = (s : ℂ) • A ∧ B' = (t : ℂ) • B) :
    ∃ s t : ℝ, 0 < s ∧ 0 < t ∧ ∀ ε : ℝ, 0 < ε → ∃ (tol₀ : ℝ) (K : ℕ), 0 < tol₀ ∧
      ∀ (tol : ℝ) (iterMax : ℤ), tol ≤ tol₀ → K ≤ iterMax → ∃ f,
        kronMMFit sq ⟨a, b, tol, iterMax⟩ (.cplx (.d2 N (a * b) X)) = .ok f ∧
        frobDist f.A ((s : ℂ) • A) < ε ∧ frobDist f.B ((t : ℂ) • B) < ε ∧
        f.covariance = .cplx (.d2 (a * b) (a * b) (kron f.A f.B)) := by
  obtain ⟨s, t, hs, ht, h⟩ := C111_tolerance sq hsq X hX ha hb A B hfix huniq
  refine ⟨s, t, hs, ht, fun ε hε => ?_⟩
  obtain ⟨tol₀, K, h0, h1⟩ := h ε hε
  refine ⟨tol₀, K, h0, fun tol iterMax htol hm => ?_⟩
  obtain ⟨o, h2, h3, h4⟩ := h1 tol iterMax htol hm
  have hab : 0 < a * b := Nat.mul_pos ha hb
  have hN : 0 < N := kronData_pos hX ha
  refine ⟨⟨o.A, o.B, .cplx (.d2 (a * b) (a * b) (kron o.A o.B))⟩, ?_, h3, h4, rfl⟩
  simp only [kronMMFit, arraytoreal_check_complex N (a * b) hN hab X, Bind.bind, Except.bind, h2,
    npKron_eq, setCovariance_complex (a * b) hab, pure, Except.pure]

/-- Conversely, positive definite matrices that the estimates approach as the number of iterations
grows solve the fixed-point equations. -/
theorem C111_limit (sq : Sqrtm 𝕜) (hsq : SqrtmPD sq) (X : Matrix (Fin N) (Fin (a * b)) 𝕜)
    (hX : KronData fun i => unstack (X i)) (ha : 0 < a) (hb : 0 < b)
    (A : Matrix (Fin a) (Fin a) 𝕜) (B : Matrix (Fin b) (Fin b) 𝕜) (hA : A.PosDef) (hB : B.PosDef)
    (hlim : ∀ ε : ℝ, 0 < ε → ∃ K : ℕ, ∀ (tol : ℝ) (iterMax : ℤ) (o : KronOut a b 𝕜),
      kroneckerMM sq X a b tol iterMax = .ok (some o) → K ≤ o.iteration →
      frobDist o.A A < ε ∧ frobDist o.B B < ε) :
    KronFixed (fun i => unstack (X i)) A B := by
  obtain ⟨P, Q, hP0, hQ0, hstep⟩ := kronSeq_exists hX ha hb
  have hrun : ∀ k : ℕ, ∃ o, kroneckerMM sq X a b (-1) k = .ok (some o) ∧ o.iteration = k ∧
      o.A = P k ∧ o.B = Q k := fun k => by
    obtain ⟨o, A1, B1, d, h1, h2, h3, h4, -⟩ := C67_run sq hsq X hX ha hb (-1) k
    have hk : o.iteration = k := by
      have h5 := h4.bound
      rcases lt_or_ge o.iteration k with hlt | hge
      · have h6 := h4.stopped (by exact_mod_cast hlt)
        cases hit : o.iteration with
        | zero => rw [hit, h4.start.2.2] at h6; exact absurd trivial h6
        | succ j =>
          rw [hit, h4.error ha hb hP0 hQ0 hstep j (by omega)] at h6
          refine absurd ?_ h6
          have : 0 ≤ kronErr P Q j := le_max_of_le_left (div_nonneg (frob_nonneg _) (frob_nonneg _))
          exact lt_of_lt_of_le (by norm_num) this
      · omega
    obtain ⟨e1, e2⟩ := h4.iterates hP0 hQ0 hstep _ le_rfl
    exact ⟨o, h1, hk, by rw [← h2, e1, hk], by rw [← h3, e2, hk]⟩
  have hev : ∀ ε : ℝ, 0 < ε → ∀ᶠ k in atTop, frob (P k - A) < ε ∧ frob (Q k - B) < ε :=
    fun ε hε => by
    obtain ⟨K, hK⟩ := hlim ε hε
    refine eventually_atTop.2 ⟨K, fun k hk => ?_⟩
    obtain ⟨o, h1, h2, h3, h4⟩ := hrun k
    have := hK (-1) k o h1 (by rw [h2]; exact hk)
    rw [h3, h4] at this
    exact this
  have tP : Tendsto P atTop (𝓝 A) := tendsto_of_frob (by
    refine Metric.tendsto_atTop.2 fun ε hε => ?_
    obtain ⟨K, hK⟩ := eventually_atTop.1 (hev ε hε)
    exact ⟨K, fun k hk => by
      rw [Real.dist_eq, sub_zero, abs_of_nonneg (frob_nonneg _)]; exact (hK k hk).1⟩)
  have tQ : Tendsto Q atTop (𝓝 B) := tendsto_of_frob (by
    refine Metric.tendsto_atTop.2 fun ε hε => ?_
    obtain ⟨K, hK⟩ := eventually_atTop.1 (hev ε hε)
    exact ⟨K, fun k hk => by
      rw [Real.dist_eq, sub_zero, abs_of_nonneg (frob_nonneg _)]; exact (hK k hk).2⟩)
  obtain ⟨e1, e2⟩ := kron_limit_fixed hX.nonzero hstep tP tQ hA hB
  exact ⟨hA, hB, e1, e2⟩

/-- When the samples have no common two-sided symmetry, the solution of the fixed-point equations is
unique up to the two scales. -/
theorem C111_unique (X : Matrix (Fin N) (Fin (a * b)) 𝕜)
    (hX : KronData fun i => (unstack (X i) : Matrix (Fin b) (Fin a) 𝕜)) (ha : 0 < a) (hb : 0 < b)
    (hI : KronIrreducible fun i => (unstack (X i) : Matrix (Fin b) (Fin a) 𝕜))
    (A A' : Matrix (Fin a) (Fin a) 𝕜) (B B' : Matrix (Fin b) (Fin b) 𝕜)
    (h : KronFixed (fun i => unstack (X i)) A B) (h' : KronFixed (fun i => unstack (X i)) A' B') :
    ∃ s t : ℝ, A' = (s : 𝕜) • A ∧ B' = (t : 𝕜) • B :=
  kron_unique X hX ha hb hI h.posA h.posB h.eqA h.eqB h'.posA h'.posB
    (kron_fixed_minimises X (kronData_pos hX ha) (rows_ne_zero hX) h'.posA h'.posB h'.eqA h'.eqB
      h.posA h.posB)

end

/-- Four samples of length 4: the columns of the identity, of two reflections and of a quarter
turn. -/
def pauliData : Matrix (Fin 4) (Fin (2 * 2)) ℝ :=
  of ![![1, 0, 0, 1], ![1, 0, 0, -1], ![0, 1, 1, 0], ![0, 1, -1, 0]]

theorem pauli_unstack (i : Fin 4) : (unstack (pauliData i) : Matrix (Fin 2) (Fin 2) ℝ) =
    (![!![1, 0; 0, 1], !![1, 0; 0, -1], !![0, 1; 1, 0], !![0, -1; 1, 0]] :
      Fin 4 → Matrix (Fin 2) (Fin 2) ℝ) i := by
  ext r c
  fin_cases i <;> fin_cases r <;> fin_cases c <;>
    simp [unstack, pauliData, finProdFinEquiv]

/-- The hypotheses of `C111` are met by `pauliData`, with the identity as fixed point. -/
theorem pauli_data : KronData (fun i => (unstack (pauliData i) : Matrix (Fin 2) (Fin 2) ℝ)) ∧
    KronFixed (fun i => (unstack (pauliData i) : Matrix (Fin 2) (Fin 2) ℝ)) 1 1 ∧
    KronIrreducible (fun i => (unstack (pauliData i) : Matrix (Fin 2) (Fin 2) ℝ)) := by
  simp only [pauli_unstack]
  refine ⟨⟨fun i h => ?_, fun v hv => ?_, fun u hu => ?_⟩, ⟨PosDef.one, PosDef.one, ?_, ?_⟩,
    fun S T h => ?_⟩
  · have h0 := congrFun (congrFun h 0) 0
    have h1 := congrFun (congrFun h 1) 0
    fin_cases i <;> simp at h0 h1
  · have := hv 0
    rw [show (![!![1, 0; 0, 1], !![1, 0; 0, -1], !![0, 1; 1, 0], !![0, -1; 1, 0]] :
      Fin 4 → Matrix (Fin 2) (Fin 2) ℝ) 0 = 1 from one_fin_two.symm, one_mulVec] at this
    exact this
  · have := hu 0
    rw [show (![!![1, 0; 0, 1], !![1, 0; 0, -1], !![0, 1; 1, 0], !![0, -1; 1, 0]] :
      Fin 4 → Matrix (Fin 2) (Fin 2) ℝ) 0 = 1 from one_fin_two.symm, conjTranspose_one,
      one_mulVec] at this
    exact this
  · ext r c
    fin_cases r <;> fin_cases c <;>
      simp [Fin.sum_univ_four, Matrix.add_apply, Matrix.smul_apply, trace_fin_two, Matrix.mul_apply,
        Fin.sum_univ_two, vecMul, dotProduct] <;> norm_num
  · ext r c
    fin_cases r <;> fin_cases c <;>
      simp [Fin.sum_univ_four, Matrix.add_apply, Matrix.smul_apply, trace_fin_two, Matrix.mul_apply,
        Fin.sum_univ_two, vecMul, dotProduct] <;> norm_num
  · obtain ⟨c0, h0⟩ := h 0
    obtain ⟨c1, h1⟩ := h 1
    obtain ⟨c2, h2⟩ := h 2
    obtain ⟨c3, h3⟩ := h 3
    have e := fun (i j : Fin 2) => congrFun (congrFun h0 i) j
    have f := fun (i j : Fin 2) => congrFun (congrFun h1 i) j
    have g := fun (i j : Fin 2) => congrFun (congrFun h2 i) j
    have k := fun (i j : Fin 2) => congrFun (congrFun h3 i) j
    simp only [Fin.forall_fin_two] at e f g k
    simp [Matrix.add_apply, Matrix.smul_apply, Matrix.mul_apply, Fin.sum_univ_two, vecMul,
      dotProduct] at e f g k
    obtain ⟨⟨e1, e2⟩, e3, e4⟩ := e
    obtain ⟨⟨f1, f2⟩, f3, f4⟩ := f
    obtain ⟨⟨g1, g2⟩, g3, g4⟩ := g
    obtain ⟨⟨k1, k2⟩, k3, k4⟩ := k
    refine ⟨⟨S 0 0, ?_⟩, ⟨T 0 0, ?_⟩⟩
    · ext r c
      fin_cases r <;> fin_cases c <;> simp <;> linarith
    · ext r c
      fin_cases r <;> fin_cases c <;> simp <;> linarith

end RS
