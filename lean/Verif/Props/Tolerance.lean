import Verif.Props.Exist
import Verif.Lemmas.KronConverge

/-
A small tolerance gives an accurate estimate (C112).
-/
set_option autoImplicit false

namespace RS
open Matrix ComplexOrder Filter Topology

section
variable {N p : ℕ}

section
variable {𝕜 : Type} [RCLike 𝕜]

theorem mErr_zero (hp : 0 < p) {w : ℝ → ℝ} {X : Matrix (Fin N) (Fin p) 𝕜}
    {init : Matrix (Fin p) (Fin p) 𝕜} {k : ℕ} (hk : (mIter w X init k).PosDef)
    (h : mErr w X init k ≤ 0) : ∀ j, k ≤ j → mIter w X init j = mIter w X init k := by
  have h1 : frob (mIter w X init (k + 1) - mIter w X init k) / frob (mIter w X init k) ≤ 0 := h
  rw [div_le_iff₀ (frob_pos hp hk), zero_mul] at h1
  have h2 : mIter w X init (k + 1) = mIter w X init k :=
    sub_eq_zero.1 ((frob_eq_zero _).1 (le_antisymm h1 (frob_nonneg _)))
  intro j hj
  induction j, hj using Nat.le_induction with
  | base => rfl
  | succ j hj ih =>
    have e : mIter w X init (j + 1) = mStep w X (mIter w X init j) := rfl
    rw [e, ih]
    exact h2

/-- With a negative tolerance all the iterations are done. -/
theorem IsMRun.all {w : ℝ → ℝ} {X : Matrix (Fin N) (Fin p) 𝕜} {init sigma : Matrix (Fin p) (Fin p) 𝕜}
    {delta : Delta} {j n : ℕ} (h : IsMRun w X (-1) j init sigma delta n) : n = j := by
  have hb := h.bound
  rcases lt_or_ge n j with hlt | hge
  · have h1 := h.stopped (by exact_mod_cast hlt)
    cases n with
    | zero => rw [h.err_zero rfl] at h1; exact absurd trivial h1
    | succ k =>
      rw [h.err_succ k rfl] at h1
      refine absurd ?_ h1
      have : 0 ≤ mErr w X init k := div_nonneg (Real.sqrt_nonneg _) (Real.sqrt_nonneg _)
      exact lt_of_lt_of_le (by norm_num) this
  · omega

/-- A run with a small enough tolerance and enough allowed iterations ends at an iterate that
occurs again after `K` steps. -/
theorem IsMRun.late (hp : 0 < p) (w : ℝ → ℝ) (X : Matrix (Fin N) (Fin p) 𝕜)
    (init : Matrix (Fin p) (Fin p) 𝕜) (K : ℕ) : ∃ tol₀ : ℝ, 0 < tol₀ ∧
      ∀ (tol : ℝ) (iterMax : ℤ) sigma delta n, tol ≤ tol₀ → K ≤ iterMax →
        IsMRun w X tol iterMax init sigma delta n → ∃ j, K ≤ j ∧ mIter w X init j = sigma := by
  obtain ⟨δ, hδ, hδK⟩ := exists_small_gap (mErr w X init) K
  refine ⟨δ, hδ, fun tol iterMax sigma delta n htol hm h => ?_⟩
  rcases le_or_gt K n with hk | hk
  · exact ⟨n, hk, h.result.symm⟩
  · have h1 := h.stopped (by omega)
    cases n with
    | zero => rw [h.err_zero rfl] at h1; exact absurd trivial h1
    | succ k =>
      rw [h.err_succ k rfl] at h1
      have h2 := mErr_zero hp (h.posDef k (by omega)) (hδK k (by omega) ((not_lt.1 h1).trans htol))
      exact ⟨K, le_rfl, by rw [h2 K (by omega), h.result, h2 (k + 1) (by omega)]⟩

end

/-- Real data, any of the three estimators: if the results tend to `S` as the number of iterations
grows, then for every `ε` there are a tolerance and an `iter_max` from which on every call returns
a matrix within `ε` of `S`. -/
theorem C112_real (e : RealEst) (env : NumEnv N p ℝ) (hs : env.eigh.Ok) (c : Chi2) (hc : c.Ok)
    (X : Matrix (Fin N) (Fin p) ℝ) (hp : 0 < p) (hX : Spans X) (hv : e.Valid X)
    (init : Option (Matrix (Fin p) (Fin p) ℝ)) (hi : ∀ S ∈ init, S.PosDef)
    (S : Matrix (Fin p) (Fin p) ℝ)
    (hlim : ∀ ε : ℝ, 0 < ε → ∃ K : ℕ, ∀ (tol : ℝ) (iterMax : ℤ), ∃ result delta iteration warned,
      e.run env c X init tol iterMax = .ok ⟨.fin result, delta, iteration, warned⟩ ∧
      (K ≤ iteration → frobDist result S < ε)) :
    ∀ ε : ℝ, 0 < ε → ∃ (tol₀ : ℝ) (K : ℕ), 0 < tol₀ ∧ ∀ (tol : ℝ) (iterMax : ℤ), tol ≤ tol₀ →
      K ≤ iterMax → ∃ result delta iteration warned,
        e.run env c X init tol iterMax = .ok ⟨.fin result, delta, iteration, warned⟩ ∧
        frobDist result S < ε := by
  intro ε hε
  obtain ⟨K, hK⟩ := hlim ε hε
  obtain ⟨tol₀, h0, h1⟩ := IsMRun.late hp (e.weight c p) X (init.getD (secondMoment X)) K
  refine ⟨tol₀, K, h0, fun tol iterMax ht hm => ?_⟩
  obtain ⟨sigma, result, delta, iteration, h2, h3, h4, -⟩ :=
    C34_real e env hs c hc X hp hX hv init hi tol iterMax
  obtain ⟨j, hj, hjs⟩ := h1 tol iterMax sigma delta iteration ht hm h3
  obtain ⟨r', d', n', w', h5, h6⟩ := hK (-1) j
  obtain ⟨sigma', result', delta', iteration', h7, h8, h9, -⟩ :=
    C34_real e env hs c hc X hp hX hv init hi (-1) j
  have hn := h8.all
  rw [h7] at h5
  simp only [Except.ok.injEq, FPOut.mk.injEq, FMat.fin.injEq] at h5
  obtain ⟨e1, -, e3, -⟩ := h5
  have e4 : sigma' = sigma := by rw [h8.result, hn, hjs]
  have e5 : result = result' := by
    rw [e4, h4] at h9
    exact FMat.fin.inj h9
  refine ⟨result, delta, iteration, _, h2, ?_⟩
  rw [e5, e1]
  exact h6 (by omega)

/-- Complex data. -/
theorem C112_complex (e : ComplexEst) (env : NumEnv N p ℂ) (hs : env.eigh.Ok) (c : Chi2) (hc : c.Ok)
    (X : Matrix (Fin N) (Fin p) ℂ) (hp : 0 < p) (hX : Spans X) (hv : e.Valid X)
    (init : Option (Matrix (Fin p) (Fin p) ℂ)) (hi : ∀ S ∈ init, S.PosDef)
    (S : Matrix (Fin p) (Fin p) ℂ)
    (hlim : ∀ ε : ℝ, 0 < ε → ∃ K : ℕ, ∀ (tol : ℝ) (iterMax : ℤ), ∃ result delta iteration warned,
      e.run env c X init tol iterMax = .ok ⟨.fin result, delta, iteration, warned⟩ ∧
      (K ≤ iteration → frobDist result S < ε)) :
    ∀ ε : ℝ, 0 < ε → ∃ (tol₀ : ℝ) (K : ℕ), 0 < tol₀ ∧ ∀ (tol : ℝ) (iterMax : ℤ), tol ≤ tol₀ →
      K ≤ iterMax → ∃ result delta iteration warned,
        e.run env c X init tol iterMax = .ok ⟨.fin result, delta, iteration, warned⟩ ∧
        frobDist result S < ε := by
  intro ε hε
  obtain ⟨K, hK⟩ := hlim ε hε
  obtain ⟨tol₀, h0, h1⟩ := IsMRun.late hp (e.weight c p) X (init.getD (secondMoment X)) K
  refine ⟨tol₀, K, h0, fun tol iterMax ht hm => ?_⟩
  obtain ⟨sigma, result, delta, iteration, h2, h3, h4, -⟩ :=
    C34_complex e env hs c hc X hp hX hv init hi tol iterMax
  obtain ⟨j, hj, hjs⟩ := h1 tol iterMax sigma delta iteration ht hm h3
  obtain ⟨r', d', n', w', h5, h6⟩ := hK (-1) j
  obtain ⟨sigma', result', delta', iteration', h7, h8, h9, -⟩ :=
    C34_complex e env hs c hc X hp hX hv init hi (-1) j
  have hn := h8.all
  rw [h7] at h5
  simp only [Except.ok.injEq, FPOut.mk.injEq, FMat.fin.injEq] at h5
  obtain ⟨e1, -, e3, -⟩ := h5
  have e4 : sigma' = sigma := by rw [h8.result, hn, hjs]
  have e5 : result = result' := by
    rw [e4, h4] at h9
    exact FMat.fin.inj h9
  refine ⟨result, delta, iteration, _, h2, ?_⟩
  rw [e5, e1]
  exact h6 (by omega)

private def noChi2t : Chi2 := ⟨fun q _ => q, fun _ _ => 0⟩
private theorem noChi2t_ok : noChi2t.Ok :=
  ⟨fun _ => rfl, fun _ _ h _ _ => h, fun _ _ => le_rfl⟩

/-- Geometric convergence in the number of iterations is convergence. -/
theorem geometric_small {r C ε : ℝ} (hr0 : 0 ≤ r) (hr1 : r < 1) (hε : 0 < ε) :
    ∃ K : ℕ, ∀ n, K ≤ n → C * r ^ n < ε := by
  have h := (tendsto_pow_atTop_nhds_zero_of_lt_one hr0 hr1).const_mul C
  rw [mul_zero] at h
  exact eventually_atTop.1 (h.eventually (gt_mem_nhds hε))

/-- Tyler's estimator of real data in general position, `N > p`: there is one matrix such that,
from every start, every call with small enough `tol` and large enough `iter_max` returns a matrix
within `ε` of it. -/
theorem C112_tyler_real (env : NumEnv N p ℝ) (hs : env.eigh.Ok) (X : Matrix (Fin N) (Fin p) ℝ)
    (hp : 0 < p) (hN : p < N) (hX : GeneralPosition X) (name : String)
    (hname : name = "trace" ∨ name = "determinant" ∨ name = "element") :
    ∃ S' : Matrix (Fin p) (Fin p) ℝ, ∀ init : Option (Matrix (Fin p) (Fin p) ℝ),
      (∀ S ∈ init, S.PosDef) → ∀ ε : ℝ, 0 < ε → ∃ (tol₀ : ℝ) (K : ℕ), 0 < tol₀ ∧
        ∀ (tol : ℝ) (iterMax : ℤ), tol ≤ tol₀ → K ≤ iterMax → ∃ result delta iteration warned,
          tylerFixedPoint env X init tol iterMax name =
            .ok ⟨.fin result, delta, iteration, warned⟩ ∧ frobDist result S' < ε := by
  have hn := generalPosition_nonzero hX hp
  have hsp := tyler_spans (by omega) X hn (generalPosition_tyler hX hN)
  obtain ⟨S', h⟩ := C101_converges_real env hs X hp hN hX name hname
  exact ⟨S', fun init hi => C112_real (.tyler name) env hs noChi2t noChi2t_ok X hp hsp hn init hi S'
    (h init hi).1⟩

/-- Tyler's estimator of complex data. -/
theorem C112_tyler_complex (env : NumEnv N p ℂ) (hs : env.eigh.Ok) (X : Matrix (Fin N) (Fin p) ℂ)
    (hp : 0 < p) (hN : p < N) (hX : GeneralPosition X) (name : String)
    (hname : name = "trace" ∨ name = "determinant" ∨ name = "element") :
    ∃ S' : Matrix (Fin p) (Fin p) ℂ, ∀ init : Option (Matrix (Fin p) (Fin p) ℂ),
      (∀ S ∈ init, S.PosDef) → ∀ ε : ℝ, 0 < ε → ∃ (tol₀ : ℝ) (K : ℕ), 0 < tol₀ ∧
        ∀ (tol : ℝ) (iterMax : ℤ), tol ≤ tol₀ → K ≤ iterMax → ∃ result delta iteration warned,
          complexTylerFixedPoint env X init tol iterMax name =
            .ok ⟨.fin result, delta, iteration, warned⟩ ∧ frobDist result S' < ε := by
  have hn := generalPosition_nonzero hX hp
  have hsp := tyler_spans (by omega) X hn (generalPosition_tyler hX hN)
  obtain ⟨S', h⟩ := C101_converges_complex env hs X hp hN hX name hname
  exact ⟨S', fun init hi => C112_complex (.tyler name) env hs noChi2t noChi2t_ok X hp hsp hn init hi
    S' (h init hi).1⟩

/-- The Student-t estimator of real data in general position, `N >= p`. -/
theorem C112_student_real (env : NumEnv N p ℝ) (hs : env.eigh.Ok) (X : Matrix (Fin N) (Fin p) ℝ)
    (hp : 0 < p) (hN : p ≤ N) (hX : GeneralPosition X) (df : ℝ) (hdf : 0 < df) :
    ∃ S : Matrix (Fin p) (Fin p) ℝ, S.PosDef ∧ ∀ init : Option (Matrix (Fin p) (Fin p) ℝ),
      (∀ S ∈ init, S.PosDef) → ∀ ε : ℝ, 0 < ε → ∃ (tol₀ : ℝ) (K : ℕ), 0 < tol₀ ∧
        ∀ (tol : ℝ) (iterMax : ℤ), tol ≤ tol₀ → K ≤ iterMax → ∃ result delta iteration warned,
          studentFixedPoint env X df init tol iterMax =
            .ok ⟨.fin result, delta, iteration, warned⟩ ∧ frobDist result S < ε := by
  have hsp := student_spans X (generalPosition_student hX hN (half_pos hdf))
  obtain ⟨S, hS, h⟩ := C102_converges_real env hs X hp hN hX df hdf
  refine ⟨S, hS, fun init hi => C112_real (.student df) env hs noChi2t noChi2t_ok X hp hsp hdf init hi
    S fun ε hε => ?_⟩
  obtain ⟨r, C, hr0, hr1, hr⟩ := (h init hi).1
  obtain ⟨K, hK⟩ := geometric_small (C := C) hr0 hr1 hε
  refine ⟨K, fun tol iterMax => ?_⟩
  obtain ⟨result, delta, iteration, warned, h1, h2⟩ := hr tol iterMax
  exact ⟨result, delta, iteration, warned, h1, fun hk => h2.trans_lt (hK iteration hk)⟩

/-- The Student-t estimator of complex data. -/
theorem C112_student_complex (env : NumEnv N p ℂ) (hs : env.eigh.Ok) (X : Matrix (Fin N) (Fin p) ℂ)
    (hp : 0 < p) (hN : p ≤ N) (hX : GeneralPosition X) (df : ℝ) (hdf : 0 < df) :
    ∃ S : Matrix (Fin p) (Fin p) ℂ, S.PosDef ∧ ∀ init : Option (Matrix (Fin p) (Fin p) ℂ),
      (∀ S ∈ init, S.PosDef) → ∀ ε : ℝ, 0 < ε → ∃ (tol₀ : ℝ) (K : ℕ), 0 < tol₀ ∧
        ∀ (tol : ℝ) (iterMax : ℤ), tol ≤ tol₀ → K ≤ iterMax → ∃ result delta iteration warned,
          complexStudentFixedPoint env X df init tol iterMax =
            .ok ⟨.fin result, delta, iteration, warned⟩ ∧ frobDist result S < ε := by
  have hsp := student_spans X (generalPosition_student hX hN hdf)
  obtain ⟨S, hS, h⟩ := C102_converges_complex env hs X hp hN hX df hdf
  refine ⟨S, hS, fun init hi => C112_complex (.student df) env hs noChi2t noChi2t_ok X hp hsp hdf init
    hi S fun ε hε => ?_⟩
  obtain ⟨r, C, hr0, hr1, hr⟩ := (h init hi).1
  obtain ⟨K, hK⟩ := geometric_small (C := C) hr0 hr1 hε
  refine ⟨K, fun tol iterMax => ?_⟩
  obtain ⟨result, delta, iteration, warned, h1, h2⟩ := hr tol iterMax
  exact ⟨result, delta, iteration, warned, h1, fun hk => h2.trans_lt (hK iteration hk)⟩

/-- The hypotheses of `C112_tyler_real` and `C112_student_real` are met by the three directions of
`mercedes`. -/
example (env : NumEnv 3 2 ℝ) (hs : env.eigh.Ok) : ∃ S : Matrix (Fin 2) (Fin 2) ℝ,
    ∀ ε : ℝ, 0 < ε → ∃ (tol₀ : ℝ) (K : ℕ), 0 < tol₀ ∧ ∃ result delta iteration warned,
      tylerFixedPoint env (mercedes ℝ) none tol₀ K "trace" =
        .ok ⟨.fin result, delta, iteration, warned⟩ ∧ frobDist result S < ε := by
  obtain ⟨S, h⟩ := C112_tyler_real env hs (mercedes ℝ) two_pos (by norm_num)
    mercedes_generalPosition "trace" (Or.inl rfl)
  refine ⟨S, fun ε hε => ?_⟩
  obtain ⟨tol₀, K, h1, h2⟩ := h none (fun S hS => by simp at hS) ε hε
  exact ⟨tol₀, K, h1, h2 tol₀ K le_rfl le_rfl⟩

end
end RS
