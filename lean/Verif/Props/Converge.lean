import Verif.Lemmas.TylerConverge
import Verif.Props.Optimality
import Mathlib.Analysis.SpecialFunctions.Pow.Continuity

/-
Convergence of the estimators: the Student-t iteration (C83), Tyler's iteration (C84), existence
of the Student-t estimate (C85).
-/
set_option autoImplicit false

namespace RS
open Matrix ComplexOrder Filter Topology

section
variable {N p : ℕ}

/-- Frobenius distance between two matrices. -/
noncomputable def frobDist {𝕜 : Type} [RCLike 𝕜] (A B : Matrix (Fin p) (Fin p) 𝕜) : ℝ :=
  Real.sqrt (∑ i, ∑ j, ‖A i j - B i j‖ ^ 2)

theorem frobDist_eq {𝕜 : Type} [RCLike 𝕜] (A B : Matrix (Fin p) (Fin p) 𝕜) :
    frobDist A B = frob (A - B) := rfl

private def noChi2'' : Chi2 := ⟨fun q _ => q, fun _ _ => 0⟩
private theorem noChi2_ok'' : noChi2''.Ok :=
  ⟨fun _ => rfl, fun _ _ h _ _ => h, fun _ _ => le_rfl⟩

/-! ## C83 -/

theorem student_geometric {𝕜 : Type} [RCLike 𝕜] {nu : ℝ} (hnu : 0 < nu)
    (X : Matrix (Fin N) (Fin p) 𝕜) {S init : Matrix (Fin p) (Fin p) 𝕜} (hS : S.PosDef)
    (hi : init.PosDef) (hfix : mStep (wStudent nu p) X S = S) :
    ∃ r C : ℝ, 0 ≤ r ∧ r < 1 ∧ ∀ k, frobDist (mIter (wStudent nu p) X init k) S ≤ C * r ^ k := by
  obtain ⟨r, hr0, hr1, hr⟩ := student_rate hnu X hS
  obtain ⟨c, hc, h1, h2⟩ := exists_between hS hi
  have hc' : c = 1 + (c - 1) := by ring
  rw [hc'] at h1 h2
  have he : 0 ≤ c - 1 := by linarith
  have hlin := student_linear hnu X hS hfix hr0 hr he h1 h2
  refine ⟨r, 3 * (c - 1) * RCLike.re S.trace, hr0, hr1, fun k => ?_⟩
  have := frob_squeeze hS (by positivity) (hlin k).1 (hlin k).2
  rw [frobDist_eq]
  linarith

/-- Real data, any starting point, any stopping rule: if the iteration has a fixed point `S`, the
estimate returned after `iteration` iterations is within `C r^iteration` of `S`, with `r < 1`. -/
theorem C83_real (env : NumEnv N p ℝ) (hs : env.eigh.Ok) (X : Matrix (Fin N) (Fin p) ℝ)
    (hp : 0 < p) (hX : Spans X) (df : ℝ) (hdf : 0 < df) (S : Matrix (Fin p) (Fin p) ℝ)
    (hS : S.PosDef) (tol0 : ℝ) (hfix : Returns (studentFixedPoint env X df (some S) tol0 1) S)
    (init : Option (Matrix (Fin p) (Fin p) ℝ)) (hi : ∀ S ∈ init, S.PosDef) :
    ∃ r C : ℝ, 0 ≤ r ∧ r < 1 ∧ ∀ (tol : ℝ) (iterMax : ℤ), ∃ result delta iteration warned,
      studentFixedPoint env X df init tol iterMax =
        .ok ⟨.fin result, delta, iteration, warned⟩ ∧
      frobDist result S ≤ C * r ^ iteration := by
  have hd2 := half_pos hdf
  have h : mStep (wStudent (df / 2) p) X S = S :=
    (run_one_real_eq (.student df) hs noChi2_ok'' hp hdf rfl hS tol0 S).1 hfix
  obtain ⟨r, C, hr0, hr1, hr⟩ := student_geometric hd2 X hS (getD_posDef hX hi) h
  refine ⟨r, C, hr0, hr1, fun tol iterMax => ?_⟩
  obtain ⟨sigma, result, delta, iteration, h1, h2, h3, h4⟩ := C34_real (.student df) env hs
    noChi2'' noChi2_ok'' X hp hX hdf init hi tol iterMax
  have h5 : result = sigma :=
    FMat.fin.inj (h3.symm.trans (C30_none "None" (by decide +kernel) (.fin sigma)))
  refine ⟨result, delta, iteration, _, h1, ?_⟩
  rw [h5, h2.result]
  exact hr iteration

/-- Complex data. -/
theorem C83_complex (env : NumEnv N p ℂ) (hs : env.eigh.Ok) (X : Matrix (Fin N) (Fin p) ℂ)
    (hp : 0 < p) (hX : Spans X) (df : ℝ) (hdf : 0 < df) (S : Matrix (Fin p) (Fin p) ℂ)
    (hS : S.PosDef) (tol0 : ℝ)
    (hfix : Returns (complexStudentFixedPoint env X df (some S) tol0 1) S)
    (init : Option (Matrix (Fin p) (Fin p) ℂ)) (hi : ∀ S ∈ init, S.PosDef) :
    ∃ r C : ℝ, 0 ≤ r ∧ r < 1 ∧ ∀ (tol : ℝ) (iterMax : ℤ), ∃ result delta iteration warned,
      complexStudentFixedPoint env X df init tol iterMax =
        .ok ⟨.fin result, delta, iteration, warned⟩ ∧
      frobDist result S ≤ C * r ^ iteration := by
  have h : mStep (wStudent df p) X S = S :=
    (run_one_complex_eq (.student df) hs noChi2_ok'' hp hdf rfl hS tol0 S).1 hfix
  obtain ⟨r, C, hr0, hr1, hr⟩ := student_geometric hdf X hS (getD_posDef hX hi) h
  refine ⟨r, C, hr0, hr1, fun tol iterMax => ?_⟩
  obtain ⟨sigma, result, delta, iteration, h1, h2, h3, h4⟩ := C34_complex (.student df) env hs
    noChi2'' noChi2_ok'' X hp hX hdf init hi tol iterMax
  have h5 : result = sigma :=
    FMat.fin.inj (h3.symm.trans (C30_none "None" (by decide +kernel) (.fin sigma)))
  refine ⟨result, delta, iteration, _, h1, ?_⟩
  rw [h5, h2.result]
  exact hr iteration

/-- Real data: with a positive tolerance the loop stops by itself, without the non-convergence
warning and with an error at most `tol`, as soon as `iter_max` is large enough. -/
theorem C83_stops_real (env : NumEnv N p ℝ) (hs : env.eigh.Ok) (X : Matrix (Fin N) (Fin p) ℝ)
    (hp : 0 < p) (hX : Spans X) (df : ℝ) (hdf : 0 < df) (S : Matrix (Fin p) (Fin p) ℝ)
    (hS : S.PosDef) (tol0 : ℝ) (hfix : Returns (studentFixedPoint env X df (some S) tol0 1) S)
    (init : Option (Matrix (Fin p) (Fin p) ℝ)) (hi : ∀ S ∈ init, S.PosDef) (tol : ℝ)
    (ht : 0 < tol) :
    ∃ K : ℕ, ∀ iterMax : ℤ, K < iterMax → ∃ result d iteration,
      studentFixedPoint env X df init tol iterMax =
        .ok ⟨.fin result, .fin d, iteration, false⟩ ∧ d ≤ tol ∧ iteration ≤ K := by
  have h : mStep (wStudent (df / 2) p) X S = S :=
    (run_one_real_eq (.student df) hs noChi2_ok'' hp hdf rfl hS tol0 S).1 hfix
  obtain ⟨K, hK⟩ := IsMRun.stops (err_tendsto X (frob_pos hp hS)
    (student_tendsto (half_pos hdf) X hS (getD_posDef hX hi) h)) ht
  refine ⟨K, fun iterMax hm => ?_⟩
  obtain ⟨sigma, result, delta, iteration, h1, h2, h3, h4⟩ := C34_real (.student df) env hs
    noChi2'' noChi2_ok'' X hp hX hdf init hi tol iterMax
  obtain ⟨h5, d, h6, h7⟩ := hK iterMax sigma delta iteration hm h2
  refine ⟨result, d, iteration, ?_, h7, h5⟩
  have hb : ((iteration : ℤ) == iterMax) = false := by
    rw [beq_eq_false_iff_ne]; omega
  rw [← h6, ← hb]
  exact h1

/-- Complex data. -/
theorem C83_stops_complex (env : NumEnv N p ℂ) (hs : env.eigh.Ok) (X : Matrix (Fin N) (Fin p) ℂ)
    (hp : 0 < p) (hX : Spans X) (df : ℝ) (hdf : 0 < df) (S : Matrix (Fin p) (Fin p) ℂ)
    (hS : S.PosDef) (tol0 : ℝ)
    (hfix : Returns (complexStudentFixedPoint env X df (some S) tol0 1) S)
    (init : Option (Matrix (Fin p) (Fin p) ℂ)) (hi : ∀ S ∈ init, S.PosDef) (tol : ℝ)
    (ht : 0 < tol) :
    ∃ K : ℕ, ∀ iterMax : ℤ, K < iterMax → ∃ result d iteration,
      complexStudentFixedPoint env X df init tol iterMax =
        .ok ⟨.fin result, .fin d, iteration, false⟩ ∧ d ≤ tol ∧ iteration ≤ K := by
  have h : mStep (wStudent df p) X S = S :=
    (run_one_complex_eq (.student df) hs noChi2_ok'' hp hdf rfl hS tol0 S).1 hfix
  obtain ⟨K, hK⟩ := IsMRun.stops (err_tendsto X (frob_pos hp hS)
    (student_tendsto hdf X hS (getD_posDef hX hi) h)) ht
  refine ⟨K, fun iterMax hm => ?_⟩
  obtain ⟨sigma, result, delta, iteration, h1, h2, h3, h4⟩ := C34_complex (.student df) env hs
    noChi2'' noChi2_ok'' X hp hX hdf init hi tol iterMax
  obtain ⟨h5, d, h6, h7⟩ := hK iterMax sigma delta iteration hm h2
  refine ⟨result, d, iteration, ?_, h7, h5⟩
  have hb : ((iteration : ℤ) == iterMax) = false := by
    rw [beq_eq_false_iff_ne]; omega
  rw [← h6, ← hb]
  exact h1

/-! ## C84 -/

/-- The normaliser is continuous at positive definite matrices. -/
theorem tendsto_normalise {𝕜 : Type} [RCLike 𝕜] (name : String) (hp : 0 < p)
    {T T' : ℕ → Matrix (Fin p) (Fin p) 𝕜} {Q Q' : Matrix (Fin p) (Fin p) 𝕜}
    (hT : ∀ k, (T k).PosDef) (hQ : Q.PosDef) (h : Tendsto T atTop (𝓝 Q))
    (h1 : ∀ k, FMat.normalise name (.fin (T k)) = .fin (T' k))
    (h2 : FMat.normalise name (.fin Q) = .fin Q') : Tendsto T' atTop (𝓝 Q') := by
  have key : ∃ f : Matrix (Fin p) (Fin p) 𝕜 → 𝕜, (∀ A : Matrix (Fin p) (Fin p) 𝕜, A.PosDef →
      normFn name A = some (f A)) ∧ Tendsto (fun k => f (T k)) atTop (𝓝 (f Q)) := by
    by_cases e1 : name = "trace"
    · refine ⟨fun A => ((RCLike.re A.trace / p : ℝ) : 𝕜), fun A _ => by simp [normFn, e1], ?_⟩
      have hc : Continuous fun A : Matrix (Fin p) (Fin p) 𝕜 => ((RCLike.re A.trace / p : ℝ) : 𝕜) := by
        fun_prop
      exact (hc.tendsto Q).comp h
    by_cases e2 : name = "determinant"
    · refine ⟨fun A => (((RCLike.re A.det) ^ (1 / (p : ℝ)) : ℝ) : 𝕜), fun A hA => ?_, ?_⟩
      · have := (posDef_det_pos hA).1
        simp only [normFn, e1, if_false]
        rw [if_pos e2, if_neg (not_lt.2 this.le)]
      · refine (RCLike.continuous_ofReal.tendsto _).comp ?_
        refine Tendsto.rpow_const ?_ (Or.inl (posDef_det_pos hQ).1.ne')
        exact (RCLike.continuous_re.tendsto _).comp (((continuous_id.matrix_det).tendsto Q).comp h)
    by_cases e3 : name = "element"
    · refine ⟨fun A => A ⟨0, hp⟩ ⟨0, hp⟩, fun A _ => ?_, ?_⟩
      · simp only [normFn, e1, e2, if_false]
        rw [if_pos e3, dif_pos hp]
      · have hc : Continuous fun A : Matrix (Fin p) (Fin p) 𝕜 => A ⟨0, hp⟩ ⟨0, hp⟩ := by fun_prop
        exact (hc.tendsto Q).comp h
    · exact ⟨fun _ => 1, fun A _ => by simp [normFn, e1, e2, e3], tendsto_const_nhds⟩
  obtain ⟨f, hf, hlim⟩ := key
  have hne : ∀ A : Matrix (Fin p) (Fin p) 𝕜, A.PosDef → f A ≠ 0 ∧
      FMat.normalise name (.fin A) = .fin ((f A)⁻¹ • A) := by
    intro A hA
    obtain ⟨r, hr, h3, h4⟩ := normalise_pos name hp hA
    have h5 : f A = (r : 𝕜) := Option.some.inj ((hf A hA).symm.trans h3)
    have h6 : f A ≠ 0 := by rw [h5, Ne, RCLike.ofReal_eq_zero]; exact hr.ne'
    refine ⟨h6, ?_⟩
    rw [h4, h5, RCLike.ofReal_inv]
  have e1 : T' = fun k => (f (T k))⁻¹ • T k := funext fun k =>
    FMat.fin.inj ((h1 k).symm.trans (hne _ (hT k)).2)
  have e2 : Q' = (f Q)⁻¹ • Q := FMat.fin.inj (h2.symm.trans (hne Q hQ).2)
  rw [e1, e2]
  exact (hlim.inv₀ (hne Q hQ).1).smul h

theorem tyler_normalised_limit {𝕜 : Type} [RCLike 𝕜] (hp : 0 < p) (X : Matrix (Fin N) (Fin p) 𝕜)
    (hX : Spans X) (hn : NonzeroSamples X) (hI : Indecomposable X)
    {S S' init : Matrix (Fin p) (Fin p) 𝕜} (hS : S.PosDef) (hi : init.PosDef)
    (hfix : mStep (wTyler p) X S = S) (name : String)
    (hname : name = "trace" ∨ name = "determinant" ∨ name = "element")
    (hS' : FMat.normalise name (.fin S) = .fin S') {ε : ℝ} (hε : 0 < ε) :
    ∃ K, ∀ k, K ≤ k → ∀ R, FMat.normalise name (.fin (mIter (wTyler p) X init k)) = .fin R →
      frobDist R S' < ε := by
  obtain ⟨c, hc, hlim⟩ := tyler_tendsto hp X hX hn hI hS hi hfix
  have hTP : ∀ k, (mIter (wTyler p) X init k).PosDef := fun k =>
    mIter_posDef hX (fun S hS i => wTyler_pos hn hS i) hi k
  choose T' hT' _ using fun k => C31_posDef name hp _ (hTP k)
  have h1 := tendsto_normalise name hp hTP (hS.smul (by exact_mod_cast hc)) hlim hT'
    ((C31_scale_free name hname hp S hS c hc).trans hS')
  have h2 := (frob_of_tendsto h1).eventually (gt_mem_nhds hε)
  obtain ⟨K, hK⟩ := eventually_atTop.1 h2
  refine ⟨K, fun k hk R hR => ?_⟩
  have : R = T' k := FMat.fin.inj (hR.symm.trans (hT' k))
  rw [this]
  exact hK k hk

/-- Real data that cannot be split, any starting point: if the iteration has a fixed point `S`,
the estimate returned with a given normalisation comes arbitrarily close to the normalised `S`
once enough iterations are done, whatever the stopping rule. -/
theorem C84_real (env : NumEnv N p ℝ) (hs : env.eigh.Ok) (X : Matrix (Fin N) (Fin p) ℝ)
    (hp : 0 < p) (hX : Spans X) (hn : NonzeroSamples X) (hI : Indecomposable X)
    (S : Matrix (Fin p) (Fin p) ℝ) (hS : S.PosDef) (tol0 : ℝ)
    (hfix : Returns (tylerFixedPoint env X (some S) tol0 1 "None") S)
    (init : Option (Matrix (Fin p) (Fin p) ℝ)) (hi : ∀ S ∈ init, S.PosDef) (name : String)
    (hname : name = "trace" ∨ name = "determinant" ∨ name = "element") :
    ∃ S' : Matrix (Fin p) (Fin p) ℝ, FMat.normalise name (.fin S) = .fin S' ∧
      ∀ ε : ℝ, 0 < ε → ∃ K : ℕ, ∀ (tol : ℝ) (iterMax : ℤ), ∃ result delta iteration warned,
        tylerFixedPoint env X init tol iterMax name =
          .ok ⟨.fin result, delta, iteration, warned⟩ ∧
        (K ≤ iteration → frobDist result S' < ε) := by
  have h : mStep (wTyler p) X S = S :=
    (run_one_real_eq (.tyler "None") hs noChi2_ok'' hp hn rfl hS tol0 S).1 hfix
  obtain ⟨S', hS', -⟩ := C31_posDef name hp S hS
  refine ⟨S', hS', fun ε hε => ?_⟩
  obtain ⟨K, hK⟩ := tyler_normalised_limit hp X hX hn hI hS (getD_posDef hX hi) h name hname hS' hε
  refine ⟨K, fun tol iterMax => ?_⟩
  obtain ⟨sigma, result, delta, iteration, h1, h2, h3, h4⟩ := C34_real (.tyler name) env hs
    noChi2'' noChi2_ok'' X hp hX hn init hi tol iterMax
  refine ⟨result, delta, iteration, _, h1, fun hk => hK iteration hk result ?_⟩
  have h5 : sigma = mIter (wTyler p) X (init.getD (secondMoment X)) iteration := h2.result
  rw [← h5]
  exact h3

/-- Complex data. -/
theorem C84_complex (env : NumEnv N p ℂ) (hs : env.eigh.Ok) (X : Matrix (Fin N) (Fin p) ℂ)
    (hp : 0 < p) (hX : Spans X) (hn : NonzeroSamples X) (hI : Indecomposable X)
    (S : Matrix (Fin p) (Fin p) ℂ) (hS : S.PosDef) (tol0 : ℝ)
    (hfix : Returns (complexTylerFixedPoint env X (some S) tol0 1 "None") S)
    (init : Option (Matrix (Fin p) (Fin p) ℂ)) (hi : ∀ S ∈ init, S.PosDef) (name : String)
    (hname : name = "trace" ∨ name = "determinant" ∨ name = "element") :
    ∃ S' : Matrix (Fin p) (Fin p) ℂ, FMat.normalise name (.fin S) = .fin S' ∧
      ∀ ε : ℝ, 0 < ε → ∃ K : ℕ, ∀ (tol : ℝ) (iterMax : ℤ), ∃ result delta iteration warned,
        complexTylerFixedPoint env X init tol iterMax name =
          .ok ⟨.fin result, delta, iteration, warned⟩ ∧
        (K ≤ iteration → frobDist result S' < ε) := by
  have h : mStep (wTyler p) X S = S :=
    (run_one_complex_eq (.tyler "None") hs noChi2_ok'' hp hn rfl hS tol0 S).1 hfix
  obtain ⟨S', hS', -⟩ := C31_posDef name hp S hS
  refine ⟨S', hS', fun ε hε => ?_⟩
  obtain ⟨K, hK⟩ := tyler_normalised_limit hp X hX hn hI hS (getD_posDef hX hi) h name hname hS' hε
  refine ⟨K, fun tol iterMax => ?_⟩
  obtain ⟨sigma, result, delta, iteration, h1, h2, h3, h4⟩ := C34_complex (.tyler name) env hs
    noChi2'' noChi2_ok'' X hp hX hn init hi tol iterMax
  refine ⟨result, delta, iteration, _, h1, fun hk => hK iteration hk result ?_⟩
  have h5 : sigma = mIter (wTyler p) X (init.getD (secondMoment X)) iteration := h2.result
  rw [← h5]
  exact h3

/-- Real data: the loop stops by itself without warning once `iter_max` is large enough. -/
theorem C84_stops_real (env : NumEnv N p ℝ) (hs : env.eigh.Ok) (X : Matrix (Fin N) (Fin p) ℝ)
    (hp : 0 < p) (hX : Spans X) (hn : NonzeroSamples X) (hI : Indecomposable X)
    (S : Matrix (Fin p) (Fin p) ℝ) (hS : S.PosDef) (tol0 : ℝ)
    (hfix : Returns (tylerFixedPoint env X (some S) tol0 1 "None") S)
    (init : Option (Matrix (Fin p) (Fin p) ℝ)) (hi : ∀ S ∈ init, S.PosDef) (name : String)
    (tol : ℝ) (ht : 0 < tol) :
    ∃ K : ℕ, ∀ iterMax : ℤ, K < iterMax → ∃ result d iteration,
      tylerFixedPoint env X init tol iterMax name =
        .ok ⟨.fin result, .fin d, iteration, false⟩ ∧ d ≤ tol ∧ iteration ≤ K := by
  have h : mStep (wTyler p) X S = S :=
    (run_one_real_eq (.tyler "None") hs noChi2_ok'' hp hn rfl hS tol0 S).1 hfix
  obtain ⟨c, hc, hlim⟩ := tyler_tendsto hp X hX hn hI hS (getD_posDef hX hi) h
  obtain ⟨K, hK⟩ := IsMRun.stops (err_tendsto X (frob_pos hp (hS.smul (by exact_mod_cast hc)))
    (frob_of_tendsto hlim)) ht
  refine ⟨K, fun iterMax hm => ?_⟩
  obtain ⟨sigma, result, delta, iteration, h1, h2, h3, h4⟩ := C34_real (.tyler name) env hs
    noChi2'' noChi2_ok'' X hp hX hn init hi tol iterMax
  obtain ⟨h5, d, h6, h7⟩ := hK iterMax sigma delta iteration hm h2
  refine ⟨result, d, iteration, ?_, h7, h5⟩
  have hb : ((iteration : ℤ) == iterMax) = false := by
    rw [beq_eq_false_iff_ne]; omega
  rw [← h6, ← hb]
  exact h1

/-- Complex data. -/
theorem C84_stops_complex (env : NumEnv N p ℂ) (hs : env.eigh.Ok) (X : Matrix (Fin N) (Fin p) ℂ)
    (hp : 0 < p) (hX : Spans X) (hn : NonzeroSamples X) (hI : Indecomposable X)
    (S : Matrix (Fin p) (Fin p) ℂ) (hS : S.PosDef) (tol0 : ℝ)
    (hfix : Returns (complexTylerFixedPoint env X (some S) tol0 1 "None") S)
    (init : Option (Matrix (Fin p) (Fin p) ℂ)) (hi : ∀ S ∈ init, S.PosDef) (name : String)
    (tol : ℝ) (ht : 0 < tol) :
    ∃ K : ℕ, ∀ iterMax : ℤ, K < iterMax → ∃ result d iteration,
      complexTylerFixedPoint env X init tol iterMax name =
        .ok ⟨.fin result, .fin d, iteration, false⟩ ∧ d ≤ tol ∧ iteration ≤ K := by
  have h : mStep (wTyler p) X S = S :=
    (run_one_complex_eq (.tyler "None") hs noChi2_ok'' hp hn rfl hS tol0 S).1 hfix
  obtain ⟨c, hc, hlim⟩ := tyler_tendsto hp X hX hn hI hS (getD_posDef hX hi) h
  obtain ⟨K, hK⟩ := IsMRun.stops (err_tendsto X (frob_pos hp (hS.smul (by simpa using hc)))
    (frob_of_tendsto hlim)) ht
  refine ⟨K, fun iterMax hm => ?_⟩
  obtain ⟨sigma, result, delta, iteration, h1, h2, h3, h4⟩ := C34_complex (.tyler name) env hs
    noChi2'' noChi2_ok'' X hp hX hn init hi tol iterMax
  obtain ⟨h5, d, h6, h7⟩ := hK iterMax sigma delta iteration hm h2
  refine ⟨result, d, iteration, ?_, h7, h5⟩
  have hb : ((iteration : ℤ) == iterMax) = false := by
    rw [beq_eq_false_iff_ne]; omega
  rw [← h6, ← hb]
  exact h1

/-- The hypotheses of `C84` are met by the three directions of `mercedes`. -/
example (env : NumEnv 3 2 ℝ) (hs : env.eigh.Ok) : Spans (mercedes ℝ) ∧ NonzeroSamples (mercedes ℝ) ∧
    Indecomposable (mercedes ℝ) ∧
    Returns (tylerFixedPoint env (mercedes ℝ) (some 1) (1 / 10000) 1 "None") 1 := by
  refine ⟨fun v hv => ?_, mercedes_nonzero ℝ, mercedes_indecomposable,
    (run_one_real_eq (.tyler "None") hs noChi2_ok'' two_pos (mercedes_nonzero ℝ) rfl PosDef.one _ 1).2
    (mercedes_fix ℝ)⟩
  have h0 := hv 0
  have h1 := hv 1
  simp [sample, dotProduct, Fin.sum_univ_two, mercedes] at h0 h1
  funext j
  fin_cases j
  · exact h0
  · simpa [h0] using h1

/-! ## C85 -/

/-- Real data: the estimate of the Student-t estimator exists (as a fixed point) if and only if
some positive definite `A` is strictly smaller than `(nu+p)/p` times the matrix that one iteration
of Tyler's estimator makes of `A`; `nu = df/2`. -/
theorem C85_real (env : NumEnv N p ℝ) (hs : env.eigh.Ok) (X : Matrix (Fin N) (Fin p) ℝ)
    (hp : 0 < p) (hX : Spans X) (hn : NonzeroSamples X) (df : ℝ) (hdf : 0 < df) (tol : ℝ) :
    (∃ S : Matrix (Fin p) (Fin p) ℝ, S.PosDef ∧
      Returns (studentFixedPoint env X df (some S) tol 1) S) ↔
    ∃ A B : Matrix (Fin p) (Fin p) ℝ, A.PosDef ∧
      Returns (tylerFixedPoint env X (some A) tol 1 "None") B ∧
      (((df / 2 + p) / p) • B - A).PosDef := by
  have h := student_exists_iff (half_pos hdf) hp X hX hn
  constructor
  · rintro ⟨S, hS, hr⟩
    obtain ⟨A, hA, hlt⟩ := h.1
      ⟨S, hS, (run_one_real_eq (.student df) hs noChi2_ok'' hp hdf rfl hS tol S).1 hr⟩
    exact ⟨A, _, hA, (run_one_real_eq (.tyler "None") hs noChi2_ok'' hp hn rfl hA tol _).2 rfl, hlt⟩
  · rintro ⟨A, B, hA, hB, hlt⟩
    have hB' : mStep (wTyler p) X A = B :=
      (run_one_real_eq (.tyler "None") hs noChi2_ok'' hp hn rfl hA tol B).1 hB
    obtain ⟨S, hS, hf⟩ := h.2 ⟨A, hA, by rw [hB']; exact hlt⟩
    exact ⟨S, hS, (run_one_real_eq (.student df) hs noChi2_ok'' hp hdf rfl hS tol S).2 hf⟩

/-- Complex data; `nu = df`. -/
theorem C85_complex (env : NumEnv N p ℂ) (hs : env.eigh.Ok) (X : Matrix (Fin N) (Fin p) ℂ)
    (hp : 0 < p) (hX : Spans X) (hn : NonzeroSamples X) (df : ℝ) (hdf : 0 < df) (tol : ℝ) :
    (∃ S : Matrix (Fin p) (Fin p) ℂ, S.PosDef ∧
      Returns (complexStudentFixedPoint env X df (some S) tol 1) S) ↔
    ∃ A B : Matrix (Fin p) (Fin p) ℂ, A.PosDef ∧
      Returns (complexTylerFixedPoint env X (some A) tol 1 "None") B ∧
      ((((df + p) / p : ℝ) : ℂ) • B - A).PosDef := by
  have h := student_exists_iff hdf hp X hX hn
  constructor
  · rintro ⟨S, hS, hr⟩
    obtain ⟨A, hA, hlt⟩ := h.1
      ⟨S, hS, (run_one_complex_eq (.student df) hs noChi2_ok'' hp hdf rfl hS tol S).1 hr⟩
    exact ⟨A, _, hA, (run_one_complex_eq (.tyler "None") hs noChi2_ok'' hp hn rfl hA tol _).2 rfl, hlt⟩
  · rintro ⟨A, B, hA, hB, hlt⟩
    have hB' : mStep (wTyler p) X A = B :=
      (run_one_complex_eq (.tyler "None") hs noChi2_ok'' hp hn rfl hA tol B).1 hB
    obtain ⟨S, hS, hf⟩ := h.2 ⟨A, hA, by rw [hB']; exact hlt⟩
    exact ⟨S, hS, (run_one_complex_eq (.student df) hs noChi2_ok'' hp hdf rfl hS tol S).2 hf⟩

/-- If Tyler's estimate exists, the Student-t estimate exists for every `df > 0` (real data). -/
theorem C85_of_tyler_real (env : NumEnv N p ℝ) (hs : env.eigh.Ok) (X : Matrix (Fin N) (Fin p) ℝ)
    (hp : 0 < p) (hX : Spans X) (hn : NonzeroSamples X) (tol : ℝ) (A : Matrix (Fin p) (Fin p) ℝ)
    (hA : A.PosDef) (hfix : Returns (tylerFixedPoint env X (some A) tol 1 "None") A) (df : ℝ)
    (hdf : 0 < df) :
    ∃ S : Matrix (Fin p) (Fin p) ℝ, S.PosDef ∧
      Returns (studentFixedPoint env X df (some S) tol 1) S := by
  have hp' : (0 : ℝ) < p := by exact_mod_cast hp
  refine (C85_real env hs X hp hX hn df hdf tol).2 ⟨A, A, hA, hfix, ?_⟩
  have : ((df / 2 + p) / p) • A - A = (df / 2 / p) • A := by
    have e : (df / 2 + p) / p = df / 2 / p + 1 := by field_simp
    rw [e, add_smul, one_smul, add_sub_cancel_right]
  rw [this]
  exact hA.smul (by positivity)

/-- Complex data. -/
theorem C85_of_tyler_complex (env : NumEnv N p ℂ) (hs : env.eigh.Ok) (X : Matrix (Fin N) (Fin p) ℂ)
    (hp : 0 < p) (hX : Spans X) (hn : NonzeroSamples X) (tol : ℝ) (A : Matrix (Fin p) (Fin p) ℂ)
    (hA : A.PosDef) (hfix : Returns (complexTylerFixedPoint env X (some A) tol 1 "None") A) (df : ℝ)
    (hdf : 0 < df) :
    ∃ S : Matrix (Fin p) (Fin p) ℂ, S.PosDef ∧
      Returns (complexStudentFixedPoint env X df (some S) tol 1) S := by
  have hp' : (0 : ℝ) < p := by exact_mod_cast hp
  refine (C85_complex env hs X hp hX hn df hdf tol).2 ⟨A, A, hA, hfix, ?_⟩
  have : (((df + p) / p : ℝ) : ℂ) • A - A = ((df / p : ℝ) : ℂ) • A := by
    have e : (df + p) / p = df / p + 1 := by field_simp
    rw [e, Complex.ofReal_add, Complex.ofReal_one, add_smul, one_smul, add_sub_cancel_right]
  rw [this]
  refine hA.smul ?_
  have : (0 : ℝ) < df / p := by positivity
  exact_mod_cast this

end
end RS
