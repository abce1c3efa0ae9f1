import Verif.Lemmas.Rate
import Verif.Props.Tolerance

/-
Rate of the fixed-point estimators: distance to the limit, number of iterations and reported error
(C142, C143).
-/
set_option autoImplicit false

namespace RS
open Matrix ComplexOrder Filter Topology

section
variable {N p : ℕ}

/-! ## Specification -/

/-- Every call returns an estimate whose distance to `S` decreases geometrically with the number of
iterations done. -/
def GeometricCalls {𝕜 : Type} [RCLike 𝕜] (call : ℝ → ℤ → Py (FPOut p 𝕜))
    (S : Matrix (Fin p) (Fin p) 𝕜) : Prop :=
  ∃ r C : ℝ, 0 ≤ r ∧ r < 1 ∧ ∀ (tol : ℝ) (iterMax : ℤ), ∃ result delta iteration warned,
    call tol iterMax = .ok ⟨.fin result, delta, iteration, warned⟩ ∧
    frobDist result S ≤ C * r ^ iteration

/-- The number of iterations needed to reach the tolerance `tol` is at most `K (1 + log(1/tol))`:
with a larger `iter_max` the call stops by itself within that many iterations. -/
def LogCalls {𝕜 : Type} [RCLike 𝕜] (call : ℝ → ℤ → Py (FPOut p 𝕜)) : Prop :=
  ∃ K : ℝ, ∀ (tol : ℝ) (iterMax : ℤ), 0 < tol → tol ≤ 1 →
    K * (1 + Real.log (1 / tol)) < iterMax → ∃ result d iteration,
      call tol iterMax = .ok ⟨.fin result, .fin d, iteration, false⟩ ∧ d ≤ tol ∧
      iteration ≤ K * (1 + Real.log (1 / tol))

/-- The distance of the returned estimate to `S` is at most a constant times the error that the
call reports, whatever `tol` and `iter_max >= 1`. -/
def AccurateCalls {𝕜 : Type} [RCLike 𝕜] (call : ℝ → ℤ → Py (FPOut p 𝕜))
    (S : Matrix (Fin p) (Fin p) 𝕜) : Prop :=
  ∃ C : ℝ, 0 ≤ C ∧ ∀ (tol : ℝ) (iterMax : ℤ), 0 < iterMax → ∃ result d iteration warned,
    call tol iterMax = .ok ⟨.fin result, .fin d, iteration, warned⟩ ∧ frobDist result S ≤ C * d

/-! ## From the iterates to the calls -/

private def noChi2r : Chi2 := ⟨fun q _ => q, fun _ _ => 0⟩
private theorem noChi2r_ok : noChi2r.Ok :=
  ⟨fun _ => rfl, fun _ _ h _ _ => h, fun _ _ => le_rfl⟩

theorem IsMRun.reported {𝕜 : Type} [RCLike 𝕜] {w : ℝ → ℝ} {X : Matrix (Fin N) (Fin p) 𝕜} {tol : ℝ}
    {iterMax : ℤ} {init sigma : Matrix (Fin p) (Fin p) 𝕜} {delta : Delta} {n : ℕ}
    (h : IsMRun w X tol iterMax init sigma delta n) (hm : 0 < iterMax) :
    ∃ k, n = k + 1 ∧ delta = .fin (mErr w X init k) := by
  cases hn : n with
  | zero =>
    have := h.stopped (by rw [hn]; exact_mod_cast hm)
    rw [h.err_zero hn] at this
    exact absurd trivial this
  | succ k => exact ⟨k, rfl, h.err_succ k hn⟩

theorem rate_calls {𝕜 : Type} [RCLike 𝕜] (hp : 0 < p) {w : ℝ → ℝ} {X : Matrix (Fin N) (Fin p) 𝕜}
    {init Q Q' : Matrix (Fin p) (Fin p) 𝕜} (hQ : Q.PosDef) {r C D : ℝ} (hr0 : 0 ≤ r) (hr1 : r < 1)
    (hP : ∀ k, (mIter w X init k).PosDef)
    (h1 : ∀ k, frob (mIter w X init k - Q) ≤ C * r ^ k) (hD : 0 ≤ D)
    (h2 : ∀ k, frob (mIter w X init k - Q) ≤ D * frob (mIter w X init (k + 1) - mIter w X init k))
    (name : String) (hQ' : FMat.normalise name (.fin Q) = .fin Q')
    (call : ℝ → ℤ → Py (FPOut p 𝕜))
    (hcall : ∀ tol iterMax, ∃ sigma result delta iteration,
      call tol iterMax =
        .ok ⟨.fin result, delta, iteration, decide ((iteration : ℤ) = iterMax)⟩ ∧
      IsMRun w X tol iterMax init sigma delta iteration ∧
      FMat.normalise name (.fin sigma) = .fin result) :
    (GeometricCalls call Q' ∧ LogCalls call) ∧ AccurateCalls call Q' := by
  obtain ⟨C', hC', h3, h4, h5⟩ := rate_consequences hp hQ hr0 hr1 hP h1 hD h2 name hQ'
  refine ⟨⟨⟨r, C', hr0, hr1, fun tol iterMax => ?_⟩, ?_⟩, ⟨C', hC', fun tol iterMax hm => ?_⟩⟩
  · obtain ⟨sigma, result, delta, iteration, a1, a2, a3⟩ := hcall tol iterMax
    refine ⟨result, delta, iteration, _, a1, ?_⟩
    rw [a2.result] at a3
    exact h4 iteration result a3
  · obtain ⟨K, hK⟩ := IsMRun.stops_log hr0 hr1 h3
    refine ⟨K, fun tol iterMax ht ht1 hm => ?_⟩
    obtain ⟨sigma, result, delta, iteration, a1, a2, a3⟩ := hcall tol iterMax
    obtain ⟨b1, d, b2, b3⟩ := hK tol ht ht1 iterMax sigma delta iteration hm a2
    refine ⟨result, d, iteration, ?_, b3, b1⟩
    have hlt : (iteration : ℤ) < iterMax := by
      have : (iteration : ℝ) < (iterMax : ℝ) := by linarith
      exact_mod_cast this
    rw [a1, b2, decide_eq_false (by omega)]
  · obtain ⟨sigma, result, delta, iteration, a1, a2, a3⟩ := hcall tol iterMax
    obtain ⟨k, b1, b2⟩ := a2.reported hm
    refine ⟨result, mErr w X init k, iteration, decide ((iteration : ℤ) = iterMax), ?_, ?_⟩
    · rw [a1, b2]
    · rw [a2.result, b1] at a3
      exact h5 k result a3

theorem tyler_calls {𝕜 : Type} [RCLike 𝕜] (hN : 0 < N) (hp : 0 < p) {X : Matrix (Fin N) (Fin p) 𝕜}
    (hn : NonzeroSamples X)
    (H : ∀ V : Submodule 𝕜 (Fin p → 𝕜), V ≠ ⊥ → V ≠ ⊤ →
      p * samplesIn X V < N * Module.finrank 𝕜 V) {S : Matrix (Fin p) (Fin p) 𝕜} (hS : S.PosDef)
    (hfix : mStep (wTyler p) X S = S) {init : Matrix (Fin p) (Fin p) 𝕜} (hi : init.PosDef) :
    ∃ c : ℝ, 0 < c ∧ ∀ (name : String) (S' : Matrix (Fin p) (Fin p) 𝕜),
      FMat.normalise name (.fin ((c : 𝕜) • S)) = .fin S' → ∀ call : ℝ → ℤ → Py (FPOut p 𝕜),
      (∀ tol iterMax, ∃ sigma result delta iteration,
        call tol iterMax =
          .ok ⟨.fin result, delta, iteration, decide ((iteration : ℤ) = iterMax)⟩ ∧
        IsMRun (wTyler p) X tol iterMax init sigma delta iteration ∧
        FMat.normalise name (.fin sigma) = .fin result) →
      (GeometricCalls call S' ∧ LogCalls call) ∧ AccurateCalls call S' := by
  have hsp := tyler_spans hN X hn H
  obtain ⟨c, r, C, D, hc, hr0, hr1, hD, h⟩ := tyler_geometric hp hsp hn (count_indecomposable X H)
    hS hi hfix
  refine ⟨c, hc, fun name S' hS' call hcall => ?_⟩
  exact rate_calls hp (hS.smul (by exact_mod_cast hc)) hr0 hr1
    (fun k => mIter_posDef hsp (fun S hS i => wTyler_pos hn hS i) hi k) (fun k => (h k).1) hD
    (fun k => (h k).2) name hS' call hcall

/-! ## C142 and C143 for Tyler's estimator -/

/-- Real data with an estimate that is unique up to a factor, one of the three normalisations: one
matrix `S'`, the same for every start, is approached geometrically, and the number of iterations
grows at most logarithmically with the inverse tolerance. -/
theorem C142_tyler_real (env : NumEnv N p ℝ) (hs : env.eigh.Ok) (X : Matrix (Fin N) (Fin p) ℝ)
    (hN : 0 < N) (hp : 0 < p) (hn : NonzeroSamples X)
    (H : ∀ V : Submodule ℝ (Fin p → ℝ), V ≠ ⊥ → V ≠ ⊤ →
      p * samplesIn X V < N * Module.finrank ℝ V) (name : String)
    (hname : name = "trace" ∨ name = "determinant" ∨ name = "element") :
    ∃ S' : Matrix (Fin p) (Fin p) ℝ, ∀ init : Option (Matrix (Fin p) (Fin p) ℝ),
      (∀ S ∈ init, S.PosDef) →
      GeometricCalls (fun tol iterMax => tylerFixedPoint env X init tol iterMax name) S' ∧
      LogCalls (fun tol iterMax => tylerFixedPoint env X init tol iterMax name) := by
  have hsp := tyler_spans hN X hn H
  obtain ⟨S, hS, hfix, -⟩ := (C101_real env hs X hN hp hn 0).2 H
  have h : mStep (wTyler p) X S = S :=
    (run_one_real_eq (.tyler "None") hs noChi2r_ok hp hn rfl hS 0 S).1 hfix
  obtain ⟨S', hS', -⟩ := C31_posDef name hp S hS
  refine ⟨S', fun init hi => ?_⟩
  obtain ⟨c, hc, hcalls⟩ := tyler_calls hN hp hn H hS h (getD_posDef hsp hi)
  exact (hcalls name S' ((C31_scale_free name hname hp S hS c hc).trans hS') _ fun tol iterMax => by
    obtain ⟨sigma, result, delta, iteration, h1, h2, h3, -⟩ :=
      C34_real (.tyler name) env hs noChi2r noChi2r_ok X hp hsp hn init hi tol iterMax
    exact ⟨sigma, result, delta, iteration, h1, h2, h3⟩).1

/-- Complex data. -/
theorem C142_tyler_complex (env : NumEnv N p ℂ) (hs : env.eigh.Ok) (X : Matrix (Fin N) (Fin p) ℂ)
    (hN : 0 < N) (hp : 0 < p) (hn : NonzeroSamples X)
    (H : ∀ V : Submodule ℂ (Fin p → ℂ), V ≠ ⊥ → V ≠ ⊤ →
      p * samplesIn X V < N * Module.finrank ℂ V) (name : String)
    (hname : name = "trace" ∨ name = "determinant" ∨ name = "element") :
    ∃ S' : Matrix (Fin p) (Fin p) ℂ, ∀ init : Option (Matrix (Fin p) (Fin p) ℂ),
      (∀ S ∈ init, S.PosDef) →
      GeometricCalls (fun tol iterMax => complexTylerFixedPoint env X init tol iterMax name) S' ∧
      LogCalls (fun tol iterMax => complexTylerFixedPoint env X init tol iterMax name) := by
  have hsp := tyler_spans hN X hn H
  obtain ⟨S, hS, hfix, -⟩ := (C101_complex env hs X hN hp hn 0).2 H
  have h : mStep (wTyler p) X S = S :=
    (run_one_complex_eq (.tyler "None") hs noChi2r_ok hp hn rfl hS 0 S).1 hfix
  obtain ⟨S', hS', -⟩ := C31_posDef name hp S hS
  refine ⟨S', fun init hi => ?_⟩
  obtain ⟨c, hc, hcalls⟩ := tyler_calls hN hp hn H hS h (getD_posDef hsp hi)
  exact (hcalls name S' ((C31_scale_free name hname hp S hS c hc).trans hS') _ fun tol iterMax => by
    obtain ⟨sigma, result, delta, iteration, h1, h2, h3, -⟩ :=
      C34_complex (.tyler name) env hs noChi2r noChi2r_ok X hp hsp hn init hi tol iterMax
    exact ⟨sigma, result, delta, iteration, h1, h2, h3⟩).1

/-- Without normalisation the limit depends on the start; the rate and the number of iterations are
as with normalisation. -/
theorem C142_tyler_none_real (env : NumEnv N p ℝ) (hs : env.eigh.Ok) (X : Matrix (Fin N) (Fin p) ℝ)
    (hN : 0 < N) (hp : 0 < p) (hn : NonzeroSamples X)
    (H : ∀ V : Submodule ℝ (Fin p → ℝ), V ≠ ⊥ → V ≠ ⊤ →
      p * samplesIn X V < N * Module.finrank ℝ V)
    (init : Option (Matrix (Fin p) (Fin p) ℝ)) (hi : ∀ S ∈ init, S.PosDef) :
    ∃ S' : Matrix (Fin p) (Fin p) ℝ, S'.PosDef ∧
      GeometricCalls (fun tol iterMax => tylerFixedPoint env X init tol iterMax "None") S' ∧
      LogCalls (fun tol iterMax => tylerFixedPoint env X init tol iterMax "None") ∧
      AccurateCalls (fun tol iterMax => tylerFixedPoint env X init tol iterMax "None") S' := by
  have hsp := tyler_spans hN X hn H
  obtain ⟨S, hS, hfix, -⟩ := (C101_real env hs X hN hp hn 0).2 H
  have h : mStep (wTyler p) X S = S :=
    (run_one_real_eq (.tyler "None") hs noChi2r_ok hp hn rfl hS 0 S).1 hfix
  obtain ⟨c, hc, hcalls⟩ := tyler_calls hN hp hn H hS h (getD_posDef hsp hi)
  have hx := hcalls "None" _ (C30_none "None" (by decide +kernel) _) _ fun tol iterMax => by
    obtain ⟨sigma, result, delta, iteration, h1, h2, h3, -⟩ :=
      C34_real (.tyler "None") env hs noChi2r noChi2r_ok X hp hsp hn init hi tol iterMax
    exact ⟨sigma, result, delta, iteration, h1, h2, h3⟩
  exact ⟨_, hS.smul (by exact_mod_cast hc), hx.1.1, hx.1.2, hx.2⟩

/-- Complex data. -/
theorem C142_tyler_none_complex (env : NumEnv N p ℂ) (hs : env.eigh.Ok)
    (X : Matrix (Fin N) (Fin p) ℂ) (hN : 0 < N) (hp : 0 < p) (hn : NonzeroSamples X)
    (H : ∀ V : Submodule ℂ (Fin p → ℂ), V ≠ ⊥ → V ≠ ⊤ →
      p * samplesIn X V < N * Module.finrank ℂ V)
    (init : Option (Matrix (Fin p) (Fin p) ℂ)) (hi : ∀ S ∈ init, S.PosDef) :
    ∃ S' : Matrix (Fin p) (Fin p) ℂ, S'.PosDef ∧
      GeometricCalls (fun tol iterMax => complexTylerFixedPoint env X init tol iterMax "None") S' ∧
      LogCalls (fun tol iterMax => complexTylerFixedPoint env X init tol iterMax "None") ∧
      AccurateCalls (fun tol iterMax => complexTylerFixedPoint env X init tol iterMax "None") S' := by
  have hsp := tyler_spans hN X hn H
  obtain ⟨S, hS, hfix, -⟩ := (C101_complex env hs X hN hp hn 0).2 H
  have h : mStep (wTyler p) X S = S :=
    (run_one_complex_eq (.tyler "None") hs noChi2r_ok hp hn rfl hS 0 S).1 hfix
  obtain ⟨c, hc, hcalls⟩ := tyler_calls hN hp hn H hS h (getD_posDef hsp hi)
  have hx := hcalls "None" _ (C30_none "None" (by decide +kernel) _) _ fun tol iterMax => by
    obtain ⟨sigma, result, delta, iteration, h1, h2, h3, -⟩ :=
      C34_complex (.tyler "None") env hs noChi2r noChi2r_ok X hp hsp hn init hi tol iterMax
    exact ⟨sigma, result, delta, iteration, h1, h2, h3⟩
  exact ⟨_, hS.smul (by simpa using hc), hx.1.1, hx.1.2, hx.2⟩

/-- The reported error bounds the distance to the limit, real data. -/
theorem C143_tyler_real (env : NumEnv N p ℝ) (hs : env.eigh.Ok) (X : Matrix (Fin N) (Fin p) ℝ)
    (hN : 0 < N) (hp : 0 < p) (hn : NonzeroSamples X)
    (H : ∀ V : Submodule ℝ (Fin p → ℝ), V ≠ ⊥ → V ≠ ⊤ →
      p * samplesIn X V < N * Module.finrank ℝ V) (name : String)
    (hname : name = "trace" ∨ name = "determinant" ∨ name = "element") :
    ∃ S' : Matrix (Fin p) (Fin p) ℝ, ∀ init : Option (Matrix (Fin p) (Fin p) ℝ),
      (∀ S ∈ init, S.PosDef) →
      AccurateCalls (fun tol iterMax => tylerFixedPoint env X init tol iterMax name) S' := by
  have hsp := tyler_spans hN X hn H
  obtain ⟨S, hS, hfix, -⟩ := (C101_real env hs X hN hp hn 0).2 H
  have h : mStep (wTyler p) X S = S :=
    (run_one_real_eq (.tyler "None") hs noChi2r_ok hp hn rfl hS 0 S).1 hfix
  obtain ⟨S', hS', -⟩ := C31_posDef name hp S hS
  refine ⟨S', fun init hi => ?_⟩
  obtain ⟨c, hc, hcalls⟩ := tyler_calls hN hp hn H hS h (getD_posDef hsp hi)
  exact (hcalls name S' ((C31_scale_free name hname hp S hS c hc).trans hS') _ fun tol iterMax => by
    obtain ⟨sigma, result, delta, iteration, h1, h2, h3, -⟩ :=
      C34_real (.tyler name) env hs noChi2r noChi2r_ok X hp hsp hn init hi tol iterMax
    exact ⟨sigma, result, delta, iteration, h1, h2, h3⟩).2

/-- Complex data. -/
theorem C143_tyler_complex (env : NumEnv N p ℂ) (hs : env.eigh.Ok) (X : Matrix (Fin N) (Fin p) ℂ)
    (hN : 0 < N) (hp : 0 < p) (hn : NonzeroSamples X)
    (H : ∀ V : Submodule ℂ (Fin p → ℂ), V ≠ ⊥ → V ≠ ⊤ →
      p * samplesIn X V < N * Module.finrank ℂ V) (name : String)
    (hname : name = "trace" ∨ name = "determinant" ∨ name = "element") :
    ∃ S' : Matrix (Fin p) (Fin p) ℂ, ∀ init : Option (Matrix (Fin p) (Fin p) ℂ),
      (∀ S ∈ init, S.PosDef) →
      AccurateCalls (fun tol iterMax => complexTylerFixedPoint env X init tol iterMax name) S' := by
  have hsp := tyler_spans hN X hn H
  obtain ⟨S, hS, hfix, -⟩ := (C101_complex env hs X hN hp hn 0).2 H
  have h : mStep (wTyler p) X S = S :=
    (run_one_complex_eq (.tyler "None") hs noChi2r_ok hp hn rfl hS 0 S).1 hfix
  obtain ⟨S', hS', -⟩ := C31_posDef name hp S hS
  refine ⟨S', fun init hi => ?_⟩
  obtain ⟨c, hc, hcalls⟩ := tyler_calls hN hp hn H hS h (getD_posDef hsp hi)
  exact (hcalls name S' ((C31_scale_free name hname hp S hS c hc).trans hS') _ fun tol iterMax => by
    obtain ⟨sigma, result, delta, iteration, h1, h2, h3, -⟩ :=
      C34_complex (.tyler name) env hs noChi2r noChi2r_ok X hp hsp hn init hi tol iterMax
    exact ⟨sigma, result, delta, iteration, h1, h2, h3⟩).2

/-! ## C142 and C143 for the Student-t estimator -/

theorem student_calls {𝕜 : Type} [RCLike 𝕜] (hp : 0 < p) {X : Matrix (Fin N) (Fin p) 𝕜} {nu : ℝ}
    (hnu : 0 < nu) (hsp : Spans X) {S : Matrix (Fin p) (Fin p) 𝕜} (hS : S.PosDef)
    (hfix : mStep (wStudent nu p) X S = S) {init : Matrix (Fin p) (Fin p) 𝕜} (hi : init.PosDef)
    (call : ℝ → ℤ → Py (FPOut p 𝕜))
    (hcall : ∀ tol iterMax, ∃ sigma result delta iteration,
      call tol iterMax =
        .ok ⟨.fin result, delta, iteration, decide ((iteration : ℤ) = iterMax)⟩ ∧
      IsMRun (wStudent nu p) X tol iterMax init sigma delta iteration ∧
      FMat.normalise "None" (.fin sigma) = .fin result) :
    (GeometricCalls call S ∧ LogCalls call) ∧ AccurateCalls call S := by
  obtain ⟨r, C, hr0, hr1, h1⟩ := student_geometric hnu X hS hi hfix
  obtain ⟨D, hD, h2⟩ := student_residual hnu X hS hi hfix
  exact rate_calls hp hS hr0 hr1
    (fun k => mIter_posDef hsp (fun S hS i => wStudent_pos X hnu hS i) hi k) h1 hD h2 "None"
    (C30_none "None" (by decide +kernel) _) call hcall

/-- Real data with an estimate: it is approached geometrically from every start, and the number of
iterations grows at most logarithmically with the inverse tolerance. -/
theorem C142_student_real (env : NumEnv N p ℝ) (hs : env.eigh.Ok) (X : Matrix (Fin N) (Fin p) ℝ)
    (hp : 0 < p) (df : ℝ) (hdf : 0 < df)
    (H : ∀ V : Submodule ℝ (Fin p → ℝ), V ≠ ⊤ →
      (df / 2 + p) * samplesIn X V < N * (df / 2 + Module.finrank ℝ V)) :
    ∃ S : Matrix (Fin p) (Fin p) ℝ, S.PosDef ∧ ∀ init : Option (Matrix (Fin p) (Fin p) ℝ),
      (∀ S ∈ init, S.PosDef) →
      GeometricCalls (fun tol iterMax => studentFixedPoint env X df init tol iterMax) S ∧
      LogCalls (fun tol iterMax => studentFixedPoint env X df init tol iterMax) := by
  have hsp := student_spans X H
  obtain ⟨S, hS, hfix⟩ := (C102_real env hs X hp df hdf 0).2 H
  have h : mStep (wStudent (df / 2) p) X S = S :=
    (run_one_real_eq (.student df) hs noChi2r_ok hp hdf rfl hS 0 S).1 hfix
  refine ⟨S, hS, fun init hi => ?_⟩
  exact (student_calls hp (half_pos hdf) hsp hS h (getD_posDef hsp hi) _ fun tol iterMax => by
    obtain ⟨sigma, result, delta, iteration, h1, h2, h3, -⟩ :=
      C34_real (.student df) env hs noChi2r noChi2r_ok X hp hsp hdf init hi tol iterMax
    exact ⟨sigma, result, delta, iteration, h1, h2, h3⟩).1

/-- Complex data. -/
theorem C142_student_complex (env : NumEnv N p ℂ) (hs : env.eigh.Ok) (X : Matrix (Fin N) (Fin p) ℂ)
    (hp : 0 < p) (df : ℝ) (hdf : 0 < df)
    (H : ∀ V : Submodule ℂ (Fin p → ℂ), V ≠ ⊤ →
      (df + p) * samplesIn X V < N * (df + Module.finrank ℂ V)) :
    ∃ S : Matrix (Fin p) (Fin p) ℂ, S.PosDef ∧ ∀ init : Option (Matrix (Fin p) (Fin p) ℂ),
      (∀ S ∈ init, S.PosDef) →
      GeometricCalls (fun tol iterMax => complexStudentFixedPoint env X df init tol iterMax) S ∧
      LogCalls (fun tol iterMax => complexStudentFixedPoint env X df init tol iterMax) := by
  have hsp := student_spans X H
  obtain ⟨S, hS, hfix⟩ := (C102_complex env hs X hp df hdf 0).2 H
  have h : mStep (wStudent df p) X S = S :=
    (run_one_complex_eq (.student df) hs noChi2r_ok hp hdf rfl hS 0 S).1 hfix
  refine ⟨S, hS, fun init hi => ?_⟩
  exact (student_calls hp hdf hsp hS h (getD_posDef hsp hi) _ fun tol iterMax => by
    obtain ⟨sigma, result, delta, iteration, h1, h2, h3, -⟩ :=
      C34_complex (.student df) env hs noChi2r noChi2r_ok X hp hsp hdf init hi tol iterMax
    exact ⟨sigma, result, delta, iteration, h1, h2, h3⟩).1

/-- The reported error bounds the distance to the estimate, real data. -/
theorem C143_student_real (env : NumEnv N p ℝ) (hs : env.eigh.Ok) (X : Matrix (Fin N) (Fin p) ℝ)
    (hp : 0 < p) (df : ℝ) (hdf : 0 < df)
    (H : ∀ V : Submodule ℝ (Fin p → ℝ), V ≠ ⊤ →
      (df / 2 + p) * samplesIn X V < N * (df / 2 + Module.finrank ℝ V)) :
    ∃ S : Matrix (Fin p) (Fin p) ℝ, S.PosDef ∧ ∀ init : Option (Matrix (Fin p) (Fin p) ℝ),
      (∀ S ∈ init, S.PosDef) →
      AccurateCalls (fun tol iterMax => studentFixedPoint env X df init tol iterMax) S := by
  have hsp := student_spans X H
  obtain ⟨S, hS, hfix⟩ := (C102_real env hs X hp df hdf 0).2 H
  have h : mStep (wStudent (df / 2) p) X S = S :=
    (run_one_real_eq (.student df) hs noChi2r_ok hp hdf rfl hS 0 S).1 hfix
  refine ⟨S, hS, fun init hi => ?_⟩
  exact (student_calls hp (half_pos hdf) hsp hS h (getD_posDef hsp hi) _ fun tol iterMax => by
    obtain ⟨sigma, result, delta, iteration, h1, h2, h3, -⟩ :=
      C34_real (.student df) env hs noChi2r noChi2r_ok X hp hsp hdf init hi tol iterMax
    exact ⟨sigma, result, delta, iteration, h1, h2, h3⟩).2

/-- Complex data. -/
theorem C143_student_complex (env : NumEnv N p ℂ) (hs : env.eigh.Ok) (X : Matrix (Fin N) (Fin p) ℂ)
    (hp : 0 < p) (df : ℝ) (hdf : 0 < df)
    (H : ∀ V : Submodule ℂ (Fin p → ℂ), V ≠ ⊤ →
      (df + p) * samplesIn X V < N * (df + Module.finrank ℂ V)) :
    ∃ S : Matrix (Fin p) (Fin p) ℂ, S.PosDef ∧ ∀ init : Option (Matrix (Fin p) (Fin p) ℂ),
      (∀ S ∈ init, S.PosDef) →
      AccurateCalls (fun tol iterMax => complexStudentFixedPoint env X df init tol iterMax) S := by
  have hsp := student_spans X H
  obtain ⟨S, hS, hfix⟩ := (C102_complex env hs X hp df hdf 0).2 H
  have h : mStep (wStudent df p) X S = S :=
    (run_one_complex_eq (.student df) hs noChi2r_ok hp hdf rfl hS 0 S).1 hfix
  refine ⟨S, hS, fun init hi => ?_⟩
  exact (student_calls hp hdf hsp hS h (getD_posDef hsp hi) _ fun tol iterMax => by
    obtain ⟨sigma, result, delta, iteration, h1, h2, h3, -⟩ :=
      C34_complex (.student df) env hs noChi2r noChi2r_ok X hp hsp hdf init hi tol iterMax
    exact ⟨sigma, result, delta, iteration, h1, h2, h3⟩).2

/-- The three directions of `mercedes` meet the hypotheses of the real theorems: for `tol <= 1` and
`iter_max` above a multiple of `1 + log(1/tol)` Tyler's estimator normalised by the trace stops by
itself and is within a constant times `tol` of one matrix. -/
example (env : NumEnv 3 2 ℝ) (hs : env.eigh.Ok) :
    ∃ (S : Matrix (Fin 2) (Fin 2) ℝ) (K C : ℝ), ∀ (tol : ℝ) (iterMax : ℤ), 0 < tol → tol ≤ 1 →
      0 < iterMax → K * (1 + Real.log (1 / tol)) < iterMax → ∃ result d iteration,
        tylerFixedPoint env (mercedes ℝ) none tol iterMax "trace" =
          .ok ⟨.fin result, .fin d, iteration, false⟩ ∧
        iteration ≤ K * (1 + Real.log (1 / tol)) ∧ frobDist result S ≤ C * tol := by
  have hg := mercedes_generalPosition
  have hn := generalPosition_nonzero hg two_pos
  have H := generalPosition_tyler hg (by norm_num)
  obtain ⟨S, h⟩ := C143_tyler_real env hs (mercedes ℝ) (by norm_num) two_pos hn H "trace" (Or.inl rfl)
  obtain ⟨C, hC, h2⟩ := h none (fun S hS => by simp at hS)
  obtain ⟨S', h'⟩ := C142_tyler_real env hs (mercedes ℝ) (by norm_num) two_pos hn H "trace"
    (Or.inl rfl)
  obtain ⟨K, h3⟩ := (h' none (fun S hS => by simp at hS)).2
  refine ⟨S, K, C, fun tol iterMax ht ht1 hm hK => ?_⟩
  obtain ⟨result, d, iteration, a1, a2, a3⟩ := h3 tol iterMax ht ht1 hK
  obtain ⟨result', d', iteration', w', b1, b2⟩ := h2 tol iterMax hm
  refine ⟨result, d, iteration, a1, a3, ?_⟩
  have e := a1.symm.trans b1
  simp only [Except.ok.injEq, FPOut.mk.injEq, FMat.fin.injEq, Delta.fin.injEq] at e
  rw [e.1]
  refine b2.trans ?_
  rw [← e.2.1]
  exact mul_le_mul_of_nonneg_left a2 hC

/-- The same directions, Student-t estimator with `df = 3`. -/
example (env : NumEnv 3 2 ℝ) (hs : env.eigh.Ok) :
    ∃ S : Matrix (Fin 2) (Fin 2) ℝ, S.PosDef ∧
      GeometricCalls (fun tol iterMax => studentFixedPoint env (mercedes ℝ) 3 none tol iterMax) S := by
  obtain ⟨S, hS, h⟩ := C142_student_real env hs (mercedes ℝ) two_pos 3 (by norm_num)
    (generalPosition_student mercedes_generalPosition (by norm_num) (by norm_num))
  exact ⟨S, hS, (h none (fun S hS => by simp at hS)).1⟩

end
end RS
