import Verif.Lemmas.HuberCont
import Verif.Props.HuberFix
import Verif.Props.RoundingFloor

/-
The Huber estimates: continuity in the data (C160), rate (C161), rounding errors (C162).
-/
set_option autoImplicit false

namespace RS
open Matrix ComplexOrder Filter Topology

section
variable {N p : ℕ}

/-! ## Specification -/

/-- `S` is the only positive definite matrix that one iteration of `call` on `X` does not change. -/
structure OnlyFixed {𝕜 : Type} [RCLike 𝕜]
    (call : Matrix (Fin N) (Fin p) 𝕜 → Option (Matrix (Fin p) (Fin p) 𝕜) → ℝ → ℤ → Py (FPOut p 𝕜))
    (X : Matrix (Fin N) (Fin p) 𝕜) (S : Matrix (Fin p) (Fin p) 𝕜) : Prop where
  posDef : S.PosDef
  fixed : ∀ tol, Returns (call X (some S) tol 1) S
  unique : ∀ T tol, T.PosDef → Returns (call X (some T) tol 1) T → T = S

/-- The fixed point exists at `X`, exists for all data close enough to `X` (entry by entry), and tends
to the one at `X` as the data do. -/
def ContinuousFixedAt {𝕜 : Type} [RCLike 𝕜]
    (call : Matrix (Fin N) (Fin p) 𝕜 → Option (Matrix (Fin p) (Fin p) 𝕜) → ℝ → ℤ → Py (FPOut p 𝕜))
    (X : Matrix (Fin N) (Fin p) 𝕜) : Prop :=
  ∃ S, OnlyFixed call X S ∧ ∀ ε : ℝ, 0 < ε → ∃ δ : ℝ, 0 < δ ∧ ∀ Y : Matrix (Fin N) (Fin p) 𝕜,
    (∀ i j, ‖Y i j - X i j‖ < δ) → ∃ T, OnlyFixed call Y T ∧ frobDist T S < ε

/-! ## Fixed points of the calls -/

theorem onlyFixed_huber_real (env : NumEnv N p ℝ) (hs : env.eigh.Ok) (c : Chi2) (hc : c.Ok)
    (hp : 0 < p) (q : ℝ) (hq0 : 0 < q) (hq1 : q < 1) (X : Matrix (Fin N) (Fin p) ℝ)
    (S : Matrix (Fin p) (Fin p) ℝ) :
    OnlyFixed (fun X init tol iterMax => huberFixedPoint env c X q init tol iterMax) X S ↔
      S.PosDef ∧ mStep (wHuber (c.ppf q p / 2)
        (c.cdf (c.ppf q p) (p + 1) + c.ppf q p * (1 - q) / p)) X S = S := by
  obtain ⟨hl, hb⟩ := huber_beta_pos hc ⟨hq0, hq1⟩ hp
  have hr : ∀ (S : Matrix (Fin p) (Fin p) ℝ) tol, S.PosDef →
      (Returns (huberFixedPoint env c X q (some S) tol 1) S ↔ mStep (wHuber _ _) X S = S) :=
    fun S tol hS => run_one_real_eq (.huber q) hs hc hp ⟨hq0, hq1⟩ rfl hS tol S
  refine ⟨fun h => ⟨h.posDef, (hr S 0 h.posDef).1 (h.fixed 0)⟩, fun h =>
    ⟨h.1, fun tol => (hr S tol h.1).2 h.2, fun T tol hT h' => ?_⟩⟩
  exact mono_unique (wHuber_monotone hl hb) (fun t => mul_pos hb (lt_max_of_lt_left one_pos)) hp X hT
    h.1 ((hr T tol hT).1 h') h.2

theorem onlyFixed_huber_complex (env : NumEnv N p ℂ) (hs : env.eigh.Ok) (c : Chi2) (hc : c.Ok)
    (hp : 0 < p) (q : ℝ) (hq0 : 0 < q) (hq1 : q < 1) (X : Matrix (Fin N) (Fin p) ℂ)
    (S : Matrix (Fin p) (Fin p) ℂ) :
    OnlyFixed (fun X init tol iterMax => complexHuberFixedPoint env c X q init tol iterMax) X S ↔
      S.PosDef ∧ mStep (wHuber (c.ppf q (2 * p) / 2)
        (c.cdf (c.ppf q (2 * p)) (2 * p + 2) + c.ppf q (2 * p) * (1 - q) / (2 * p))) X S = S := by
  obtain ⟨hl, hb⟩ := complexHuber_beta_pos hc ⟨hq0, hq1⟩ hp
  have hr : ∀ (S : Matrix (Fin p) (Fin p) ℂ) tol, S.PosDef →
      (Returns (complexHuberFixedPoint env c X q (some S) tol 1) S ↔ mStep (wHuber _ _) X S = S) :=
    fun S tol hS => run_one_complex_eq (.huber q) hs hc hp ⟨hq0, hq1⟩ rfl hS tol S
  refine ⟨fun h => ⟨h.posDef, (hr S 0 h.posDef).1 (h.fixed 0)⟩, fun h =>
    ⟨h.1, fun tol => (hr S tol h.1).2 h.2, fun T tol hT h' => ?_⟩⟩
  exact mono_unique (wHuber_monotone hl hb) (fun t => mul_pos hb (lt_max_of_lt_left one_pos)) hp X hT
    h.1 ((hr T tol hT).1 h') h.2

/-! ## C161 -/

theorem huber_calls {𝕜 : Type} [RCLike 𝕜] (hp : 0 < p) {X : Matrix (Fin N) (Fin p) 𝕜} {lbda beta : ℝ}
    (hl : 0 < lbda) (hb : 0 < beta) (hsp : Spans X) {S : Matrix (Fin p) (Fin p) 𝕜} (hS : S.PosDef)
    (hfix : mStep (wHuber lbda beta) X S = S) (hin : InsideSpans lbda X S)
    {init : Matrix (Fin p) (Fin p) 𝕜} (hi : init.PosDef) (call : ℝ → ℤ → Py (FPOut p 𝕜))
    (hcall : ∀ tol iterMax, ∃ sigma result delta iteration,
      call tol iterMax =
        .ok ⟨.fin result, delta, iteration, decide ((iteration : ℤ) = iterMax)⟩ ∧
      IsMRun (wHuber lbda beta) X tol iterMax init sigma delta iteration ∧
      FMat.normalise "None" (.fin sigma) = .fin result) :
    (GeometricCalls call S ∧ LogCalls call) ∧ AccurateCalls call S := by
  obtain ⟨r, hr0, hr1, hr⟩ := huber_contracting hl hb X hS hfix hin
  obtain ⟨C, b, B, u0, hC, -, -, hu0, h⟩ := contracting_fl hp hS hi hr hr0 hr1
  have hP := mIter_posDef (w := wHuber lbda beta) hsp (fun S _ i => wHuber_pos X hb i) hi
  have h0 : frob (0 : Matrix (Fin p) (Fin p) 𝕜) = 0 := (frob_eq_zero _).2 rfl
  have hall := h 0 le_rfl hu0.le (mIter (wHuber lbda beta) X init) (fun k => (hP k).1)
    (by rw [show mIter (wHuber lbda beta) X init 0 = init from rfl, sub_self, h0, zero_mul])
    (fun k _ => by
      rw [show mIter (wHuber lbda beta) X init (k + 1) =
        mStep (wHuber lbda beta) X (mIter (wHuber lbda beta) X init k) from rfl, sub_self, h0, zero_mul])
  simp only [add_zero] at hall
  exact rate_calls hp hS hr0 hr1 hP (fun k => (hall k).2.2.2.1) hC (fun k => (hall k).2.2.2.2) "None"
    (C30_none "None" (by decide +kernel) _) call hcall

/-- Huber's estimator on real data: if at the fixed point `S` the samples below the threshold span the
space, then from every positive definite start `S` is approached geometrically, the number of iterations
grows at most logarithmically with the inverse tolerance, and the reported error bounds the distance
to `S`. -/
theorem C161_real (env : NumEnv N p ℝ) (hs : env.eigh.Ok) (c : Chi2) (hc : c.Ok)
    (X : Matrix (Fin N) (Fin p) ℝ) (hp : 0 < p) (hX : Spans X) (q : ℝ) (hq0 : 0 < q) (hq1 : q < 1)
    (S : Matrix (Fin p) (Fin p) ℝ)
    (hfix : OnlyFixed (fun X init tol iterMax => huberFixedPoint env c X q init tol iterMax) X S)
    (hin : InsideSpans (c.ppf q p / 2) X S) (init : Option (Matrix (Fin p) (Fin p) ℝ))
    (hi : ∀ A ∈ init, A.PosDef) :
    (GeometricCalls (fun tol iterMax => huberFixedPoint env c X q init tol iterMax) S ∧
      LogCalls (fun tol iterMax => huberFixedPoint env c X q init tol iterMax)) ∧
      AccurateCalls (fun tol iterMax => huberFixedPoint env c X q init tol iterMax) S := by
  obtain ⟨hl, hb⟩ := huber_beta_pos hc ⟨hq0, hq1⟩ hp
  obtain ⟨hS, h⟩ := (onlyFixed_huber_real env hs c hc hp q hq0 hq1 X S).1 hfix
  exact huber_calls hp hl hb hX hS h hin (getD_posDef hX hi) _ fun tol iterMax => by
    obtain ⟨sigma, result, delta, iteration, h1, h2, h3, -⟩ :=
      C34_real (.huber q) env hs c hc X hp hX ⟨hq0, hq1⟩ init hi tol iterMax
    exact ⟨sigma, result, delta, iteration, h1, h2, h3⟩

/-- Complex data. -/
theorem C161_complex (env : NumEnv N p ℂ) (hs : env.eigh.Ok) (c : Chi2) (hc : c.Ok)
    (X : Matrix (Fin N) (Fin p) ℂ) (hp : 0 < p) (hX : Spans X) (q : ℝ) (hq0 : 0 < q) (hq1 : q < 1)
    (S : Matrix (Fin p) (Fin p) ℂ)
    (hfix : OnlyFixed (fun X init tol iterMax => complexHuberFixedPoint env c X q init tol iterMax) X S)
    (hin : InsideSpans (c.ppf q (2 * p) / 2) X S) (init : Option (Matrix (Fin p) (Fin p) ℂ))
    (hi : ∀ A ∈ init, A.PosDef) :
    (GeometricCalls (fun tol iterMax => complexHuberFixedPoint env c X q init tol iterMax) S ∧
      LogCalls (fun tol iterMax => complexHuberFixedPoint env c X q init tol iterMax)) ∧
      AccurateCalls (fun tol iterMax => complexHuberFixedPoint env c X q init tol iterMax) S := by
  obtain ⟨hl, hb⟩ := complexHuber_beta_pos hc ⟨hq0, hq1⟩ hp
  obtain ⟨hS, h⟩ := (onlyFixed_huber_complex env hs c hc hp q hq0 hq1 X S).1 hfix
  exact huber_calls hp hl hb hX hS h hin (getD_posDef hX hi) _ fun tol iterMax => by
    obtain ⟨sigma, result, delta, iteration, h1, h2, h3, -⟩ :=
      C34_complex (.huber q) env hs c hc X hp hX ⟨hq0, hq1⟩ init hi tol iterMax
    exact ⟨sigma, result, delta, iteration, h1, h2, h3⟩

/-! ## C160 -/

/-- Huber's estimator on real data that span the space: the fixed point of the iteration depends
continuously on the data. -/
theorem C160_fixed_real (env : NumEnv N p ℝ) (hs : env.eigh.Ok) (c : Chi2) (hc : c.Ok)
    (X : Matrix (Fin N) (Fin p) ℝ) (hp : 0 < p) (hX : Spans X) (q : ℝ) (hq0 : 0 < q) (hq1 : q < 1) :
    ContinuousFixedAt (fun X init tol iterMax => huberFixedPoint env c X q init tol iterMax) X := by
  obtain ⟨hl, hb⟩ := huber_beta_pos hc ⟨hq0, hq1⟩ hp
  obtain ⟨S, hS, hfix⟩ := huber_exists hl hb hp X hX
  refine ⟨S, (onlyFixed_huber_real env hs c hc hp q hq0 hq1 X S).2 ⟨hS, hfix⟩, fun ε hε => ?_⟩
  obtain ⟨δ, hδ, h⟩ := huber_well_posed hl hb hp hX hS hfix hε
  refine ⟨δ, hδ, fun Y hY => ?_⟩
  obtain ⟨-, Q, hQ, hQf, hd, -⟩ := h Y hY
  exact ⟨Q, (onlyFixed_huber_real env hs c hc hp q hq0 hq1 Y Q).2 ⟨hQ, hQf⟩, hd⟩

/-- Complex data. -/
theorem C160_fixed_complex (env : NumEnv N p ℂ) (hs : env.eigh.Ok) (c : Chi2) (hc : c.Ok)
    (X : Matrix (Fin N) (Fin p) ℂ) (hp : 0 < p) (hX : Spans X) (q : ℝ) (hq0 : 0 < q) (hq1 : q < 1) :
    ContinuousFixedAt (fun X init tol iterMax => complexHuberFixedPoint env c X q init tol iterMax)
      X := by
  obtain ⟨hl, hb⟩ := complexHuber_beta_pos hc ⟨hq0, hq1⟩ hp
  obtain ⟨S, hS, hfix⟩ := huber_exists hl hb hp X hX
  refine ⟨S, (onlyFixed_huber_complex env hs c hc hp q hq0 hq1 X S).2 ⟨hS, hfix⟩, fun ε hε => ?_⟩
  obtain ⟨δ, hδ, h⟩ := huber_well_posed hl hb hp hX hS hfix hε
  refine ⟨δ, hδ, fun Y hY => ?_⟩
  obtain ⟨-, Q, hQ, hQf, hd, -⟩ := h Y hY
  exact ⟨Q, (onlyFixed_huber_complex env hs c hc hp q hq0 hq1 Y Q).2 ⟨hQ, hQf⟩, hd⟩

/-- If moreover the samples below the threshold span the space, the calls compute that fixed point, for
`X` and for all data close to it. -/
theorem C160_estimate_real (env : NumEnv N p ℝ) (hs : env.eigh.Ok) (c : Chi2) (hc : c.Ok)
    (X : Matrix (Fin N) (Fin p) ℝ) (hp : 0 < p) (hX : Spans X) (q : ℝ) (hq0 : 0 < q) (hq1 : q < 1)
    (S : Matrix (Fin p) (Fin p) ℝ)
    (hfix : OnlyFixed (fun X init tol iterMax => huberFixedPoint env c X q init tol iterMax) X S)
    (hin : InsideSpans (c.ppf q p / 2) X S) :
    WellPosedAt (fun X init tol iterMax => huberFixedPoint env c X q init tol iterMax) X := by
  obtain ⟨hl, hb⟩ := huber_beta_pos hc ⟨hq0, hq1⟩ hp
  obtain ⟨hS, hf⟩ := (onlyFixed_huber_real env hs c hc hp q hq0 hq1 X S).1 hfix
  refine ⟨S, fun init hi η hη => ?_, fun ε hε => ?_⟩
  · obtain ⟨⟨-, h1⟩, h2⟩ := C161_real env hs c hc X hp hX q hq0 hq1 S hfix hin init hi
    exact estimateOf_calls h1 h2 hη
  · obtain ⟨δ, hδ, h⟩ := huber_well_posed hl hb hp hX hS hf hε
    refine ⟨δ, hδ, fun Y hY => ?_⟩
    obtain ⟨hYs, Q, hQ, hQf, hd, hQi⟩ := h Y hY
    refine ⟨Q, fun init hi η hη => ?_, hd⟩
    obtain ⟨⟨-, h1⟩, h2⟩ := C161_real env hs c hc Y hp hYs q hq0 hq1 Q
      ((onlyFixed_huber_real env hs c hc hp q hq0 hq1 Y Q).2 ⟨hQ, hQf⟩) (hQi hin) init hi
    exact estimateOf_calls h1 h2 hη

/-- Complex data. -/
theorem C160_estimate_complex (env : NumEnv N p ℂ) (hs : env.eigh.Ok) (c : Chi2) (hc : c.Ok)
    (X : Matrix (Fin N) (Fin p) ℂ) (hp : 0 < p) (hX : Spans X) (q : ℝ) (hq0 : 0 < q) (hq1 : q < 1)
    (S : Matrix (Fin p) (Fin p) ℂ)
    (hfix : OnlyFixed (fun X init tol iterMax => complexHuberFixedPoint env c X q init tol iterMax) X S)
    (hin : InsideSpans (c.ppf q (2 * p) / 2) X S) :
    WellPosedAt (fun X init tol iterMax => complexHuberFixedPoint env c X q init tol iterMax) X := by
  obtain ⟨hl, hb⟩ := complexHuber_beta_pos hc ⟨hq0, hq1⟩ hp
  obtain ⟨hS, hf⟩ := (onlyFixed_huber_complex env hs c hc hp q hq0 hq1 X S).1 hfix
  refine ⟨S, fun init hi η hη => ?_, fun ε hε => ?_⟩
  · obtain ⟨⟨-, h1⟩, h2⟩ := C161_complex env hs c hc X hp hX q hq0 hq1 S hfix hin init hi
    exact estimateOf_calls h1 h2 hη
  · obtain ⟨δ, hδ, h⟩ := huber_well_posed hl hb hp hX hS hf hε
    refine ⟨δ, hδ, fun Y hY => ?_⟩
    obtain ⟨hYs, Q, hQ, hQf, hd, hQi⟩ := h Y hY
    refine ⟨Q, fun init hi η hη => ?_, hd⟩
    obtain ⟨⟨-, h1⟩, h2⟩ := C161_complex env hs c hc Y hp hYs q hq0 hq1 Q
      ((onlyFixed_huber_complex env hs c hc hp q hq0 hq1 Y Q).2 ⟨hQ, hQf⟩) (hQi hin) init hi
    exact estimateOf_calls h1 h2 hη

/-! ## C162 -/

/-- Without rounding the calls are the ones of the exact model. -/
theorem C162_exact :
    (∀ (env : NumEnv N p ℝ) c X q init tol iterMax,
      huberFixedPointFl env (.exact p ℝ) c X q init tol iterMax =
        huberFixedPoint env c X q init tol iterMax) ∧
    (∀ (env : NumEnv N p ℂ) c X q init tol iterMax,
      complexHuberFixedPointFl env (.exact p ℂ) c X q init tol iterMax =
        complexHuberFixedPoint env c X q init tol iterMax) := by
  refine ⟨fun env c X q init tol iterMax => ?_, fun env c X q init tol iterMax => ?_⟩
  · simp only [huberFixedPointFl, flRunLoop_exact]
    rfl
  · simp only [complexHuberFixedPointFl, flRunLoop_exact]
    rfl

/-- Huber's estimator on real data: if at the fixed point `S` the samples below the threshold span the
space, then its calls are stable under rounding errors, from every positive definite starting point. -/
theorem C162_real (env : NumEnv N p ℝ) (hs : env.eigh.Ok) (c : Chi2) (hc : c.Ok)
    (X : Matrix (Fin N) (Fin p) ℝ) (hp : 0 < p) (hX : Spans X) (q : ℝ) (hq0 : 0 < q) (hq1 : q < 1)
    (S : Matrix (Fin p) (Fin p) ℝ)
    (hfix : OnlyFixed (fun X init tol iterMax => huberFixedPoint env c X q init tol iterMax) X S)
    (hin : InsideSpans (c.ppf q p / 2) X S) (init : Option (Matrix (Fin p) (Fin p) ℝ))
    (hi : ∀ A ∈ init, A.PosDef) :
    StableCalls (fun fl tol iterMax => huberFixedPointFl env fl c X q init tol iterMax) S := by
  obtain ⟨hl, hb⟩ := huber_beta_pos hc ⟨hq0, hq1⟩ hp
  obtain ⟨hS, h⟩ := (onlyFixed_huber_real env hs c hc hp q hq0 hq1 X S).1 hfix
  obtain ⟨r, hr0, hr1, hr⟩ := huber_contracting hl hb X hS h hin
  have := contracting_stable hp hX hS hr hr0 hr1 hi
    (RealEst.isMStep (.huber q) hs hc hp ⟨hq0, hq1⟩ (X := X)).1
  rw [secondMoment_eq, ← empiricalCovariance_eq] at this
  exact this

/-- Complex data. -/
theorem C162_complex (env : NumEnv N p ℂ) (hs : env.eigh.Ok) (c : Chi2) (hc : c.Ok)
    (X : Matrix (Fin N) (Fin p) ℂ) (hp : 0 < p) (hX : Spans X) (q : ℝ) (hq0 : 0 < q) (hq1 : q < 1)
    (S : Matrix (Fin p) (Fin p) ℂ)
    (hfix : OnlyFixed (fun X init tol iterMax => complexHuberFixedPoint env c X q init tol iterMax) X S)
    (hin : InsideSpans (c.ppf q (2 * p) / 2) X S) (init : Option (Matrix (Fin p) (Fin p) ℂ))
    (hi : ∀ A ∈ init, A.PosDef) :
    StableCalls (fun fl tol iterMax => complexHuberFixedPointFl env fl c X q init tol iterMax) S := by
  obtain ⟨hl, hb⟩ := complexHuber_beta_pos hc ⟨hq0, hq1⟩ hp
  obtain ⟨hS, h⟩ := (onlyFixed_huber_complex env hs c hc hp q hq0 hq1 X S).1 hfix
  obtain ⟨r, hr0, hr1, hr⟩ := huber_contracting hl hb X hS h hin
  have := contracting_stable hp hX hS hr hr0 hr1 hi
    (ComplexEst.isMStep (.huber q) hs hc hp ⟨hq0, hq1⟩ (X := X)).1
  rw [secondMoment_eq, ← complexEmpiricalCovariance_eq] at this
  exact this

/-- With rounding errors the call of Huber's estimator stores the matrices one expects. -/
theorem C162_run_real (env : NumEnv N p ℝ) (hs : env.eigh.Ok) (c : Chi2) (hc : c.Ok)
    (X : Matrix (Fin N) (Fin p) ℝ) (hp : 0 < p) (q : ℝ) (hq0 : 0 < q) (hq1 : q < 1)
    (lbda beta : ℝ) (hlbda : lbda = c.ppf q p / 2)
    (hbeta : beta = c.cdf (c.ppf q p) (p + 1) + c.ppf q p * (1 - q) / p)
    (init : Option (Matrix (Fin p) (Fin p) ℝ)) (fl : Rounding p ℝ)
    (A : ℕ → Matrix (Fin p) (Fin p) ℝ) (h0 : A 0 = init.getD (fl.start (secondMoment X)))
    (hA : ∀ k, A (k + 1) = fl.mat k (mStep (wHuber lbda beta) X (A k))) (hP : ∀ k, (A k).PosDef) :
    FollowsRun (fun tol iterMax => huberFixedPointFl env fl c X q init tol iterMax) fl A id := by
  rw [hlbda, hbeta] at hA
  refine followsRun hp (RealEst.isMStep (.huber q) hs hc hp ⟨hq0, hq1⟩ (X := X)).1 hA hP
    fun tol iterMax out h => ?_
  rw [h0, secondMoment_eq, ← empiricalCovariance_eq] at h
  exact h

/-- Complex data. -/
theorem C162_run_complex (env : NumEnv N p ℂ) (hs : env.eigh.Ok) (c : Chi2) (hc : c.Ok)
    (X : Matrix (Fin N) (Fin p) ℂ) (hp : 0 < p) (q : ℝ) (hq0 : 0 < q) (hq1 : q < 1)
    (lbda beta : ℝ) (hlbda : lbda = c.ppf q (2 * p) / 2)
    (hbeta : beta = c.cdf (c.ppf q (2 * p)) (2 * p + 2) + c.ppf q (2 * p) * (1 - q) / (2 * p))
    (init : Option (Matrix (Fin p) (Fin p) ℂ)) (fl : Rounding p ℂ)
    (A : ℕ → Matrix (Fin p) (Fin p) ℂ) (h0 : A 0 = init.getD (fl.start (secondMoment X)))
    (hA : ∀ k, A (k + 1) = fl.mat k (mStep (wHuber lbda beta) X (A k))) (hP : ∀ k, (A k).PosDef) :
    FollowsRun (fun tol iterMax => complexHuberFixedPointFl env fl c X q init tol iterMax) fl A id := by
  rw [hlbda, hbeta] at hA
  refine followsRun hp (ComplexEst.isMStep (.huber q) hs hc hp ⟨hq0, hq1⟩ (X := X)).1 hA hP
    fun tol iterMax out h => ?_
  rw [h0, secondMoment_eq, ← complexEmpiricalCovariance_eq] at h
  exact h

/-- Some rounding errors within `u` keep Huber's estimator from reaching any tolerance below `u / 2`, real
data. -/
theorem C162_floor_real (env : NumEnv N p ℝ) (hs : env.eigh.Ok) (c : Chi2) (hc : c.Ok)
    (X : Matrix (Fin N) (Fin p) ℝ) (hp : 0 < p) (hX : Spans X) (q : ℝ) (hq0 : 0 < q) (hq1 : q < 1)
    (init : Option (Matrix (Fin p) (Fin p) ℝ)) (hi : ∀ A ∈ init, A.PosDef) (u : ℝ) (hu : 0 ≤ u)
    (hu1 : u ≤ 1 / 2) :
    HasFloor (fun fl tol iterMax => huberFixedPointFl env fl c X q init tol iterMax) u := by
  obtain ⟨h1, h2⟩ := RealEst.isMStep (.huber q) hs hc hp ⟨hq0, hq1⟩ (X := X)
  refine mStep_floor (post := id) hp hX h2 hi h1 (fun A hA => ⟨A, rfl, hA⟩)
    (fun fl tol iterMax out h => ?_) hu hu1
  rw [secondMoment_eq, ← empiricalCovariance_eq] at h
  exact h

/-- Complex data. -/
theorem C162_floor_complex (env : NumEnv N p ℂ) (hs : env.eigh.Ok) (c : Chi2) (hc : c.Ok)
    (X : Matrix (Fin N) (Fin p) ℂ) (hp : 0 < p) (hX : Spans X) (q : ℝ) (hq0 : 0 < q) (hq1 : q < 1)
    (init : Option (Matrix (Fin p) (Fin p) ℂ)) (hi : ∀ A ∈ init, A.PosDef) (u : ℝ) (hu : 0 ≤ u)
    (hu1 : u ≤ 1 / 2) :
    HasFloor (fun fl tol iterMax => complexHuberFixedPointFl env fl c X q init tol iterMax) u := by
  obtain ⟨h1, h2⟩ := ComplexEst.isMStep (.huber q) hs hc hp ⟨hq0, hq1⟩ (X := X)
  refine mStep_floor (post := id) hp hX h2 hi h1 (fun A hA => ⟨A, rfl, hA⟩)
    (fun fl tol iterMax out h => ?_) hu hu1
  rw [secondMoment_eq, ← complexEmpiricalCovariance_eq] at h
  exact h

/-! ## Example -/

/-- The hypotheses can be met: two unit vectors. The estimate depends continuously on them, the number of
iterations is logarithmic, and small enough rounding errors do no harm. -/
example (env : NumEnv 2 2 ℝ) (hs : env.eigh.Ok) :
    ∃ S : Matrix (Fin 2) (Fin 2) ℝ,
      OnlyFixed (fun X init tol iterMax => huberFixedPoint env chi2Big X (1 / 2) init tol iterMax)
        (unitSamples ℝ 2 2) S ∧
      WellPosedAt (fun X init tol iterMax => huberFixedPoint env chi2Big X (1 / 2) init tol iterMax)
        (unitSamples ℝ 2 2) ∧
      LogCalls (fun tol iterMax =>
        huberFixedPoint env chi2Big (unitSamples ℝ 2 2) (1 / 2) none tol iterMax) ∧
      StableCalls (fun fl tol iterMax =>
        huberFixedPointFl env fl chi2Big (unitSamples ℝ 2 2) (1 / 2) none tol iterMax) S := by
  obtain ⟨S, hS, h1, h2⟩ := huber_inside_example env hs
  have hsp : Spans (unitSamples ℝ 2 2) := unitSamples_spans le_rfl
  have hq0 : (0 : ℝ) < 1 / 2 := by norm_num
  have hq1 : (1 / 2 : ℝ) < 1 := by norm_num
  have hf := (onlyFixed_huber_real env hs chi2Big chi2Big_ok two_pos (1 / 2) hq0 hq1 _ S).2
    ⟨hS, (run_one_real_eq (.huber (1 / 2)) hs chi2Big_ok two_pos ⟨hq0, hq1⟩ rfl hS 0 S).1 h1⟩
  exact ⟨S, hf, C160_estimate_real env hs chi2Big chi2Big_ok _ two_pos hsp _ hq0 hq1 S hf h2,
    (C161_real env hs chi2Big chi2Big_ok _ two_pos hsp _ hq0 hq1 S hf h2 none (by simp)).1.2,
    C162_real env hs chi2Big chi2Big_ok _ two_pos hsp _ hq0 hq1 S hf h2 none (by simp)⟩

end
end RS
