import Verif.Props.Consist
import Verif.Lemmas.StudentLimits

/-
The parameter `df` of the Student-t estimators: large values give the sample covariance (C151),
small values give Tyler's estimator (C152).
-/
set_option autoImplicit false

namespace RS
open Matrix ComplexOrder

section
variable {N p : ℕ}

private def noChi2d : Chi2 := ⟨fun q _ => q, fun _ _ => 0⟩
private theorem noChi2d_ok : noChi2d.Ok :=
  ⟨fun _ => rfl, fun _ _ h _ _ => h, fun _ _ => le_rfl⟩

/-- From every start the call returns a matrix within `ε` of `S` if `tol` is small enough and
`iter_max` large enough. -/
def RunsNear {𝕜 : Type} [RCLike 𝕜]
    (run : Option (Matrix (Fin p) (Fin p) 𝕜) → ℝ → ℤ → Py (FPOut p 𝕜))
    (S : Matrix (Fin p) (Fin p) 𝕜) (ε : ℝ) : Prop :=
  ∀ init : Option (Matrix (Fin p) (Fin p) 𝕜), (∀ S ∈ init, S.PosDef) →
    ∃ (tol₀ : ℝ) (K : ℕ), 0 < tol₀ ∧ ∀ (tol : ℝ) (iterMax : ℤ), tol ≤ tol₀ → K ≤ iterMax →
      ∃ result delta iteration warned,
        run init tol iterMax = .ok ⟨.fin result, delta, iteration, warned⟩ ∧ frobDist result S < ε

theorem student_runs_real (env : NumEnv N p ℝ) (hs : env.eigh.Ok) {X : Matrix (Fin N) (Fin p) ℝ}
    (hp : 0 < p) (hX : Spans X) {df : ℝ} (hdf : 0 < df) {Q S : Matrix (Fin p) (Fin p) ℝ}
    (hQ : Q.PosDef) (hfix : mStep (wStudent (df / 2) p) X Q = Q) {ε : ℝ} (h : frobDist Q S < ε) :
    RunsNear (studentFixedPoint env X df) S ε := by
  intro init hi
  have hr := (run_one_real_eq (.student df) hs noChi2d_ok hp hdf rfl hQ 0 Q).2 hfix
  obtain ⟨r, C, hr0, hr1, h2⟩ := C83_real env hs X hp hX df hdf Q hQ 0 hr init hi
  obtain ⟨tol₀, K, h3, h4⟩ := C112_real (.student df) env hs noChi2d noChi2d_ok _ hp hX hdf
    init hi Q (fun ε hε => by
      obtain ⟨K, hK⟩ := geometric_small (C := C) hr0 hr1 hε
      refine ⟨K, fun tol iterMax => ?_⟩
      obtain ⟨result, delta, iteration, warned, h5, h6⟩ := h2 tol iterMax
      exact ⟨result, delta, iteration, warned, h5, fun hk => h6.trans_lt (hK iteration hk)⟩)
    (ε - frobDist Q S) (by linarith)
  refine ⟨tol₀, K, h3, fun tol iterMax ht hm => ?_⟩
  obtain ⟨result, delta, iteration, warned, h5, h6⟩ := h4 tol iterMax ht hm
  refine ⟨result, delta, iteration, warned, h5, ?_⟩
  have := frobDist_triangle result Q S
  linarith

theorem student_runs_complex (env : NumEnv N p ℂ) (hs : env.eigh.Ok) {X : Matrix (Fin N) (Fin p) ℂ}
    (hp : 0 < p) (hX : Spans X) {df : ℝ} (hdf : 0 < df) {Q S : Matrix (Fin p) (Fin p) ℂ}
    (hQ : Q.PosDef) (hfix : mStep (wStudent df p) X Q = Q) {ε : ℝ} (h : frobDist Q S < ε) :
    RunsNear (complexStudentFixedPoint env X df) S ε := by
  intro init hi
  have hr := (run_one_complex_eq (.student df) hs noChi2d_ok hp hdf rfl hQ 0 Q).2 hfix
  obtain ⟨r, C, hr0, hr1, h2⟩ := C83_complex env hs X hp hX df hdf Q hQ 0 hr init hi
  obtain ⟨tol₀, K, h3, h4⟩ := C112_complex (.student df) env hs noChi2d noChi2d_ok _ hp hX hdf
    init hi Q (fun ε hε => by
      obtain ⟨K, hK⟩ := geometric_small (C := C) hr0 hr1 hε
      refine ⟨K, fun tol iterMax => ?_⟩
      obtain ⟨result, delta, iteration, warned, h5, h6⟩ := h2 tol iterMax
      exact ⟨result, delta, iteration, warned, h5, fun hk => h6.trans_lt (hK iteration hk)⟩)
    (ε - frobDist Q S) (by linarith)
  refine ⟨tol₀, K, h3, fun tol iterMax ht hm => ?_⟩
  obtain ⟨result, delta, iteration, warned, h5, h6⟩ := h4 tol iterMax ht hm
  refine ⟨result, delta, iteration, warned, h5, ?_⟩
  have := frobDist_triangle result Q S
  linarith

/-! ## C151: large `df` -/

theorem large_df {t ε c : ℝ} (hε : 0 < ε) (ht : 0 ≤ t) (hc : 0 ≤ c) :
    ∃ nu₀ : ℝ, 0 < nu₀ ∧ ∀ nu : ℝ, nu₀ ≤ nu → 2 * c / nu * t < ε := by
  refine ⟨2 * c * t / ε + 1, by positivity, fun nu h => ?_⟩
  have hn : 0 < nu := lt_of_lt_of_le (by positivity) h
  rw [div_mul_eq_mul_div, div_lt_iff₀ hn]
  have h1 : (2 * c * t / ε + 1) * ε ≤ nu * ε := mul_le_mul_of_nonneg_right h hε.le
  rw [add_mul, div_mul_cancel₀ _ hε.ne'] at h1
  linarith

/-- With `df/2 > N - p`, spanning samples have a Student-t estimate (real data). -/
theorem C151_exists_real (env : NumEnv N p ℝ) (hs : env.eigh.Ok) (X : Matrix (Fin N) (Fin p) ℝ)
    (hp : 0 < p) (hX : Spans X) (df : ℝ) (hdf : 0 < df) (h : (N : ℝ) < df / 2 + p) (tol : ℝ) :
    ∃ S : Matrix (Fin p) (Fin p) ℝ, S.PosDef ∧
      Returns (studentFixedPoint env X df (some S) tol 1) S := by
  obtain ⟨S, hS, hfix⟩ := student_exists_large (half_pos hdf) h hX
  exact ⟨S, hS, (run_one_real_eq (.student df) hs noChi2d_ok hp hdf rfl hS tol S).2 hfix⟩

/-- Complex data, `df > N - p`. -/
theorem C151_exists_complex (env : NumEnv N p ℂ) (hs : env.eigh.Ok) (X : Matrix (Fin N) (Fin p) ℂ)
    (hp : 0 < p) (hX : Spans X) (df : ℝ) (hdf : 0 < df) (h : (N : ℝ) < df + p) (tol : ℝ) :
    ∃ S : Matrix (Fin p) (Fin p) ℂ, S.PosDef ∧
      Returns (complexStudentFixedPoint env X df (some S) tol 1) S := by
  obtain ⟨S, hS, hfix⟩ := student_exists_large hdf h hX
  exact ⟨S, hS, (run_one_complex_eq (.student df) hs noChi2d_ok hp hdf rfl hS tol S).2 hfix⟩

/-- The estimate is at most a fraction `2 (N - p)/df` below and `2 p/df` above the sample covariance
`(1/N) sum_i x_i x_i^T`, in the order of positive semi-definite differences (real data). -/
theorem C151_bounds_real (env : NumEnv N p ℝ) (hs : env.eigh.Ok) (X : Matrix (Fin N) (Fin p) ℝ)
    (hp : 0 < p) (df : ℝ) (hdf : 0 < df) (S : Matrix (Fin p) (Fin p) ℝ) (hS : S.PosDef) (tol : ℝ)
    (hfix : Returns (studentFixedPoint env X df (some S) tol 1) S) :
    (S - (1 - 2 * (N - p) / df) • secondMoment X).PosSemidef ∧
      ((1 + 2 * p / df) • secondMoment X - S).PosSemidef := by
  have h := student_near_moment (half_pos hdf) X hS
    ((run_one_real_eq (.student df) hs noChi2d_ok hp hdf rfl hS tol S).1 hfix)
  rw [show ((N : ℝ) - p) / (df / 2) = 2 * (N - p) / df by field_simp,
    show (p : ℝ) / (df / 2) = 2 * p / df by field_simp] at h
  exact h

/-- Complex data. -/
theorem C151_bounds_complex (env : NumEnv N p ℂ) (hs : env.eigh.Ok) (X : Matrix (Fin N) (Fin p) ℂ)
    (hp : 0 < p) (df : ℝ) (hdf : 0 < df) (S : Matrix (Fin p) (Fin p) ℂ) (hS : S.PosDef) (tol : ℝ)
    (hfix : Returns (complexStudentFixedPoint env X df (some S) tol 1) S) :
    (S - ((1 - (N - p) / df : ℝ) : ℂ) • secondMoment X).PosSemidef ∧
      (((1 + p / df : ℝ) : ℂ) • secondMoment X - S).PosSemidef :=
  student_near_moment hdf X hS
    ((run_one_complex_eq (.student df) hs noChi2d_ok hp hdf rfl hS tol S).1 hfix)

/-- The results for large `df` are close to the sample covariance (real data). -/
theorem C151_large_real (env : NumEnv N p ℝ) (hs : env.eigh.Ok) (X : Matrix (Fin N) (Fin p) ℝ)
    (hp : 0 < p) (hX : Spans X) (ε : ℝ) (hε : 0 < ε) :
    ∃ df₀ : ℝ, ∀ df : ℝ, df₀ ≤ df → RunsNear (studentFixedPoint env X df) (secondMoment X) ε := by
  obtain ⟨nu₀, h0, h1⟩ := large_df (t := RCLike.re (secondMoment X).trace) (c := N) hε
    (RCLike.nonneg_iff.1 (secondMoment_posDef hX).posSemidef.trace_nonneg).1 (Nat.cast_nonneg _)
  refine ⟨2 * max nu₀ N, fun df hdf => ?_⟩
  have h2 := le_max_left nu₀ (N : ℝ)
  have h3 := le_max_right nu₀ (N : ℝ)
  have hd : 0 < df := by linarith
  obtain ⟨Q, hQ, hfix⟩ := student_exists_large (half_pos hd) (X := X) (by
    have : (0 : ℝ) < p := by exact_mod_cast hp
    linarith) hX
  refine student_runs_real env hs hp hX hd hQ hfix ?_
  rw [frobDist_eq]
  exact (student_near_moment_frob (half_pos hd) (spans_card hX) X hQ hfix).trans_lt
    (h1 _ (by linarith))

/-- Complex data. -/
theorem C151_large_complex (env : NumEnv N p ℂ) (hs : env.eigh.Ok) (X : Matrix (Fin N) (Fin p) ℂ)
    (hp : 0 < p) (hX : Spans X) (ε : ℝ) (hε : 0 < ε) :
    ∃ df₀ : ℝ, ∀ df : ℝ, df₀ ≤ df →
      RunsNear (complexStudentFixedPoint env X df) (secondMoment X) ε := by
  obtain ⟨nu₀, h0, h1⟩ := large_df (t := RCLike.re (secondMoment X).trace) (c := N) hε
    (RCLike.nonneg_iff.1 (secondMoment_posDef hX).posSemidef.trace_nonneg).1 (Nat.cast_nonneg _)
  refine ⟨max nu₀ N, fun df hdf => ?_⟩
  have h2 := le_max_left nu₀ (N : ℝ)
  have h3 := le_max_right nu₀ (N : ℝ)
  have hd : 0 < df := by linarith
  obtain ⟨Q, hQ, hfix⟩ := student_exists_large hd (X := X) (by
    have : (0 : ℝ) < p := by exact_mod_cast hp
    linarith) hX
  refine student_runs_complex env hs hp hX hd hQ hfix ?_
  rw [frobDist_eq]
  exact (student_near_moment_frob hd (spans_card hX) X hQ hfix).trans_lt (h1 _ (by linarith))

/-- The hypotheses of C151 are met by three directions at 120 degrees, with `df = 4`. -/
example (env : NumEnv 3 2 ℝ) (hs : env.eigh.Ok) :
    Spans (mercedes ℝ) ∧ ∃ S : Matrix (Fin 2) (Fin 2) ℝ, S.PosDef ∧
      Returns (studentFixedPoint env (mercedes ℝ) 4 (some S) 0 1) S := by
  have hg := mercedes_generalPosition
  have hsp := tyler_spans (by norm_num) _ (generalPosition_nonzero hg (by norm_num))
    (generalPosition_tyler hg (by norm_num))
  exact ⟨hsp, C151_exists_real env hs _ (by norm_num) hsp 4 (by norm_num) (by norm_num) 0⟩

/-! ## C152: small `df` -/

/-- Whatever `df`, the Student-t estimate `S` is between the multiples `min_i q_i / p` and
`max_i q_i / p` of any Tyler estimate `T`, with `q_i = x_i^T T⁻¹ x_i` (real data). -/
theorem C152_bounds_real (env : NumEnv N p ℝ) (hs : env.eigh.Ok) (X : Matrix (Fin N) (Fin p) ℝ)
    (hp : 0 < p) (hX : Spans X) (hn : NonzeroSamples X) (df : ℝ) (hdf : 0 < df)
    (S T : Matrix (Fin p) (Fin p) ℝ) (hS : S.PosDef) (hT : T.PosDef) (tol tol' : ℝ)
    (hfix : Returns (studentFixedPoint env X df (some S) tol 1) S)
    (hfixT : Returns (tylerFixedPoint env X (some T) tol' 1 "None") T) (a b : ℝ) (ha : 0 < a)
    (hb : 0 < b) (h1 : ∀ i, a * p ≤ qf T (sample X i)) (h2 : ∀ i, qf T (sample X i) ≤ b * p) :
    (S - a • T).PosSemidef ∧ (b • T - S).PosSemidef :=
  student_near_tyler (half_pos hdf) hX hn hS hT
    ((run_one_real_eq (.student df) hs noChi2d_ok hp hdf rfl hS tol S).1 hfix)
    ((run_one_real_eq (.tyler "None") hs noChi2d_ok hp hn rfl hT tol' T).1 hfixT) ha hb h1 h2

/-- Complex data. -/
theorem C152_bounds_complex (env : NumEnv N p ℂ) (hs : env.eigh.Ok) (X : Matrix (Fin N) (Fin p) ℂ)
    (hp : 0 < p) (hX : Spans X) (hn : NonzeroSamples X) (df : ℝ) (hdf : 0 < df)
    (S T : Matrix (Fin p) (Fin p) ℂ) (hS : S.PosDef) (hT : T.PosDef) (tol tol' : ℝ)
    (hfix : Returns (complexStudentFixedPoint env X df (some S) tol 1) S)
    (hfixT : Returns (complexTylerFixedPoint env X (some T) tol' 1 "None") T) (a b : ℝ) (ha : 0 < a)
    (hb : 0 < b) (h1 : ∀ i, a * p ≤ qf T (sample X i)) (h2 : ∀ i, qf T (sample X i) ≤ b * p) :
    (S - (a : ℂ) • T).PosSemidef ∧ ((b : ℂ) • T - S).PosSemidef :=
  student_near_tyler hdf hX hn hS hT
    ((run_one_complex_eq (.student df) hs noChi2d_ok hp hdf rfl hS tol S).1 hfix)
    ((run_one_complex_eq (.tyler "None") hs noChi2d_ok hp hn rfl hT tol' T).1 hfixT) ha hb h1 h2

/-- Data with a Tyler estimate unique up to scale (C101): the results for small `df` are close to
`c T`, where `T` is a Tyler estimate and the scale is such that the mean of `p / (x_i^T (c T)⁻¹ x_i)`
is one (real data). -/
theorem C152_small_real (env : NumEnv N p ℝ) (hs : env.eigh.Ok) (X : Matrix (Fin N) (Fin p) ℝ)
    (hN : 0 < N) (hp : 0 < p) (hn : NonzeroSamples X)
    (hX : ∀ V : Submodule ℝ (Fin p → ℝ), V ≠ ⊥ → V ≠ ⊤ →
      p * samplesIn X V < N * Module.finrank ℝ V)
    (T : Matrix (Fin p) (Fin p) ℝ) (hT : T.PosDef) (tol : ℝ)
    (hfixT : Returns (tylerFixedPoint env X (some T) tol 1 "None") T) (ε : ℝ) (hε : 0 < ε) :
    ∃ df₀ : ℝ, 0 < df₀ ∧ ∀ df : ℝ, 0 < df → df ≤ df₀ →
      RunsNear (studentFixedPoint env X df)
        ((N / (p * ∑ i, (qf T (sample X i))⁻¹) : ℝ) • T) ε := by
  have hfT := (run_one_real_eq (.tyler "None") hs noChi2d_ok hp hn rfl hT tol T).1 hfixT
  have hsp := tyler_spans hN X hn hX
  obtain ⟨δ, hδ, h⟩ := student_small hN hp hsp hn (count_indecomposable X hX) hT hfT hε
  refine ⟨2 * δ, by linarith, fun df hd hle => ?_⟩
  obtain ⟨Q, hQ, hfix⟩ := student_exists_of_tyler (half_pos hd) hp hn hT hfT
  refine student_runs_real env hs hp hsp hd hQ hfix ?_
  rw [frobDist_eq]
  exact h _ (half_pos hd) (by linarith) Q hQ hfix

/-- Complex data. -/
theorem C152_small_complex (env : NumEnv N p ℂ) (hs : env.eigh.Ok) (X : Matrix (Fin N) (Fin p) ℂ)
    (hN : 0 < N) (hp : 0 < p) (hn : NonzeroSamples X)
    (hX : ∀ V : Submodule ℂ (Fin p → ℂ), V ≠ ⊥ → V ≠ ⊤ →
      p * samplesIn X V < N * Module.finrank ℂ V)
    (T : Matrix (Fin p) (Fin p) ℂ) (hT : T.PosDef) (tol : ℝ)
    (hfixT : Returns (complexTylerFixedPoint env X (some T) tol 1 "None") T) (ε : ℝ) (hε : 0 < ε) :
    ∃ df₀ : ℝ, 0 < df₀ ∧ ∀ df : ℝ, 0 < df → df ≤ df₀ →
      RunsNear (complexStudentFixedPoint env X df)
        (((N / (p * ∑ i, (qf T (sample X i))⁻¹) : ℝ) : ℂ) • T) ε := by
  have hfT := (run_one_complex_eq (.tyler "None") hs noChi2d_ok hp hn rfl hT tol T).1 hfixT
  have hsp := tyler_spans hN X hn hX
  obtain ⟨δ, hδ, h⟩ := student_small hN hp hsp hn (count_indecomposable X hX) hT hfT hε
  refine ⟨δ, hδ, fun df hd hle => ?_⟩
  obtain ⟨Q, hQ, hfix⟩ := student_exists_of_tyler hd hp hn hT hfT
  refine student_runs_complex env hs hp hsp hd hQ hfix ?_
  rw [frobDist_eq]
  exact h _ hd hle Q hQ hfix

/-- The hypotheses of C152 are met by three directions at 120 degrees. -/
example (env : NumEnv 3 2 ℝ) (hs : env.eigh.Ok) :
    NonzeroSamples (mercedes ℝ) ∧ (∀ V : Submodule ℝ (Fin 2 → ℝ), V ≠ ⊥ → V ≠ ⊤ →
      2 * samplesIn (mercedes ℝ) V < 3 * Module.finrank ℝ V) ∧
    ∃ T : Matrix (Fin 2) (Fin 2) ℝ, T.PosDef ∧
      Returns (tylerFixedPoint env (mercedes ℝ) (some T) 0 1 "None") T := by
  have hg := mercedes_generalPosition
  have hn := generalPosition_nonzero hg (by norm_num)
  have hc := generalPosition_tyler hg (by norm_num)
  obtain ⟨T, hT, h, -⟩ := (C101_real env hs _ (by norm_num) (by norm_num) hn 0).2 hc
  exact ⟨hn, hc, T, hT, h⟩

end
end RS
