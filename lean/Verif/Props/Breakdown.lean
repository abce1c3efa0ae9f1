import Verif.Lemmas.BreakdownTyler
import Verif.Props.Tolerance

/-!
How many wrong samples the estimators withstand: Student-t (C126), Huber (C127), Tyler (C128).
-/
set_option autoImplicit false

namespace RS
open Matrix ComplexOrder

section
variable {N p : ℕ}

private def noChi2b : Chi2 := ⟨fun q _ => q, fun _ _ => 0⟩
private theorem noChi2b_ok : noChi2b.Ok :=
  ⟨fun _ => rfl, fun _ _ h _ _ => h, fun _ _ => le_rfl⟩

/-! ## C126: Student-t -/

/-- Real data in general position, `nu = df/2`: there are bounds for the eigenvalues of the estimate
that hold for all replacements of `m` samples if and only if `m (nu + p) < N` and
`m (nu + p) < nu N`. An estimate is a positive definite matrix that one iteration reproduces. -/
theorem C126_real (env : NumEnv N p ℝ) (hs : env.eigh.Ok) (X : Matrix (Fin N) (Fin p) ℝ)
    (hp : 0 < p) (hN : p < N) (hX : GeneralPosition X) (df : ℝ) (hdf : 0 < df) (tol : ℝ) (m : ℕ) :
    (∃ a b : ℝ, 0 < a ∧ 0 < b ∧ ∀ X', Contaminated m X X' → ∃ S : Matrix (Fin p) (Fin p) ℝ,
      S.PosDef ∧ Returns (studentFixedPoint env X' df (some S) tol 1) S ∧ EigenGe a S ∧ EigenLe b S) ↔
    m * (df / 2 + p) < N ∧ m * (df / 2 + p) < df / 2 * N := by
  rw [← student_breakdown (half_pos hdf) hp hX hN m]
  have hr : ∀ (X' : Matrix (Fin N) (Fin p) ℝ) (S : Matrix (Fin p) (Fin p) ℝ), S.PosDef →
      (Returns (studentFixedPoint env X' df (some S) tol 1) S ↔
        mStep (wStudent (df / 2) p) X' S = S) :=
    fun X' S hS => run_one_real_eq (.student df) hs noChi2b_ok hp hdf rfl hS tol S
  constructor
  · rintro ⟨a, b, ha, hb, h⟩
    refine ⟨a, b, ha, hb, fun X' hX' => ?_⟩
    obtain ⟨S, hS, h1, h2⟩ := h X' hX'
    exact ⟨S, hS, (hr X' S hS).1 h1, h2⟩
  · rintro ⟨a, b, ha, hb, h⟩
    refine ⟨a, b, ha, hb, fun X' hX' => ?_⟩
    obtain ⟨S, hS, h1, h2⟩ := h X' hX'
    exact ⟨S, hS, (hr X' S hS).2 h1, h2⟩

/-- Complex data, `nu = df`. -/
theorem C126_complex (env : NumEnv N p ℂ) (hs : env.eigh.Ok) (X : Matrix (Fin N) (Fin p) ℂ)
    (hp : 0 < p) (hN : p < N) (hX : GeneralPosition X) (df : ℝ) (hdf : 0 < df) (tol : ℝ) (m : ℕ) :
    (∃ a b : ℝ, 0 < a ∧ 0 < b ∧ ∀ X', Contaminated m X X' → ∃ S : Matrix (Fin p) (Fin p) ℂ,
      S.PosDef ∧ Returns (complexStudentFixedPoint env X' df (some S) tol 1) S ∧ EigenGe a S ∧
        EigenLe b S) ↔
    m * (df + p) < N ∧ m * (df + p) < df * N := by
  have hh := student_breakdown hdf hp hX hN m
  have hr : ∀ (X' : Matrix (Fin N) (Fin p) ℂ) (S : Matrix (Fin p) (Fin p) ℂ), S.PosDef →
      (Returns (complexStudentFixedPoint env X' df (some S) tol 1) S ↔
        mStep (wStudent df p) X' S = S) :=
    fun X' S hS => run_one_complex_eq (.student df) hs noChi2b_ok hp hdf rfl hS tol S
  refine Iff.trans ?_ hh
  constructor
  · rintro ⟨a, b, ha, hb, h⟩
    refine ⟨a, b, ha, hb, fun X' hX' => ?_⟩
    obtain ⟨S, hS, h1, h2⟩ := h X' hX'
    exact ⟨S, hS, (hr X' S hS).1 h1, h2⟩
  · rintro ⟨a, b, ha, hb, h⟩
    refine ⟨a, b, ha, hb, fun X' hX' => ?_⟩
    obtain ⟨S, hS, h1, h2⟩ := h X' hX'
    exact ⟨S, hS, (hr X' S hS).2 h1, h2⟩

/-- Real data: what this means for a call. Whatever the `m` wrong samples are, from every start the
results tend to a matrix within fixed bounds. -/
theorem C126_run_real (env : NumEnv N p ℝ) (hs : env.eigh.Ok) (X : Matrix (Fin N) (Fin p) ℝ)
    (hp : 0 < p) (hN : p < N) (hX : GeneralPosition X) (df : ℝ) (hdf : 0 < df) (m : ℕ)
    (h1 : m * (df / 2 + p) < N) (h2 : m * (df / 2 + p) < df / 2 * N) :
    ∃ a b : ℝ, 0 < a ∧ 0 < b ∧ ∀ X', Contaminated m X X' → ∃ S : Matrix (Fin p) (Fin p) ℝ,
      EigenGe a S ∧ EigenLe b S ∧ ∀ init : Option (Matrix (Fin p) (Fin p) ℝ),
      (∀ S ∈ init, S.PosDef) → ∀ ε : ℝ, 0 < ε → ∃ (tol₀ : ℝ) (K : ℕ), 0 < tol₀ ∧
        ∀ (tol : ℝ) (iterMax : ℤ), tol ≤ tol₀ → K ≤ iterMax → ∃ result delta iteration warned,
          studentFixedPoint env X' df init tol iterMax =
            .ok ⟨.fin result, delta, iteration, warned⟩ ∧ frobDist result S < ε := by
  obtain ⟨a, b, ha, hb, h⟩ := (C126_real env hs X hp hN hX df hdf 0 m).2 ⟨h1, h2⟩
  refine ⟨a, b, ha, hb, fun X' hX' => ?_⟩
  obtain ⟨S, hS, hfix, h3, h4⟩ := h X' hX'
  have hsp := student_spans X' (student_exists_contaminated (half_pos hdf) hX hN.le h1 h2 hX')
  refine ⟨S, h3, h4, fun init hi => C112_real (.student df) env hs noChi2b noChi2b_ok X' hp hsp hdf
    init hi S fun ε hε => ?_⟩
  obtain ⟨r, C, hr0, hr1, hr⟩ := C83_real env hs X' hp hsp df hdf S hS 0 hfix init hi
  obtain ⟨K, hK⟩ := geometric_small (C := C) hr0 hr1 hε
  refine ⟨K, fun tol iterMax => ?_⟩
  obtain ⟨result, delta, iteration, warned, h5, h6⟩ := hr tol iterMax
  exact ⟨result, delta, iteration, warned, h5, fun hk => h6.trans_lt (hK iteration hk)⟩

/-- Complex data. -/
theorem C126_run_complex (env : NumEnv N p ℂ) (hs : env.eigh.Ok) (X : Matrix (Fin N) (Fin p) ℂ)
    (hp : 0 < p) (hN : p < N) (hX : GeneralPosition X) (df : ℝ) (hdf : 0 < df) (m : ℕ)
    (h1 : m * (df + p) < N) (h2 : m * (df + p) < df * N) :
    ∃ a b : ℝ, 0 < a ∧ 0 < b ∧ ∀ X', Contaminated m X X' → ∃ S : Matrix (Fin p) (Fin p) ℂ,
      EigenGe a S ∧ EigenLe b S ∧ ∀ init : Option (Matrix (Fin p) (Fin p) ℂ),
      (∀ S ∈ init, S.PosDef) → ∀ ε : ℝ, 0 < ε → ∃ (tol₀ : ℝ) (K : ℕ), 0 < tol₀ ∧
        ∀ (tol : ℝ) (iterMax : ℤ), tol ≤ tol₀ → K ≤ iterMax → ∃ result delta iteration warned,
          complexStudentFixedPoint env X' df init tol iterMax =
            .ok ⟨.fin result, delta, iteration, warned⟩ ∧ frobDist result S < ε := by
  obtain ⟨a, b, ha, hb, h⟩ := (C126_complex env hs X hp hN hX df hdf 0 m).2 ⟨h1, h2⟩
  refine ⟨a, b, ha, hb, fun X' hX' => ?_⟩
  obtain ⟨S, hS, hfix, h3, h4⟩ := h X' hX'
  have hsp := student_spans X' (student_exists_contaminated hdf hX hN.le h1 h2 hX')
  refine ⟨S, h3, h4, fun init hi => C112_complex (.student df) env hs noChi2b noChi2b_ok X' hp hsp hdf
    init hi S fun ε hε => ?_⟩
  obtain ⟨r, C, hr0, hr1, hr⟩ := C83_complex env hs X' hp hsp df hdf S hS 0 hfix init hi
  obtain ⟨K, hK⟩ := geometric_small (C := C) hr0 hr1 hε
  refine ⟨K, fun tol iterMax => ?_⟩
  obtain ⟨result, delta, iteration, warned, h5, h6⟩ := hr tol iterMax
  exact ⟨result, delta, iteration, warned, h5, fun hk => h6.trans_lt (hK iteration hk)⟩

/-- Real data: when `m (nu + p) >= nu N`, scaling down `m` of the samples takes the smallest
eigenvalue of the estimate below any bound; the estimate still exists and the calls tend to it. -/
theorem C126_implodes_real (env : NumEnv N p ℝ) (hs : env.eigh.Ok) (X : Matrix (Fin N) (Fin p) ℝ)
    (hp : 0 < p) (hN : p < N) (hX : GeneralPosition X) (df : ℝ) (hdf : 0 < df) (J : Finset (Fin N))
    (h2 : df / 2 * N ≤ J.card * (df / 2 + p)) (a : ℝ) (ha : 0 < a) :
    ∃ X', (∀ i, i ∉ J → sample X' i = sample X i) ∧ ∃ S : Matrix (Fin p) (Fin p) ℝ,
      S.PosDef ∧ ¬ EigenGe a S ∧ ∀ init : Option (Matrix (Fin p) (Fin p) ℝ),
      (∀ S ∈ init, S.PosDef) → ∀ ε : ℝ, 0 < ε → ∃ (tol₀ : ℝ) (K : ℕ), 0 < tol₀ ∧
        ∀ (tol : ℝ) (iterMax : ℤ), tol ≤ tol₀ → K ≤ iterMax → ∃ result delta iteration warned,
          studentFixedPoint env X' df init tol iterMax =
            .ok ⟨.fin result, delta, iteration, warned⟩ ∧ frobDist result S < ε := by
  obtain ⟨r, hr, h⟩ := student_implodes (half_pos hdf) X (hp.trans hN) h2 hp ha
  have hX' := generalPosition_scaleRows hX J hr.ne'
  refine ⟨scaleRows J r X, fun i hi => scaleRows_not_mem r X hi, ?_⟩
  have H := generalPosition_student hX' hN.le (half_pos hdf)
  have hsp := student_spans _ H
  obtain ⟨S, hS, hfix⟩ := student_exists (half_pos hdf) hp _ H
  have hfix' := (run_one_real_eq (.student df) hs noChi2b_ok hp hdf rfl hS 0 S).2 hfix
  refine ⟨S, hS, fun hge => h r hr le_rfl S hS hfix (loewner_of_eigenGe hS.isHermitian hge),
    fun init hi => C112_real (.student df) env hs noChi2b noChi2b_ok _ hp hsp hdf
    init hi S fun ε hε => ?_⟩
  obtain ⟨r, C, hr0, hr1, hr⟩ := C83_real env hs _ hp hsp df hdf S hS 0 hfix' init hi
  obtain ⟨K, hK⟩ := geometric_small (C := C) hr0 hr1 hε
  refine ⟨K, fun tol iterMax => ?_⟩
  obtain ⟨result, delta, iteration, warned, h5, h6⟩ := hr tol iterMax
  exact ⟨result, delta, iteration, warned, h5, fun hk => h6.trans_lt (hK iteration hk)⟩

/-- Complex data. -/
theorem C126_implodes_complex (env : NumEnv N p ℂ) (hs : env.eigh.Ok) (X : Matrix (Fin N) (Fin p) ℂ)
    (hp : 0 < p) (hN : p < N) (hX : GeneralPosition X) (df : ℝ) (hdf : 0 < df) (J : Finset (Fin N))
    (h2 : df * N ≤ J.card * (df + p)) (a : ℝ) (ha : 0 < a) :
    ∃ X', (∀ i, i ∉ J → sample X' i = sample X i) ∧ ∃ S : Matrix (Fin p) (Fin p) ℂ,
      S.PosDef ∧ ¬ EigenGe a S ∧ ∀ init : Option (Matrix (Fin p) (Fin p) ℂ),
      (∀ S ∈ init, S.PosDef) → ∀ ε : ℝ, 0 < ε → ∃ (tol₀ : ℝ) (K : ℕ), 0 < tol₀ ∧
        ∀ (tol : ℝ) (iterMax : ℤ), tol ≤ tol₀ → K ≤ iterMax → ∃ result delta iteration warned,
          complexStudentFixedPoint env X' df init tol iterMax =
            .ok ⟨.fin result, delta, iteration, warned⟩ ∧ frobDist result S < ε := by
  obtain ⟨r, hr, h⟩ := student_implodes hdf X (hp.trans hN) h2 hp ha
  have hX' := generalPosition_scaleRows hX J hr.ne'
  refine ⟨scaleRows J r X, fun i hi => scaleRows_not_mem r X hi, ?_⟩
  have H := generalPosition_student hX' hN.le hdf
  have hsp := student_spans _ H
  obtain ⟨S, hS, hfix⟩ := student_exists hdf hp _ H
  have hfix' := (run_one_complex_eq (.student df) hs noChi2b_ok hp hdf rfl hS 0 S).2 hfix
  refine ⟨S, hS, fun hge => h r hr le_rfl S hS hfix (loewner_of_eigenGe hS.isHermitian hge),
    fun init hi => C112_complex (.student df) env hs noChi2b noChi2b_ok _ hp hsp hdf
    init hi S fun ε hε => ?_⟩
  obtain ⟨r, C, hr0, hr1, hr⟩ := C83_complex env hs _ hp hsp df hdf S hS 0 hfix' init hi
  obtain ⟨K, hK⟩ := geometric_small (C := C) hr0 hr1 hε
  refine ⟨K, fun tol iterMax => ?_⟩
  obtain ⟨result, delta, iteration, warned, h5, h6⟩ := hr tol iterMax
  exact ⟨result, delta, iteration, warned, h5, fun hk => h6.trans_lt (hK iteration hk)⟩

/-- Real data: when `m (nu + p) >= N`, `m` copies of a multiple of another sample take the largest
eigenvalue of every estimate above any bound. -/
theorem C126_explodes_real (env : NumEnv N p ℝ) (hs : env.eigh.Ok) (X : Matrix (Fin N) (Fin p) ℝ)
    (hp : 0 < p) (df : ℝ) (hdf : 0 < df) (J : Finset (Fin N))
    (h2 : N ≤ J.card * (df / 2 + p)) (i₀ : Fin N) (hi₀ : i₀ ∉ J) (hx : sample X i₀ ≠ 0) (b : ℝ)
    (hb : 0 < b) :
    ∃ r : ℝ, ∀ X', (∀ i, i ∉ J → sample X' i = sample X i) → (∀ i ∈ J, sample X' i = r • sample X i₀) →
      ∀ (S : Matrix (Fin p) (Fin p) ℝ) (tol : ℝ), S.PosDef →
        Returns (studentFixedPoint env X' df (some S) tol 1) S → ¬ EigenLe b S := by
  obtain ⟨r, -, h⟩ := student_explodes (half_pos hdf) X hp h2 hi₀ hx hb
  refine ⟨r, fun X' hX' hJ S tol hS hfix hle => ?_⟩
  have e : X' = putRows J ((r : ℝ) • sample X i₀) X := by
    ext i j
    by_cases hi : i ∈ J
    · exact (congrFun (hJ i hi) j).trans (congrFun (putRows_mem _ X hi) j).symm
    · exact (congrFun (hX' i hi) j).trans (congrFun (putRows_not_mem _ X hi) j).symm
  have h3 := (run_one_real_eq (.student df) hs noChi2b_ok hp hdf rfl hS tol S).1 hfix
  rw [e] at h3
  exact h r le_rfl S hS h3 (loewner_of_eigenLe hS.isHermitian hle)

/-- Complex data. -/
theorem C126_explodes_complex (env : NumEnv N p ℂ) (hs : env.eigh.Ok) (X : Matrix (Fin N) (Fin p) ℂ)
    (hp : 0 < p) (df : ℝ) (hdf : 0 < df) (J : Finset (Fin N))
    (h2 : N ≤ J.card * (df + p)) (i₀ : Fin N) (hi₀ : i₀ ∉ J) (hx : sample X i₀ ≠ 0) (b : ℝ)
    (hb : 0 < b) :
    ∃ r : ℝ, ∀ X', (∀ i, i ∉ J → sample X' i = sample X i) →
      (∀ i ∈ J, sample X' i = (r : ℂ) • sample X i₀) →
      ∀ (S : Matrix (Fin p) (Fin p) ℂ) (tol : ℝ), S.PosDef →
        Returns (complexStudentFixedPoint env X' df (some S) tol 1) S → ¬ EigenLe b S := by
  obtain ⟨r, -, h⟩ := student_explodes hdf X hp h2 hi₀ hx hb
  refine ⟨r, fun X' hX' hJ S tol hS hfix hle => ?_⟩
  have e : X' = putRows J ((r : ℂ) • sample X i₀) X := by
    ext i j
    by_cases hi : i ∈ J
    · exact (congrFun (hJ i hi) j).trans (congrFun (putRows_mem _ X hi) j).symm
    · exact (congrFun (hX' i hi) j).trans (congrFun (putRows_not_mem _ X hi) j).symm
  have h3 := (run_one_complex_eq (.student df) hs noChi2b_ok hp hdf rfl hS tol S).1 hfix
  rw [e] at h3
  exact h r le_rfl S hS h3 (loewner_of_eigenLe hS.isHermitian hle)

/-! ## C127: Huber -/

theorem spans_scaleRows {𝕜 : Type} [RCLike 𝕜] {X : Matrix (Fin N) (Fin p) 𝕜} (h : Spans X)
    (J : Finset (Fin N)) {r : ℝ} (hr : r ≠ 0) : Spans (scaleRows J r X) := fun v hv => h v fun i => by
  have h1 := hv i
  by_cases hi : i ∈ J
  · rw [scaleRows_mem r X hi] at h1
    rw [star_smul, smul_dotProduct, RCLike.star_def, RCLike.conj_ofReal, smul_eq_mul,
      mul_eq_zero] at h1
    exact h1.resolve_left (by exact_mod_cast hr)
  · rwa [scaleRows_not_mem r X hi] at h1

theorem huber_row_large {𝕜 : Type} [RCLike 𝕜] {beta : ℝ} (hb : 0 < beta) (hN : 0 < N)
    {x : Fin p → 𝕜} (hx : x ≠ 0) (b : ℝ) :
    ∃ r : ℝ, 0 < r ∧ ∀ y : Fin p → 𝕜, y = (r : 𝕜) • x →
      b * ∑ j, ‖y j‖ ^ 2 < beta / N * (∑ j, ‖y j‖ ^ 2) ^ 2 := by
  have hN' : (0 : ℝ) < N := by exact_mod_cast hN
  have hs : 0 < ∑ j, ‖x j‖ ^ 2 := by
    have := qf_pos PosDef.one hx
    rwa [qf_one] at this
  set s := ∑ j, ‖x j‖ ^ 2
  set t : ℝ := |b| * N / (beta * s) with ht
  have ht0 : 0 ≤ t := by positivity
  refine ⟨t + 1, by linarith, ?_⟩
  rintro y rfl
  have e : ∑ j, ‖(((t + 1 : ℝ) : 𝕜) • x) j‖ ^ 2 = (t + 1) ^ 2 * s := by
    rw [Finset.mul_sum]
    refine Finset.sum_congr rfl fun j _ => ?_
    rw [Pi.smul_apply, smul_eq_mul, norm_mul, mul_pow, RCLike.norm_ofReal, sq_abs]
  rw [e]
  have h1 : |b| < beta / N * ((t + 1) ^ 2 * s) := by
    have h2 : |b| = beta / N * (t * s) := by rw [ht]; field_simp
    rw [h2]
    apply mul_lt_mul_of_pos_left _ (by positivity)
    apply mul_lt_mul_of_pos_right _ hs
    nlinarith
  have h3 : 0 < (t + 1) ^ 2 * s := by positivity
  calc b * ((t + 1) ^ 2 * s) ≤ |b| * ((t + 1) ^ 2 * s) :=
        mul_le_mul_of_nonneg_right (le_abs_self b) h3.le
    _ < beta / N * ((t + 1) ^ 2 * s) * ((t + 1) ^ 2 * s) := mul_lt_mul_of_pos_right h1 h3
    _ = _ := by ring

/-- One wrong sample takes the Huber estimate of real data beyond any bound: whatever the start, the
tolerance and the (positive) number of iterations, the result has an eigenvalue above `b`. So the
claim that the estimate stays bounded under one wrong sample is false. -/
theorem C127_real_violated (env : NumEnv N p ℝ) (hs : env.eigh.Ok) (c : Chi2) (hc : c.Ok)
    (X : Matrix (Fin N) (Fin p) ℝ) (hp : 0 < p) (hX : Spans X) (q : ℝ) (hq0 : 0 < q) (hq1 : q < 1)
    (i : Fin N) (hx : sample X i ≠ 0) (b : ℝ) :
    ∃ X', (∀ k, k ≠ i → sample X' k = sample X k) ∧
      ∀ init : Option (Matrix (Fin p) (Fin p) ℝ), (∀ S ∈ init, S.PosDef) →
      ∀ (tol : ℝ) (iterMax : ℤ), 1 ≤ iterMax → ∃ result delta iteration warned,
        huberFixedPoint env c X' q init tol iterMax =
          .ok ⟨.fin result, delta, iteration, warned⟩ ∧ ¬ EigenLe b result := by
  obtain ⟨hl, hb⟩ := huber_beta_pos hc ⟨hq0, hq1⟩ hp
  obtain ⟨r, hr, hlarge⟩ := huber_row_large hb (Fin.pos i) hx b
  have hsp := spans_scaleRows hX {i} hr.ne'
  refine ⟨scaleRows {i} r X, fun k hk => scaleRows_not_mem r X (by simpa using hk),
    fun init hi tol iterMax hit => ?_⟩
  obtain ⟨sigma, result, delta, iteration, h1, h2, h3, h4⟩ := C34_real (.huber q) env hs c hc
    _ hp hsp ⟨hq0, hq1⟩ init hi tol iterMax
  have h5 : result = sigma :=
    FMat.fin.inj (h3.symm.trans (C30_none "None" (by decide +kernel) (.fin sigma)))
  refine ⟨result, delta, iteration, _, h1, fun hle => ?_⟩
  have h6 : iteration ≠ 0 := fun e => h2.stopped (by rw [e]; push_cast; omega) (by
    rw [h2.err_zero e]; trivial)
  obtain ⟨k, rfl⟩ := Nat.exists_eq_succ_of_ne_zero h6
  rw [h5, h2.result] at hle
  change EigenLe b (mStep (wHuber _ _) _ _) at hle
  have h8 := hle (sample (scaleRows {i} r X) i)
  have h9 := hlarge (sample (scaleRows {i} r X) i) (scaleRows_mem r X (by simp))
  exact absurd ((huber_step_large hb _ _ i).trans h8) (not_le.2 h9)

/-- Complex data. -/
theorem C127_complex_violated (env : NumEnv N p ℂ) (hs : env.eigh.Ok) (c : Chi2) (hc : c.Ok)
    (X : Matrix (Fin N) (Fin p) ℂ) (hp : 0 < p) (hX : Spans X) (q : ℝ) (hq0 : 0 < q) (hq1 : q < 1)
    (i : Fin N) (hx : sample X i ≠ 0) (b : ℝ) :
    ∃ X', (∀ k, k ≠ i → sample X' k = sample X k) ∧
      ∀ init : Option (Matrix (Fin p) (Fin p) ℂ), (∀ S ∈ init, S.PosDef) →
      ∀ (tol : ℝ) (iterMax : ℤ), 1 ≤ iterMax → ∃ result delta iteration warned,
        complexHuberFixedPoint env c X' q init tol iterMax =
          .ok ⟨.fin result, delta, iteration, warned⟩ ∧ ¬ EigenLe b result := by
  obtain ⟨hl, hb⟩ := complexHuber_beta_pos hc ⟨hq0, hq1⟩ hp
  obtain ⟨r, hr, hlarge⟩ := huber_row_large hb (Fin.pos i) hx b
  have hsp := spans_scaleRows hX {i} hr.ne'
  refine ⟨scaleRows {i} r X, fun k hk => scaleRows_not_mem r X (by simpa using hk),
    fun init hi tol iterMax hit => ?_⟩
  obtain ⟨sigma, result, delta, iteration, h1, h2, h3, h4⟩ := C34_complex (.huber q) env hs c hc
    _ hp hsp ⟨hq0, hq1⟩ init hi tol iterMax
  have h5 : result = sigma :=
    FMat.fin.inj (h3.symm.trans (C30_none "None" (by decide +kernel) (.fin sigma)))
  refine ⟨result, delta, iteration, _, h1, fun hle => ?_⟩
  have h6 : iteration ≠ 0 := fun e => h2.stopped (by rw [e]; push_cast; omega) (by
    rw [h2.err_zero e]; trivial)
  obtain ⟨k, rfl⟩ := Nat.exists_eq_succ_of_ne_zero h6
  rw [h5, h2.result] at hle
  change EigenLe b (mStep (wHuber _ _) _ _) at hle
  have h8 := hle (sample (scaleRows {i} r X) i)
  have h9 := hlarge (sample (scaleRows {i} r X) i) (scaleRows_mem r X (by simp))
  exact absurd ((huber_step_large hb _ _ i).trans h8) (not_le.2 h9)

theorem spans_contaminated {𝕜 : Type} [RCLike 𝕜] {X X' : Matrix (Fin N) (Fin p) 𝕜}
    (hX : GeneralPosition X) {m : ℕ} (hm : p + m ≤ N) (h : Contaminated m X X') : Spans X' := by
  classical
  obtain ⟨J, hJm, hX'⟩ := h
  have hJ : Jᶜ.card = N - J.card := by rw [Finset.card_compl, Fintype.card_fin]
  have hg := generalPosition_restrict hX (Jᶜ.orderEmbOfFin hJ).injective
  have hsp := student_spans _ (generalPosition_student hg (by omega) one_pos)
  refine fun v hv => hsp v fun k => ?_
  have hk : Jᶜ.orderEmbOfFin hJ k ∉ J :=
    Finset.mem_compl.mp (Finset.orderEmbOfFin_mem Jᶜ hJ k)
  have := hv (Jᶜ.orderEmbOfFin hJ k)
  rw [hX' _ hk] at this
  exact this

/-- What remains true for real data: wrong samples cannot make the estimate small. As long as `p`
right samples are left, every result after at least one iteration has its eigenvalues above one
bound. Missing for the full claim: an upper bound, see `C127_real_violated`. -/
theorem C127_real_partial (env : NumEnv N p ℝ) (hs : env.eigh.Ok) (c : Chi2) (hc : c.Ok)
    (X : Matrix (Fin N) (Fin p) ℝ) (hp : 0 < p) (hX : GeneralPosition X) (m : ℕ) (hm : p + m ≤ N)
    (q : ℝ) (hq0 : 0 < q) (hq1 : q < 1) :
    ∃ a : ℝ, 0 < a ∧ ∀ X', Contaminated m X X' →
      ∀ init : Option (Matrix (Fin p) (Fin p) ℝ), (∀ S ∈ init, S.PosDef) →
      ∀ (tol : ℝ) (iterMax : ℤ), 1 ≤ iterMax → ∃ result delta iteration warned,
        huberFixedPoint env c X' q init tol iterMax =
          .ok ⟨.fin result, delta, iteration, warned⟩ ∧ EigenGe a result := by
  obtain ⟨hl, hb⟩ := huber_beta_pos hc ⟨hq0, hq1⟩ hp
  obtain ⟨a, ha, h⟩ := huber_step_lower hp hX hm hb _
  refine ⟨a, ha, fun X' hX' init hi tol iterMax hit => ?_⟩
  have hsp := spans_contaminated hX hm hX'
  obtain ⟨sigma, result, delta, iteration, h1, h2, h3, h4⟩ := C34_real (.huber q) env hs c hc
    _ hp hsp ⟨hq0, hq1⟩ init hi tol iterMax
  have h5 : result = sigma :=
    FMat.fin.inj (h3.symm.trans (C30_none "None" (by decide +kernel) (.fin sigma)))
  refine ⟨result, delta, iteration, _, h1, ?_⟩
  have h6 : iteration ≠ 0 := fun e => h2.stopped (by rw [e]; push_cast; omega) (by
    rw [h2.err_zero e]; trivial)
  obtain ⟨k, rfl⟩ := Nat.exists_eq_succ_of_ne_zero h6
  rw [h5, h2.result]
  exact eigenGe_of_loewner (h X' hX' _)

/-- Complex data. Missing for the full claim: as for real data. -/
theorem C127_complex_partial (env : NumEnv N p ℂ) (hs : env.eigh.Ok) (c : Chi2) (hc : c.Ok)
    (X : Matrix (Fin N) (Fin p) ℂ) (hp : 0 < p) (hX : GeneralPosition X) (m : ℕ) (hm : p + m ≤ N)
    (q : ℝ) (hq0 : 0 < q) (hq1 : q < 1) :
    ∃ a : ℝ, 0 < a ∧ ∀ X', Contaminated m X X' →
      ∀ init : Option (Matrix (Fin p) (Fin p) ℂ), (∀ S ∈ init, S.PosDef) →
      ∀ (tol : ℝ) (iterMax : ℤ), 1 ≤ iterMax → ∃ result delta iteration warned,
        complexHuberFixedPoint env c X' q init tol iterMax =
          .ok ⟨.fin result, delta, iteration, warned⟩ ∧ EigenGe a result := by
  obtain ⟨hl, hb⟩ := complexHuber_beta_pos hc ⟨hq0, hq1⟩ hp
  obtain ⟨a, ha, h⟩ := huber_step_lower hp hX hm hb _
  refine ⟨a, ha, fun X' hX' init hi tol iterMax hit => ?_⟩
  have hsp := spans_contaminated hX hm hX'
  obtain ⟨sigma, result, delta, iteration, h1, h2, h3, h4⟩ := C34_complex (.huber q) env hs c hc
    _ hp hsp ⟨hq0, hq1⟩ init hi tol iterMax
  have h5 : result = sigma :=
    FMat.fin.inj (h3.symm.trans (C30_none "None" (by decide +kernel) (.fin sigma)))
  refine ⟨result, delta, iteration, _, h1, ?_⟩
  have h6 : iteration ≠ 0 := fun e => h2.stopped (by rw [e]; push_cast; omega) (by
    rw [h2.err_zero e]; trivial)
  obtain ⟨k, rfl⟩ := Nat.exists_eq_succ_of_ne_zero h6
  rw [h5, h2.result]
  exact eigenGe_of_loewner (h X' hX' _)

/-! ## C128: Tyler -/

theorem EigenGe.smul {𝕜 : Type} [RCLike 𝕜] {a : ℝ} {Q : Matrix (Fin p) (Fin p) 𝕜} (h : EigenGe a Q)
    {c : ℝ} (hc : 0 ≤ c) : EigenGe (c * a) ((c : 𝕜) • Q) := fun v => by
  rw [smul_mulVec, dotProduct_smul, smul_eq_mul, RCLike.re_ofReal_mul, mul_assoc]
  exact mul_le_mul_of_nonneg_left (h v) hc

theorem EigenLe.smul {𝕜 : Type} [RCLike 𝕜] {a : ℝ} {Q : Matrix (Fin p) (Fin p) 𝕜} (h : EigenLe a Q)
    {c : ℝ} (hc : 0 ≤ c) : EigenLe (c * a) ((c : 𝕜) • Q) := fun v => by
  rw [smul_mulVec, dotProduct_smul, smul_eq_mul, RCLike.re_ofReal_mul, mul_assoc]
  exact mul_le_mul_of_nonneg_left (h v) hc

/-- Real data in general position, `2 <= p < N`: the condition number of Tyler's estimate has a bound
that holds for all replacements of `m` samples by non-zero vectors if and only if
`p (m + 1) < N`. -/
theorem C128_real (env : NumEnv N p ℝ) (hs : env.eigh.Ok) (X : Matrix (Fin N) (Fin p) ℝ)
    (hp : 1 < p) (hN : p < N) (hX : GeneralPosition X) (tol : ℝ) (m : ℕ) :
    (∃ κ : ℝ, 0 < κ ∧ ∀ X', Contaminated m X X' → NonzeroSamples X' →
      ∃ S : Matrix (Fin p) (Fin p) ℝ, S.PosDef ∧
        Returns (tylerFixedPoint env X' (some S) tol 1 "None") S ∧
        ∃ a : ℝ, 0 < a ∧ EigenGe a S ∧ EigenLe (κ * a) S) ↔ p * (m + 1) < N := by
  have hh := tyler_breakdown hp hX hN m
  have hr : ∀ X' : Matrix (Fin N) (Fin p) ℝ, NonzeroSamples X' →
      ∀ S : Matrix (Fin p) (Fin p) ℝ, S.PosDef →
      (Returns (tylerFixedPoint env X' (some S) tol 1 "None") S ↔ mStep (wTyler p) X' S = S) :=
    fun X' hn S hS => run_one_real_eq (.tyler "None") hs noChi2b_ok (by omega) hn rfl hS tol S
  refine Iff.trans ?_ hh
  constructor
  · rintro ⟨κ, hκ, h⟩
    refine ⟨κ, hκ, fun X' hX' hn => ?_⟩
    obtain ⟨S, hS, h1, h2⟩ := h X' hX' hn
    exact ⟨S, hS, (hr X' hn S hS).1 h1, h2⟩
  · rintro ⟨κ, hκ, h⟩
    refine ⟨κ, hκ, fun X' hX' hn => ?_⟩
    obtain ⟨S, hS, h1, h2⟩ := h X' hX' hn
    exact ⟨S, hS, (hr X' hn S hS).2 h1, h2⟩

/-- Real data: what this means for a call. Whatever the `m` wrong samples are, from every start the
results tend to a matrix whose condition number is at most `κ`. -/
theorem C128_run_real (env : NumEnv N p ℝ) (hs : env.eigh.Ok) (X : Matrix (Fin N) (Fin p) ℝ)
    (hp : 1 < p) (hN : p < N) (hX : GeneralPosition X) (m : ℕ) (hm : p * (m + 1) < N) (name : String)
    (hname : name = "trace" ∨ name = "determinant" ∨ name = "element") :
    ∃ κ : ℝ, 0 < κ ∧ ∀ X', Contaminated m X X' → NonzeroSamples X' →
      ∃ (S : Matrix (Fin p) (Fin p) ℝ) (a : ℝ), 0 < a ∧ EigenGe a S ∧ EigenLe (κ * a) S ∧
        ∀ init : Option (Matrix (Fin p) (Fin p) ℝ), (∀ S ∈ init, S.PosDef) →
        ∀ ε : ℝ, 0 < ε → ∃ (tol₀ : ℝ) (K : ℕ), 0 < tol₀ ∧
          ∀ (tol : ℝ) (iterMax : ℤ), tol ≤ tol₀ → K ≤ iterMax → ∃ result delta iteration warned,
            tylerFixedPoint env X' init tol iterMax name =
              .ok ⟨.fin result, delta, iteration, warned⟩ ∧ frobDist result S < ε := by
  have hp0 : 0 < p := by omega
  obtain ⟨κ, hκ, h⟩ := (C128_real env hs X hp hN hX 0 m).2 hm
  refine ⟨κ, hκ, fun X' hX' hn => ?_⟩
  obtain ⟨S, hS, hfix, a, ha, h1, h2⟩ := h X' hX' hn
  have H : ∀ V : Submodule ℝ (Fin p → ℝ), V ≠ ⊥ → V ≠ ⊤ →
      p * samplesIn X' V < N * Module.finrank ℝ V := fun V h0 h1 =>
    lt_of_le_of_lt (Nat.mul_le_mul_left p (samplesIn_contaminated hX' V))
      (tyler_count_contaminated hX hm V h0 h1)
  have hsp := tyler_spans (by omega) X' hn H
  have hI := count_indecomposable X' H
  obtain ⟨r, hr, -, h4⟩ := normalise_pos name hp0 hS
  have hr' := inv_pos.2 hr
  refine ⟨_, r⁻¹ * a, mul_pos hr' ha, h1.smul hr'.le, ?_, fun init hi => ?_⟩
  · have := h2.smul hr'.le
    rwa [← mul_assoc, mul_comm r⁻¹ κ, mul_assoc] at this
  · refine C112_real (.tyler name) env hs noChi2b noChi2b_ok X' hp0 hsp hn init hi _ ?_
    obtain ⟨S'', h5, h6⟩ := C84_real env hs X' hp0 hsp hn hI S hS 0 hfix init hi name hname
    rw [h4] at h5
    rw [FMat.fin.inj h5]
    exact h6

/-- Real data: with `p (m + 1) >= N`, `m` copies of another sample leave no estimate at all. -/
theorem C128_copies_real (env : NumEnv N p ℝ) (hs : env.eigh.Ok) (X : Matrix (Fin N) (Fin p) ℝ)
    (hp : 1 < p) (hN : p < N) (hX : GeneralPosition X) (J : Finset (Fin N))
    (hm : N ≤ p * (J.card + 1)) (i₀ : Fin N) (hi₀ : i₀ ∉ J) (X' : Matrix (Fin N) (Fin p) ℝ)
    (hX' : ∀ i, i ∉ J → sample X' i = sample X i) (hJ : ∀ i ∈ J, sample X' i = sample X i₀) :
    ¬ ∃ (S : Matrix (Fin p) (Fin p) ℝ) (tol : ℝ), S.PosDef ∧
      Returns (tylerFixedPoint env X' (some S) tol 1 "None") S := by
  rintro ⟨S, tol, hS, h⟩
  have e : X' = putRows J (sample X i₀) X := by
    ext i j
    by_cases hi : i ∈ J
    · exact (congrFun (hJ i hi) j).trans (congrFun (putRows_mem _ X hi) j).symm
    · exact (congrFun (hX' i hi) j).trans (congrFun (putRows_not_mem _ X hi) j).symm
  have hn := generalPosition_nonzero hX (by omega : 0 < p)
  have hn' : NonzeroSamples X' := fun i => by
    by_cases hi : i ∈ J
    · rw [hJ i hi]; exact hn i₀
    · rw [hX' i hi]; exact hn i
  have h1 := (run_one_real_eq (.tyler "None") hs noChi2b_ok (by omega) hn' rfl hS tol S).1 h
  rw [e] at h1
  exact tyler_copies hp hX hN hm hi₀ hS h1

/-- Complex data. -/
theorem C128_complex (env : NumEnv N p ℂ) (hs : env.eigh.Ok) (X : Matrix (Fin N) (Fin p) ℂ)
    (hp : 1 < p) (hN : p < N) (hX : GeneralPosition X) (tol : ℝ) (m : ℕ) :
    (∃ κ : ℝ, 0 < κ ∧ ∀ X', Contaminated m X X' → NonzeroSamples X' →
      ∃ S : Matrix (Fin p) (Fin p) ℂ, S.PosDef ∧
        Returns (complexTylerFixedPoint env X' (some S) tol 1 "None") S ∧
        ∃ a : ℝ, 0 < a ∧ EigenGe a S ∧ EigenLe (κ * a) S) ↔ p * (m + 1) < N := by
  have hh := tyler_breakdown hp hX hN m
  have hr : ∀ X' : Matrix (Fin N) (Fin p) ℂ, NonzeroSamples X' →
      ∀ S : Matrix (Fin p) (Fin p) ℂ, S.PosDef →
      (Returns (complexTylerFixedPoint env X' (some S) tol 1 "None") S ↔ mStep (wTyler p) X' S = S) :=
    fun X' hn S hS => run_one_complex_eq (.tyler "None") hs noChi2b_ok (by omega) hn rfl hS tol S
  refine Iff.trans ?_ hh
  constructor
  · rintro ⟨κ, hκ, h⟩
    refine ⟨κ, hκ, fun X' hX' hn => ?_⟩
    obtain ⟨S, hS, h1, h2⟩ := h X' hX' hn
    exact ⟨S, hS, (hr X' hn S hS).1 h1, h2⟩
  · rintro ⟨κ, hκ, h⟩
    refine ⟨κ, hκ, fun X' hX' hn => ?_⟩
    obtain ⟨S, hS, h1, h2⟩ := h X' hX' hn
    exact ⟨S, hS, (hr X' hn S hS).2 h1, h2⟩

/-- Complex data. -/
theorem C128_run_complex (env : NumEnv N p ℂ) (hs : env.eigh.Ok) (X : Matrix (Fin N) (Fin p) ℂ)
    (hp : 1 < p) (hN : p < N) (hX : GeneralPosition X) (m : ℕ) (hm : p * (m + 1) < N) (name : String)
    (hname : name = "trace" ∨ name = "determinant" ∨ name = "element") :
    ∃ κ : ℝ, 0 < κ ∧ ∀ X', Contaminated m X X' → NonzeroSamples X' →
      ∃ (S : Matrix (Fin p) (Fin p) ℂ) (a : ℝ), 0 < a ∧ EigenGe a S ∧ EigenLe (κ * a) S ∧
        ∀ init : Option (Matrix (Fin p) (Fin p) ℂ), (∀ S ∈ init, S.PosDef) →
        ∀ ε : ℝ, 0 < ε → ∃ (tol₀ : ℝ) (K : ℕ), 0 < tol₀ ∧
          ∀ (tol : ℝ) (iterMax : ℤ), tol ≤ tol₀ → K ≤ iterMax → ∃ result delta iteration warned,
            complexTylerFixedPoint env X' init tol iterMax name =
              .ok ⟨.fin result, delta, iteration, warned⟩ ∧ frobDist result S < ε := by
  have hp0 : 0 < p := by omega
  obtain ⟨κ, hκ, h⟩ := (C128_complex env hs X hp hN hX 0 m).2 hm
  refine ⟨κ, hκ, fun X' hX' hn => ?_⟩
  obtain ⟨S, hS, hfix, a, ha, h1, h2⟩ := h X' hX' hn
  have H : ∀ V : Submodule ℂ (Fin p → ℂ), V ≠ ⊥ → V ≠ ⊤ →
      p * samplesIn X' V < N * Module.finrank ℂ V := fun V h0 h1 =>
    lt_of_le_of_lt (Nat.mul_le_mul_left p (samplesIn_contaminated hX' V))
      (tyler_count_contaminated hX hm V h0 h1)
  have hsp := tyler_spans (by omega) X' hn H
  have hI := count_indecomposable X' H
  obtain ⟨r, hr, -, h4⟩ := normalise_pos name hp0 hS
  have hr' := inv_pos.2 hr
  refine ⟨_, r⁻¹ * a, mul_pos hr' ha, h1.smul hr'.le, ?_, fun init hi => ?_⟩
  · have := h2.smul hr'.le
    rwa [← mul_assoc, mul_comm r⁻¹ κ, mul_assoc] at this
  · refine C112_complex (.tyler name) env hs noChi2b noChi2b_ok X' hp0 hsp hn init hi _ ?_
    obtain ⟨S'', h5, h6⟩ := C84_complex env hs X' hp0 hsp hn hI S hS 0 hfix init hi name hname
    rw [h4] at h5
    rw [FMat.fin.inj h5]
    exact h6

/-- Complex data. -/
theorem C128_copies_complex (env : NumEnv N p ℂ) (hs : env.eigh.Ok) (X : Matrix (Fin N) (Fin p) ℂ)
    (hp : 1 < p) (hN : p < N) (hX : GeneralPosition X) (J : Finset (Fin N))
    (hm : N ≤ p * (J.card + 1)) (i₀ : Fin N) (hi₀ : i₀ ∉ J) (X' : Matrix (Fin N) (Fin p) ℂ)
    (hX' : ∀ i, i ∉ J → sample X' i = sample X i) (hJ : ∀ i ∈ J, sample X' i = sample X i₀) :
    ¬ ∃ (S : Matrix (Fin p) (Fin p) ℂ) (tol : ℝ), S.PosDef ∧
      Returns (complexTylerFixedPoint env X' (some S) tol 1 "None") S := by
  rintro ⟨S, tol, hS, h⟩
  have e : X' = putRows J (sample X i₀) X := by
    ext i j
    by_cases hi : i ∈ J
    · exact (congrFun (hJ i hi) j).trans (congrFun (putRows_mem _ X hi) j).symm
    · exact (congrFun (hX' i hi) j).trans (congrFun (putRows_not_mem _ X hi) j).symm
  have hn := generalPosition_nonzero hX (by omega : 0 < p)
  have hn' : NonzeroSamples X' := fun i => by
    by_cases hi : i ∈ J
    · rw [hJ i hi]; exact hn i₀
    · rw [hX' i hi]; exact hn i
  have h1 := (run_one_complex_eq (.tyler "None") hs noChi2b_ok (by omega) hn' rfl hS tol S).1 h
  rw [e] at h1
  exact tyler_copies hp hX hN hm hi₀ hS h1

/-! ## Concrete data -/

/-- The samples `(1, 0), (1, 1), ..., (1, N - 1)`. -/
def fan (𝕜 : Type) [RCLike 𝕜] (N : ℕ) : Matrix (Fin N) (Fin 2) 𝕜 :=
  Matrix.of fun i => ![1, ((i : ℕ) : 𝕜)]

theorem fan_generalPosition (𝕜 : Type) [RCLike 𝕜] (N : ℕ) : GeneralPosition (fan 𝕜 N) := by
  classical
  intro V hV
  rw [samplesIn_eq]
  have two : ∀ i j : Fin N, sample (fan 𝕜 N) i ∈ V → sample (fan 𝕜 N) j ∈ V → i = j := by
    intro i j hi hj
    by_contra hne
    have hd : ((j : ℕ) : 𝕜) - ((i : ℕ) : 𝕜) ≠ 0 := by
      rw [sub_ne_zero]
      exact fun e => hne (Fin.ext (Nat.cast_injective e).symm)
    apply hV
    rw [Submodule.eq_top_iff']
    intro x
    have : x = ((x 0 * ((j : ℕ) : 𝕜) - x 1) / (((j : ℕ) : 𝕜) - ((i : ℕ) : 𝕜))) • sample (fan 𝕜 N) i +
        ((x 1 - x 0 * ((i : ℕ) : 𝕜)) / (((j : ℕ) : 𝕜) - ((i : ℕ) : 𝕜))) • sample (fan 𝕜 N) j := by
      funext k
      fin_cases k
      · simp [sample, fan]; field_simp; ring
      · simp [sample, fan]; field_simp; ring
    rw [this]
    exact V.add_mem (V.smul_mem _ hi) (V.smul_mem _ hj)
  rcases (Finset.univ.filter fun i => sample (fan 𝕜 N) i ∈ V).eq_empty_or_nonempty with h | ⟨i, hi⟩
  · rw [h]; simp
  · have h1 : (Finset.univ.filter fun i => sample (fan 𝕜 N) i ∈ V).card ≤ 1 :=
      Finset.card_le_one.2 fun a ha b hb => two a b (Finset.mem_filter.1 ha).2 (Finset.mem_filter.1 hb).2
    refine h1.trans (Nat.one_le_iff_ne_zero.2 fun h0 => ?_)
    rw [Submodule.finrank_eq_zero] at h0
    have h2 := (Finset.mem_filter.1 hi).2
    rw [h0, Submodule.mem_bot] at h2
    have h3 := congrFun h2 0
    simp [sample, fan] at h3

/-- C126: of six samples the real Student-t estimator with `df = 2` withstands one, and not two. -/
example (env : NumEnv 6 2 ℝ) (hs : env.eigh.Ok) (m : ℕ) :
    (∃ a b : ℝ, 0 < a ∧ 0 < b ∧ ∀ X', Contaminated m (fan ℝ 6) X' →
      ∃ S : Matrix (Fin 2) (Fin 2) ℝ, S.PosDef ∧
        Returns (studentFixedPoint env X' 2 (some S) 0 1) S ∧ EigenGe a S ∧ EigenLe b S) ↔ m ≤ 1 := by
  rw [C126_real env hs (fan ℝ 6) (by norm_num) (by norm_num) (fan_generalPosition ℝ 6) 2 (by norm_num)]
  constructor
  · rintro ⟨h, -⟩
    have : (m : ℝ) < 2 := by norm_num at h; linarith
    have : m < 2 := by exact_mod_cast this
    omega
  · intro h
    have : (m : ℝ) ≤ 1 := by exact_mod_cast h
    constructor <;> norm_num <;> linarith

/-- C128: of five samples in the plane Tyler's estimator withstands one, and not two. -/
example (env : NumEnv 5 2 ℝ) (hs : env.eigh.Ok) (m : ℕ) :
    (∃ κ : ℝ, 0 < κ ∧ ∀ X', Contaminated m (fan ℝ 5) X' → NonzeroSamples X' →
      ∃ S : Matrix (Fin 2) (Fin 2) ℝ, S.PosDef ∧
        Returns (tylerFixedPoint env X' (some S) 0 1 "None") S ∧
        ∃ a : ℝ, 0 < a ∧ EigenGe a S ∧ EigenLe (κ * a) S) ↔ m ≤ 1 := by
  rw [C128_real env hs (fan ℝ 5) (by norm_num) (by norm_num) (fan_generalPosition ℝ 5)]
  omega

/-- C127: the hypotheses are met by six samples and `q = 1/2`. -/
example (env : NumEnv 6 2 ℝ) (hs : env.eigh.Ok) : ∃ X' : Matrix (Fin 6) (Fin 2) ℝ,
    (∀ k, k ≠ 0 → sample X' k = sample (fan ℝ 6) k) ∧ ∃ result delta iteration warned,
      huberFixedPoint env noChi2b X' (1 / 2) none (1 / 10) 100 =
        .ok ⟨.fin result, delta, iteration, warned⟩ ∧ ¬ EigenLe 1000000 result := by
  have hX := fan_generalPosition ℝ 6
  obtain ⟨X', h1, h2⟩ := C127_real_violated env hs noChi2b noChi2b_ok (fan ℝ 6) two_pos
    (student_spans _ (generalPosition_student hX (by norm_num) one_pos)) (1 / 2) (by norm_num)
    (by norm_num) 0 (generalPosition_nonzero hX two_pos 0) 1000000
  exact ⟨X', h1, h2 none (fun S hS => by simp at hS) (1 / 10) 100 (by norm_num)⟩

end
end RS
