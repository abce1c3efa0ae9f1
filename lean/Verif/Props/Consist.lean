import Verif.Props.Tolerance
import Verif.Lemmas.ConsistLaw
import Mathlib.Probability.Independence.InfinitePi

/-
The estimators and the law of the data, when the number of samples grows (C120, C121).
-/
set_option autoImplicit false

namespace RS
open Matrix ComplexOrder Filter Topology MeasureTheory ProbabilityTheory

section
variable {p : ℕ} {Ω : Type*} [MeasurableSpace Ω] {P : Measure Ω} [IsProbabilityMeasure P]

private def noChi2c : Chi2 := ⟨fun q _ => q, fun _ _ => 0⟩
private theorem noChi2c_ok : noChi2c.Ok :=
  ⟨fun _ => rfl, fun _ _ h _ _ => h, fun _ _ => le_rfl⟩

/-- The matrix already has the normalisation `name`. -/
def Normalised {𝕜 : Type} [RCLike 𝕜] (name : String) (S : Matrix (Fin p) (Fin p) 𝕜) : Prop :=
  (name = "trace" → S.trace = p) ∧ (name = "determinant" → S.det = 1) ∧
    (name = "element" → ∀ h : 0 < p, S ⟨0, h⟩ ⟨0, h⟩ = 1)

theorem frobDist_triangle {𝕜 : Type} [RCLike 𝕜] (A B C : Matrix (Fin p) (Fin p) 𝕜) :
    frobDist A C ≤ frobDist A B + frobDist B C := by
  rw [frobDist_eq, frobDist_eq, frobDist_eq, show A - C = (A - B) + (B - C) by abel]
  exact frob_add_le _ _

/-- The results of the calls on the first `N` samples tend to `S`: for every `ε`, from some `N` on
and from every start, the call returns a matrix within `ε` of `S` if `tol` is small enough and
`iter_max` large enough. -/
def TendsTo {𝕜 : Type} [RCLike 𝕜] (run : ℕ → Option (Matrix (Fin p) (Fin p) 𝕜) → ℝ → ℤ → Py (FPOut p 𝕜))
    (S : Matrix (Fin p) (Fin p) 𝕜) : Prop :=
  ∀ ε : ℝ, 0 < ε → ∃ N₀ : ℕ, ∀ N, N₀ ≤ N →
    ∀ init : Option (Matrix (Fin p) (Fin p) 𝕜), (∀ S ∈ init, S.PosDef) →
    ∃ (tol₀ : ℝ) (K : ℕ), 0 < tol₀ ∧ ∀ (tol : ℝ) (iterMax : ℤ), tol ≤ tol₀ → K ≤ iterMax →
      ∃ result delta iteration warned,
        run N init tol iterMax = .ok ⟨.fin result, delta, iteration, warned⟩ ∧
          frobDist result S < ε

/-- The results cannot tend to two different matrices. -/
theorem TendsTo.unique {𝕜 : Type} [RCLike 𝕜]
    {run : ℕ → Option (Matrix (Fin p) (Fin p) 𝕜) → ℝ → ℤ → Py (FPOut p 𝕜)}
    {S S' : Matrix (Fin p) (Fin p) 𝕜} (h : TendsTo run S) (h' : TendsTo run S') : S = S' := by
  by_contra hne
  have hpos : 0 < frobDist S S' := by
    rw [frobDist_eq]
    exact lt_of_le_of_ne (frob_nonneg _) fun e => hne (sub_eq_zero.1 ((frob_eq_zero _).1 e.symm))
  obtain ⟨N₁, h1⟩ := h _ (half_pos hpos)
  obtain ⟨N₂, h2⟩ := h' _ (half_pos hpos)
  obtain ⟨t₁, K₁, -, h3⟩ := h1 (max N₁ N₂) (le_max_left _ _) none (by simp)
  obtain ⟨t₂, K₂, -, h4⟩ := h2 (max N₁ N₂) (le_max_right _ _) none (by simp)
  obtain ⟨r, d, i, w, h5, h6⟩ := h3 (min t₁ t₂) (max K₁ K₂ : ℕ) (min_le_left _ _)
    (by exact_mod_cast le_max_left _ _)
  obtain ⟨r', d', i', w', h7, h8⟩ := h4 (min t₁ t₂) (max K₁ K₂ : ℕ) (min_le_right _ _)
    (by exact_mod_cast le_max_right _ _)
  rw [h5] at h7
  simp only [Except.ok.injEq, FPOut.mk.injEq, FMat.fin.injEq] at h7
  rw [← h7.1] at h8
  have h9 := frobDist_triangle S r S'
  have h10 : frobDist S r = frobDist r S := by rw [frobDist_eq, frobDist_eq, frob_sub_comm]
  linarith

theorem normalise_normalised {𝕜 : Type} [RCLike 𝕜] {name : String} (hp : 0 < p)
    (hname : name = "trace" ∨ name = "determinant" ∨ name = "element")
    {S : Matrix (Fin p) (Fin p) 𝕜} (hS : S.PosDef) (hn : Normalised name S) :
    FMat.normalise name (.fin S) = .fin S := by
  obtain ⟨r, hr, h1, h2⟩ := normalise_pos name hp hS
  have hp' : (p : ℝ) ≠ 0 := by exact_mod_cast hp.ne'
  have e : r = 1 := by
    rcases hname with rfl | rfl | rfl
    · simp only [normFn, if_true, Option.some.injEq, RCLike.ofReal_inj, hn.1 rfl, RCLike.natCast_re,
        div_self hp'] at h1
      exact h1.symm
    · have e1 : ("determinant" = "trace") = False := by decide +kernel
      simp only [normFn, e1, if_false, if_true, hn.2.1 rfl, RCLike.one_re, Real.one_rpow,
        not_lt.2 zero_le_one, Option.some.injEq, RCLike.ofReal_inj] at h1
      exact h1.symm
    · have e1 : ("element" = "trace") = False := by decide +kernel
      have e2 : ("element" = "determinant") = False := by decide +kernel
      simp only [normFn, e1, e2, if_false, if_true, dif_pos hp, hn.2.2 rfl hp, Option.some.injEq] at h1
      exact_mod_cast h1.symm
  rw [h2, e, inv_one, RCLike.ofReal_one, one_smul]

section
variable {𝕜 : Type} [RCLike 𝕜] [MeasurableSpace 𝕜] [BorelSpace 𝕜] {x : ℕ → Ω → Fin p → 𝕜}
  {μ : Measure (Fin p → 𝕜)}

theorem tyler_limit (h : IIDSamples P x μ) (hμ : NullSubspaces μ) (hp : 0 < p)
    {S : Matrix (Fin p) (Fin p) 𝕜} (hS : S.PosDef) (hf : PopFixed 0 μ S) (name : String)
    (hname : name = "trace" ∨ name = "determinant" ∨ name = "element") (hn : Normalised name S) :
    ∀ᵐ ω ∂P, ∃ Q Q' : ℕ → Matrix (Fin p) (Fin p) 𝕜,
      (∀ N, p < N → GeneralPosition (firstSamples x ω N) ∧ (Q N).PosDef ∧
        mStep (wTyler p) (firstSamples x ω N) (Q N) = Q N ∧
        FMat.normalise name (.fin (Q N)) = .fin (Q' N)) ∧
      ∀ ε : ℝ, 0 < ε → ∀ᶠ N in atTop, frobDist (Q' N) S < ε := by
  filter_upwards [h.tyler_consistent hμ hp hS hf, h.generalPosition hμ] with ω hω hg
  have hex : ∀ N, ∃ Q : Matrix (Fin p) (Fin p) 𝕜, Q.PosDef ∧
      (p < N → mStep (wTyler p) (firstSamples x ω N) Q = Q) := fun N => by
    by_cases hN : p < N
    · obtain ⟨Q, h1, h2, -⟩ := (tyler_exists_unique_iff (firstSamples x ω N) (by omega) hp
        (generalPosition_nonzero (hg N) hp)).2 (generalPosition_tyler (hg N) hN)
      exact ⟨Q, h1, fun _ => h2⟩
    · exact ⟨1, PosDef.one, fun h => absurd h hN⟩
  choose Q hQ hfix using hex
  choose Q' hQ' _ using fun N => C31_posDef name hp _ (hQ N)
  obtain ⟨c, hc, hlim⟩ := hω Q (by
    filter_upwards [eventually_gt_atTop p] with N hN using ⟨hQ N, hfix N hN⟩)
  have h1 := tendsto_normalise name hp (fun N => (hQ N).smul (by
      have := hc N; exact_mod_cast this : (0 : 𝕜) < (c N : 𝕜))) hS hlim
    (fun N => (C31_scale_free name hname hp _ (hQ N) _ (hc N)).trans (hQ' N))
    (normalise_normalised hp hname hS hn)
  exact ⟨Q, Q', fun N hN => ⟨hg N, hQ N, hfix N hN, hQ' N⟩, fun ε hε =>
    (frob_of_tendsto h1).eventually (gt_mem_nhds hε)⟩

theorem student_limit (h : IIDSamples P x μ) (hμ : NullSubspaces μ) (hp : 0 < p) {nu : ℝ}
    (hnu : 0 < nu) {S : Matrix (Fin p) (Fin p) 𝕜} (hS : S.PosDef) (hf : PopFixed nu μ S) :
    ∀ᵐ ω ∂P, ∃ Q : ℕ → Matrix (Fin p) (Fin p) 𝕜,
      (∀ N, p ≤ N → GeneralPosition (firstSamples x ω N) ∧ (Q N).PosDef ∧
        mStep (wStudent nu p) (firstSamples x ω N) (Q N) = Q N) ∧
      ∀ ε : ℝ, 0 < ε → ∀ᶠ N in atTop, frobDist (Q N) S < ε := by
  filter_upwards [h.student_consistent hμ hp hnu hS hf, h.generalPosition hμ] with ω hω hg
  have hex : ∀ N, ∃ Q : Matrix (Fin p) (Fin p) 𝕜, p ≤ N → Q.PosDef ∧
      mStep (wStudent nu p) (firstSamples x ω N) Q = Q := fun N => by
    by_cases hN : p ≤ N
    · obtain ⟨Q, h1, h2⟩ := student_exists hnu hp (firstSamples x ω N)
        (generalPosition_student (hg N) hN hnu)
      exact ⟨Q, fun _ => ⟨h1, h2⟩⟩
    · exact ⟨1, fun h => absurd h hN⟩
  choose Q hQ using hex
  have hlim := hω Q (by filter_upwards [eventually_ge_atTop p] with N hN using hQ N hN)
  exact ⟨Q, fun N hN => ⟨hg N, hQ N hN⟩, fun ε hε =>
    (frob_of_tendsto hlim).eventually (gt_mem_nhds hε)⟩

/-- Samples of a law which gives probability zero to the proper subspaces are in general position:
all the estimates of C101 and C102 exist. -/
theorem C120_generalPosition (h : IIDSamples P x μ) (hμ : NullSubspaces μ) :
    ∀ᵐ ω ∂P, ∀ N, GeneralPosition (firstSamples x ω N) := h.generalPosition hμ

end

/-! ## C120 -/

/-- Tyler's estimator, real data: independent samples of a law whose population equation
`p E[x x^T / (x^T S⁻¹ x)] = S` holds for the normalised matrix `S`. Almost surely, for every `ε`,
from some number of samples on, the call returns a matrix within `ε` of `S`, from every start, if
`tol` is small and `iter_max` large enough. -/
theorem C120_real {x : ℕ → Ω → Fin p → ℝ} {μ : Measure (Fin p → ℝ)} (h : IIDSamples P x μ)
    (hμ : NullSubspaces μ) (hp : 0 < p) (S : Matrix (Fin p) (Fin p) ℝ) (hS : S.PosDef)
    (hf : PopFixed 0 μ S) (name : String)
    (hname : name = "trace" ∨ name = "determinant" ∨ name = "element") (hn : Normalised name S)
    (env : (N : ℕ) → NumEnv N p ℝ) (hs : ∀ N, (env N).eigh.Ok) :
    ∀ᵐ ω ∂P, TendsTo (fun N init tol iterMax =>
      tylerFixedPoint (env N) (firstSamples x ω N) init tol iterMax name) S := by
  filter_upwards [tyler_limit h hμ hp hS hf name hname hn] with ω hω ε hε
  obtain ⟨Q, Q', hQ, hlim⟩ := hω
  obtain ⟨N₁, hN₁⟩ := eventually_atTop.1 (hlim (ε / 2) (half_pos hε))
  refine ⟨max N₁ (p + 1), fun N hN init hi => ?_⟩
  have hpN : p < N := lt_of_lt_of_le (Nat.lt_succ_self p) (le_trans (le_max_right _ _) hN)
  obtain ⟨hg, hQp, hfix, hQ'⟩ := hQ N hpN
  have hnz := generalPosition_nonzero hg hp
  have hct := generalPosition_tyler hg hpN
  have hsp := tyler_spans (by omega) _ hnz hct
  have hr := (run_one_real_eq (.tyler "None") (hs N) noChi2c_ok hp hnz rfl hQp 0 (Q N)).2 hfix
  obtain ⟨S'', h1, h2⟩ := C84_real (env N) (hs N) _ hp hsp hnz (count_indecomposable _ hct) (Q N) hQp
    0 hr init hi name hname
  rw [hQ'] at h1
  cases h1
  obtain ⟨tol₀, K, h3, h4⟩ := C112_real (.tyler name) (env N) (hs N) noChi2c noChi2c_ok _ hp hsp hnz
    init hi (Q' N) h2 (ε / 2) (half_pos hε)
  refine ⟨tol₀, K, h3, fun tol iterMax ht hm => ?_⟩
  obtain ⟨result, delta, iteration, warned, h5, h6⟩ := h4 tol iterMax ht hm
  refine ⟨result, delta, iteration, warned, h5, ?_⟩
  have := frobDist_triangle result (Q' N) S
  have := hN₁ N (le_trans (le_max_left _ _) hN)
  linarith

/-- Complex data. -/
theorem C120_complex {x : ℕ → Ω → Fin p → ℂ} {μ : Measure (Fin p → ℂ)} (h : IIDSamples P x μ)
    (hμ : NullSubspaces μ) (hp : 0 < p) (S : Matrix (Fin p) (Fin p) ℂ) (hS : S.PosDef)
    (hf : PopFixed 0 μ S) (name : String)
    (hname : name = "trace" ∨ name = "determinant" ∨ name = "element") (hn : Normalised name S)
    (env : (N : ℕ) → NumEnv N p ℂ) (hs : ∀ N, (env N).eigh.Ok) :
    ∀ᵐ ω ∂P, TendsTo (fun N init tol iterMax =>
      complexTylerFixedPoint (env N) (firstSamples x ω N) init tol iterMax name) S := by
  filter_upwards [tyler_limit h hμ hp hS hf name hname hn] with ω hω ε hε
  obtain ⟨Q, Q', hQ, hlim⟩ := hω
  obtain ⟨N₁, hN₁⟩ := eventually_atTop.1 (hlim (ε / 2) (half_pos hε))
  refine ⟨max N₁ (p + 1), fun N hN init hi => ?_⟩
  have hpN : p < N := lt_of_lt_of_le (Nat.lt_succ_self p) (le_trans (le_max_right _ _) hN)
  obtain ⟨hg, hQp, hfix, hQ'⟩ := hQ N hpN
  have hnz := generalPosition_nonzero hg hp
  have hct := generalPosition_tyler hg hpN
  have hsp := tyler_spans (by omega) _ hnz hct
  have hr := (run_one_complex_eq (.tyler "None") (hs N) noChi2c_ok hp hnz rfl hQp 0 (Q N)).2 hfix
  obtain ⟨S'', h1, h2⟩ := C84_complex (env N) (hs N) _ hp hsp hnz (count_indecomposable _ hct) (Q N)
    hQp 0 hr init hi name hname
  rw [hQ'] at h1
  cases h1
  obtain ⟨tol₀, K, h3, h4⟩ := C112_complex (.tyler name) (env N) (hs N) noChi2c noChi2c_ok _ hp hsp
    hnz init hi (Q' N) h2 (ε / 2) (half_pos hε)
  refine ⟨tol₀, K, h3, fun tol iterMax ht hm => ?_⟩
  obtain ⟨result, delta, iteration, warned, h5, h6⟩ := h4 tol iterMax ht hm
  refine ⟨result, delta, iteration, warned, h5, ?_⟩
  have := frobDist_triangle result (Q' N) S
  have := hN₁ N (le_trans (le_max_left _ _) hN)
  linarith

/-- Elliptical laws with scatter matrix `S` satisfy the population equation, whatever their radial
part (no moment need exist). -/
theorem C120_elliptical {𝕜 : Type} [RCLike 𝕜] [MeasurableSpace 𝕜] [BorelSpace 𝕜]
    {μ : Measure (Fin p → 𝕜)} [IsProbabilityMeasure μ] (hμ : NullSubspaces μ) (hp : 0 < p)
    (S : Matrix (Fin p) (Fin p) 𝕜) (hS : S.PosDef) (hE : EllipticalLaw μ S) : PopFixed 0 μ S :=
  elliptical_tyler hμ hp hS hE

/-- The laws of `rvs` with mean zero meet the hypotheses of `C120_real` and `C120_complex`. -/
theorem C120_laws {df : ℝ} (hdf : 0 < df) :
    (∀ S : Matrix (Fin p) (Fin p) ℝ, S.PosDef →
      (NullSubspaces (lawOf fun x => Real.exp (normalLogDensity 0 S x)) ∧
        EllipticalLaw (lawOf fun x => Real.exp (normalLogDensity 0 S x)) S) ∧
      NullSubspaces (lawOf fun x => Real.exp (tLogDensity df 0 S x)) ∧
        EllipticalLaw (lawOf fun x => Real.exp (tLogDensity df 0 S x)) S) ∧
    ∀ S : Matrix (Fin p) (Fin p) ℂ, S.PosDef →
      (NullSubspaces (lawOf fun x => Real.exp (cnormalLogDensity 0 S x)) ∧
        EllipticalLaw (lawOf fun x => Real.exp (cnormalLogDensity 0 S x)) S) ∧
      NullSubspaces (lawOf fun x => Real.exp (ctLogDensity df 0 S x)) ∧
        EllipticalLaw (lawOf fun x => Real.exp (ctLogDensity df 0 S x)) S :=
  ⟨fun _ hS => ⟨⟨lawOf_null_real _, realN_elliptical hS⟩, lawOf_null_real _, realT_elliptical hdf hS⟩,
    fun _ hS => ⟨⟨lawOf_null_cplx _, cplxN_elliptical hS⟩, lawOf_null_cplx _, cplxT_elliptical df hS⟩⟩

/-! ## C121 -/

/-- The Student-t estimator, real data: independent samples of a law whose population equation
`E[(ν + p) x x^T / (ν + x^T S⁻¹ x)] = S` holds, with `ν = df/2`. -/
theorem C121_real {x : ℕ → Ω → Fin p → ℝ} {μ : Measure (Fin p → ℝ)} (h : IIDSamples P x μ)
    (hμ : NullSubspaces μ) (hp : 0 < p) (df : ℝ) (hdf : 0 < df) (S : Matrix (Fin p) (Fin p) ℝ)
    (hS : S.PosDef) (hf : PopFixed (df / 2) μ S)
    (env : (N : ℕ) → NumEnv N p ℝ) (hs : ∀ N, (env N).eigh.Ok) :
    ∀ᵐ ω ∂P, TendsTo (fun N init tol iterMax =>
      studentFixedPoint (env N) (firstSamples x ω N) df init tol iterMax) S := by
  filter_upwards [student_limit h hμ hp (half_pos hdf) hS hf] with ω hω ε hε
  obtain ⟨Q, hQ, hlim⟩ := hω
  obtain ⟨N₁, hN₁⟩ := eventually_atTop.1 (hlim (ε / 2) (half_pos hε))
  refine ⟨max N₁ p, fun N hN init hi => ?_⟩
  have hpN : p ≤ N := le_trans (le_max_right _ _) hN
  obtain ⟨hg, hQp, hfix⟩ := hQ N hpN
  have hsp := student_spans _ (generalPosition_student hg hpN (half_pos hdf))
  have hr := (run_one_real_eq (.student df) (hs N) noChi2c_ok hp hdf rfl hQp 0 (Q N)).2 hfix
  obtain ⟨r, C, hr0, hr1, h2⟩ := C83_real (env N) (hs N) _ hp hsp df hdf (Q N) hQp 0 hr init hi
  obtain ⟨tol₀, K, h3, h4⟩ := C112_real (.student df) (env N) (hs N) noChi2c noChi2c_ok _ hp hsp hdf
    init hi (Q N) (fun ε hε => by
      obtain ⟨K, hK⟩ := geometric_small (C := C) hr0 hr1 hε
      refine ⟨K, fun tol iterMax => ?_⟩
      obtain ⟨result, delta, iteration, warned, h5, h6⟩ := h2 tol iterMax
      exact ⟨result, delta, iteration, warned, h5, fun hk => h6.trans_lt (hK iteration hk)⟩)
    (ε / 2) (half_pos hε)
  refine ⟨tol₀, K, h3, fun tol iterMax ht hm => ?_⟩
  obtain ⟨result, delta, iteration, warned, h5, h6⟩ := h4 tol iterMax ht hm
  refine ⟨result, delta, iteration, warned, h5, ?_⟩
  have := frobDist_triangle result (Q N) S
  have := hN₁ N (le_trans (le_max_left _ _) hN)
  linarith

/-- Complex data, `ν = df`. -/
theorem C121_complex {x : ℕ → Ω → Fin p → ℂ} {μ : Measure (Fin p → ℂ)} (h : IIDSamples P x μ)
    (hμ : NullSubspaces μ) (hp : 0 < p) (df : ℝ) (hdf : 0 < df) (S : Matrix (Fin p) (Fin p) ℂ)
    (hS : S.PosDef) (hf : PopFixed df μ S)
    (env : (N : ℕ) → NumEnv N p ℂ) (hs : ∀ N, (env N).eigh.Ok) :
    ∀ᵐ ω ∂P, TendsTo (fun N init tol iterMax =>
      complexStudentFixedPoint (env N) (firstSamples x ω N) df init tol iterMax) S := by
  filter_upwards [student_limit h hμ hp hdf hS hf] with ω hω ε hε
  obtain ⟨Q, hQ, hlim⟩ := hω
  obtain ⟨N₁, hN₁⟩ := eventually_atTop.1 (hlim (ε / 2) (half_pos hε))
  refine ⟨max N₁ p, fun N hN init hi => ?_⟩
  have hpN : p ≤ N := le_trans (le_max_right _ _) hN
  obtain ⟨hg, hQp, hfix⟩ := hQ N hpN
  have hsp := student_spans _ (generalPosition_student hg hpN hdf)
  have hr := (run_one_complex_eq (.student df) (hs N) noChi2c_ok hp hdf rfl hQp 0 (Q N)).2 hfix
  obtain ⟨r, C, hr0, hr1, h2⟩ := C83_complex (env N) (hs N) _ hp hsp df hdf (Q N) hQp 0 hr init hi
  obtain ⟨tol₀, K, h3, h4⟩ := C112_complex (.student df) (env N) (hs N) noChi2c noChi2c_ok _ hp hsp
    hdf init hi (Q N) (fun ε hε => by
      obtain ⟨K, hK⟩ := geometric_small (C := C) hr0 hr1 hε
      refine ⟨K, fun tol iterMax => ?_⟩
      obtain ⟨result, delta, iteration, warned, h5, h6⟩ := h2 tol iterMax
      exact ⟨result, delta, iteration, warned, h5, fun hk => h6.trans_lt (hK iteration hk)⟩)
    (ε / 2) (half_pos hε)
  refine ⟨tol₀, K, h3, fun tol iterMax ht hm => ?_⟩
  obtain ⟨result, delta, iteration, warned, h5, h6⟩ := h4 tol iterMax ht hm
  refine ⟨result, delta, iteration, warned, h5, ?_⟩
  have := frobDist_triangle result (Q N) S
  have := hN₁ N (le_trans (le_max_left _ _) hN)
  linarith

/-- Any elliptical law, real data: the results tend to a positive multiple of the scatter matrix;
the factor `κ` is given by `E[(ν + p) q / (ν κ + q)] = p` with `q = x^T S⁻¹ x` and `ν = df/2`. -/
theorem C121_elliptical_real {x : ℕ → Ω → Fin p → ℝ} {μ : Measure (Fin p → ℝ)}
    (h : IIDSamples P x μ) (hμ : NullSubspaces μ) (hp : 0 < p) (df : ℝ) (hdf : 0 < df)
    (S : Matrix (Fin p) (Fin p) ℝ) (hS : S.PosDef) (hE : EllipticalLaw μ S)
    (env : (N : ℕ) → NumEnv N p ℝ) (hs : ∀ N, (env N).eigh.Ok) :
    ∃ κ : ℝ, 0 < κ ∧ ∫ x, (df / 2 + p) * (qf S x / (df / 2 * κ + qf S x)) ∂μ = p ∧
      ∀ᵐ ω ∂P, TendsTo (fun N init tol iterMax =>
        studentFixedPoint (env N) (firstSamples x ω N) df init tol iterMax) (κ • S) := by
  have := h.prob
  obtain ⟨κ, hκ, h1, h2⟩ := elliptical_student hμ hp (half_pos hdf) hS hE
  exact ⟨κ, hκ, h2, C121_real h hμ hp df hdf _ (hS.smul hκ) h1 env hs⟩

/-- Any elliptical law, complex data, `ν = df`. -/
theorem C121_elliptical_complex {x : ℕ → Ω → Fin p → ℂ} {μ : Measure (Fin p → ℂ)}
    (h : IIDSamples P x μ) (hμ : NullSubspaces μ) (hp : 0 < p) (df : ℝ) (hdf : 0 < df)
    (S : Matrix (Fin p) (Fin p) ℂ) (hS : S.PosDef) (hE : EllipticalLaw μ S)
    (env : (N : ℕ) → NumEnv N p ℂ) (hs : ∀ N, (env N).eigh.Ok) :
    ∃ κ : ℝ, 0 < κ ∧ ∫ x, (df + p) * (qf S x / (df * κ + qf S x)) ∂μ = p ∧
      ∀ᵐ ω ∂P, TendsTo (fun N init tol iterMax =>
        complexStudentFixedPoint (env N) (firstSamples x ω N) df init tol iterMax) ((κ : ℂ) • S) := by
  have := h.prob
  obtain ⟨κ, hκ, h1, h2⟩ := elliptical_student hμ hp hdf hS hE
  exact ⟨κ, hκ, h2, C121_complex h hμ hp df hdf _ (hS.smul (by simpa using hκ)) h1 env hs⟩

/-- Consistent, real data: samples of the t law with `df/2` degrees of freedom, half the value
given to the estimator. -/
theorem C121_matched_real_partial {x : ℕ → Ω → Fin p → ℝ} (hp : 0 < p) (df : ℝ) (hdf : 0 < df)
    (S : Matrix (Fin p) (Fin p) ℝ) (hS : S.PosDef)
    (h : IIDSamples P x (lawOf fun x => Real.exp (tLogDensity (df / 2) 0 S x)))
    (env : (N : ℕ) → NumEnv N p ℝ) (hs : ∀ N, (env N).eigh.Ok) :
    ∀ᵐ ω ∂P, TendsTo (fun N init tol iterMax =>
      studentFixedPoint (env N) (firstSamples x ω N) df init tol iterMax) S := by
  have hd := half_pos hdf
  have := h.prob
  refine C121_real h (lawOf_null_real _) hp df hdf S hS
    (elliptical_popFixed hd.le hS (realT_elliptical hd hS) ?_) env hs
  have hpt : ∀ x : Fin p → ℝ, (df / 2 + p) / (df / 2 + qf S x) * qf S x =
      (df / 2 + p) * (qf S x / (df / 2 + qf S x)) := fun x => by ring
  simp only [hpt]
  rw [integral_const_mul, realT_u hd hS]
  field_simp

/-- Consistent, complex data: samples of the complex t law with `2 df` degrees of freedom, twice
the value given to the estimator. -/
theorem C121_matched_complex_partial {x : ℕ → Ω → Fin p → ℂ} (hp : 0 < p) (df : ℝ) (hdf : 0 < df)
    (S : Matrix (Fin p) (Fin p) ℂ) (hS : S.PosDef)
    (h : IIDSamples P x (lawOf fun x => Real.exp (ctLogDensity (2 * df) 0 S x)))
    (env : (N : ℕ) → NumEnv N p ℂ) (hs : ∀ N, (env N).eigh.Ok) :
    ∀ᵐ ω ∂P, TendsTo (fun N init tol iterMax =>
      complexStudentFixedPoint (env N) (firstSamples x ω N) df init tol iterMax) S := by
  have hd : 0 < 2 * df := by linarith
  have := h.prob
  refine C121_complex h (lawOf_null_cplx _) hp df hdf S hS
    (elliptical_popFixed hdf.le hS (cplxT_elliptical _ hS) ?_) env hs
  have hpt : ∀ x : Fin p → ℂ, (df + p) / (df + qf S x) * qf S x =
      (df + p) * (qf S x / (df + qf S x)) := fun x => by ring
  simp only [hpt]
  have := cplxT_u hd hS
  rw [mul_div_cancel_left₀ df two_ne_zero] at this
  rw [integral_const_mul, this]
  field_simp

theorem not_constant {𝕜 : Type} [RCLike 𝕜] {S : Matrix (Fin p) (Fin p) 𝕜} (hS : S.PosDef) {nu : ℝ}
    (hnu : 0 < nu) (hp : 0 < p) : Continuous (fun x => qf S x / (nu + qf S x)) ∧
      qf S 0 / (nu + qf S 0) ≠ (p : ℝ) / (nu + p) := by
  constructor
  · refine (continuous_qf S).div (continuous_const.add (continuous_qf S)) fun x => ?_
    have := qf_nonneg hS x
    positivity
  · have : (0 : ℝ) < p := by exact_mod_cast hp
    have h0 : qf S 0 = 0 := by simp [qf]
    rw [h0, zero_div]
    positivity

/-- Not consistent, real data: on samples of the t law with `df` degrees of freedom and scatter
matrix `S`, the estimator called with the same `df` tends to `κ S` with `κ < 1`; so not to `S`. -/
theorem C121_real_violated {x : ℕ → Ω → Fin p → ℝ} (hp : 0 < p) (df : ℝ) (hdf : 0 < df)
    (S : Matrix (Fin p) (Fin p) ℝ) (hS : S.PosDef)
    (h : IIDSamples P x (lawOf fun x => Real.exp (tLogDensity df 0 S x)))
    (env : (N : ℕ) → NumEnv N p ℝ) (hs : ∀ N, (env N).eigh.Ok) :
    ∃ κ : ℝ, 0 < κ ∧ κ < 1 ∧ ∀ᵐ ω ∂P,
      TendsTo (fun N init tol iterMax =>
        studentFixedPoint (env N) (firstSamples x ω N) df init tol iterMax) (κ • S) ∧
      ¬ TendsTo (fun N init tol iterMax =>
        studentFixedPoint (env N) (firstSamples x ω N) df init tol iterMax) S := by
  have := h.prob
  obtain ⟨κ, hκ, h1, h2⟩ := C121_elliptical_real h (lawOf_null_real _) hp df hdf S hS
    (realT_elliptical hdf hS) env hs
  obtain ⟨hc, h0⟩ := not_constant hS hdf hp
  obtain ⟨e, he, h3⟩ := wrong_nu hp hdf (half_pos hdf) hS (realT_u hdf hS)
    (lawOf_not_ae (realT_measurable hdf hS) (fun _ => Real.exp_pos _) hc h0)
  have hκ1 : κ < 1 := by
    by_contra hge
    have := scale_mono (μ := lawOf fun x => Real.exp (tLogDensity df 0 S x)) (half_pos hdf).le
      zero_le_one (not_lt.1 hge) hS
    rw [h1, h3] at this
    nlinarith
  refine ⟨κ, hκ, hκ1, ?_⟩
  filter_upwards [h2] with ω hω
  refine ⟨hω, fun h' => ?_⟩
  have e1 := hω.unique h'
  have hd : S ⟨0, hp⟩ ⟨0, hp⟩ ≠ 0 := (hS.diag_pos (i := ⟨0, hp⟩)).ne'
  have e2 := congrFun (congrFun e1 ⟨0, hp⟩) ⟨0, hp⟩
  rw [Matrix.smul_apply, smul_eq_mul] at e2
  exact hκ1.ne ((mul_eq_right₀ hd).1 e2)

/-- Not consistent, complex data: on samples of the complex t law with `df` degrees of freedom, the
estimator called with the same `df` tends to `κ S` with `κ > 1`. -/
theorem C121_complex_violated {x : ℕ → Ω → Fin p → ℂ} (hp : 0 < p) (df : ℝ) (hdf : 0 < df)
    (S : Matrix (Fin p) (Fin p) ℂ) (hS : S.PosDef)
    (h : IIDSamples P x (lawOf fun x => Real.exp (ctLogDensity df 0 S x)))
    (env : (N : ℕ) → NumEnv N p ℂ) (hs : ∀ N, (env N).eigh.Ok) :
    ∃ κ : ℝ, 1 < κ ∧ ∀ᵐ ω ∂P,
      TendsTo (fun N init tol iterMax =>
        complexStudentFixedPoint (env N) (firstSamples x ω N) df init tol iterMax) ((κ : ℂ) • S) ∧
      ¬ TendsTo (fun N init tol iterMax =>
        complexStudentFixedPoint (env N) (firstSamples x ω N) df init tol iterMax) S := by
  have := h.prob
  obtain ⟨κ, hκ, h1, h2⟩ := C121_elliptical_complex h (lawOf_null_cplx _) hp df hdf S hS
    (cplxT_elliptical df hS) env hs
  obtain ⟨hc, h0⟩ := not_constant hS (half_pos hdf) hp
  obtain ⟨e, he, h3⟩ := wrong_nu hp (half_pos hdf) hdf hS (cplxT_u hdf hS)
    (lawOf_not_ae (cplxT_measurable df S) (fun _ => Real.exp_pos _) hc h0)
  have hκ1 : 1 < κ := by
    by_contra hge
    have := scale_mono (μ := lawOf fun x => Real.exp (ctLogDensity df 0 S x)) hdf.le hκ.le
      (not_lt.1 hge) hS
    rw [h1, h3] at this
    nlinarith
  refine ⟨κ, hκ1, ?_⟩
  filter_upwards [h2] with ω hω
  refine ⟨hω, fun h' => ?_⟩
  have e1 := hω.unique h'
  have hd : S ⟨0, hp⟩ ⟨0, hp⟩ ≠ 0 := (hS.diag_pos (i := ⟨0, hp⟩)).ne'
  have e2 := congrFun (congrFun e1 ⟨0, hp⟩) ⟨0, hp⟩
  rw [Matrix.smul_apply, smul_eq_mul] at e2
  have := (mul_eq_right₀ hd).1 e2
  exact hκ1.ne' (by exact_mod_cast this)

/-! The hypotheses of C120 and C121 can be met: independent samples of the normal and of the t law
exist, on the space of sequences. -/

theorem iid_exists {𝕜 : Type} [RCLike 𝕜] [MeasurableSpace 𝕜] (μ : Measure (Fin p → 𝕜))
    [IsProbabilityMeasure μ] :
    IIDSamples (Measure.infinitePi fun _ : ℕ => μ) (fun i ω => ω i) μ :=
  ⟨fun i => measurable_pi_apply i, fun i => (measurePreserving_eval_infinitePi (fun _ : ℕ => μ) i).map_eq,
    iIndepFun_infinitePi (X := fun _ x => x) fun _ => measurable_id⟩

/-- Samples of the bivariate t law with one degree of freedom (which has no mean): Tyler's estimates
with trace normalisation tend to the identity, and so do those of the Student-t estimator called
with `df = 2`; called with `df = 1` it is not consistent. -/
example (env : (N : ℕ) → NumEnv N 2 ℝ) (hs : ∀ N, (env N).eigh.Ok) :
    ∃ (P : Measure (ℕ → Fin 2 → ℝ)), IsProbabilityMeasure P ∧ ∀ᵐ ω ∂P,
      TendsTo (fun N init tol iterMax => tylerFixedPoint (env N)
        (firstSamples (fun i (ω : ℕ → Fin 2 → ℝ) => ω i) ω N) init tol iterMax "trace") 1 ∧
      TendsTo (fun N init tol iterMax => studentFixedPoint (env N)
        (firstSamples (fun i (ω : ℕ → Fin 2 → ℝ) => ω i) ω N) 2 init tol iterMax) 1 ∧
      ¬ TendsTo (fun N init tol iterMax => studentFixedPoint (env N)
        (firstSamples (fun i (ω : ℕ → Fin 2 → ℝ) => ω i) ω N) 1 init tol iterMax) 1 := by
  have h1 : (1 : Matrix (Fin 2) (Fin 2) ℝ).PosDef := PosDef.one
  have hpr := realT_prob one_pos h1
  have h := iid_exists (lawOf fun x => Real.exp (tLogDensity 1 0 (1 : Matrix (Fin 2) (Fin 2) ℝ) x))
  have ht := C120_real h (lawOf_null_real _) two_pos 1 h1
    (C120_elliptical (lawOf_null_real _) two_pos 1 h1 (realT_elliptical one_pos h1)) "trace"
    (Or.inl rfl) ⟨fun _ => by simp, fun h => absurd h (by decide +kernel),
      fun h => absurd h (by decide +kernel)⟩ env hs
  have hm := C121_matched_real_partial two_pos 2 two_pos 1 h1 (x := fun i (ω : ℕ → Fin 2 → ℝ) => ω i)
    (by rw [div_self two_ne_zero]; exact h) env hs
  obtain ⟨κ, -, -, hv⟩ := C121_real_violated two_pos 1 one_pos 1 h1 h env hs
  exact ⟨_, inferInstance, by filter_upwards [ht, hm, hv] with ω a b c using ⟨a, b, c.2⟩⟩

end
end RS
