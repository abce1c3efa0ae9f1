import Verif.Lemmas.KronConsist
import Verif.Props.KronExist
import Verif.Props.Consist

/-
The Kronecker estimate and the law of the data, when the number of samples grows (C149).
-/
set_option autoImplicit false

namespace RS
open Matrix ComplexOrder Filter Topology MeasureTheory

/-- The results of `estimation_cov_kronecker_MM` on the first `N` samples tend to the shapes of `A`
and `B`: for every `ε`, from some `N` on, if `tol` is small and `iter_max` large enough, the call
returns matrices which, divided by their traces, are within `ε` of `A` and `B` divided by theirs, and
the same holds for the Kronecker products. -/
def KronTendsTo {𝕜 : Type} [RCLike 𝕜] {a b : ℕ}
    (run : ℕ → ℝ → ℤ → Py (Option (KronOut a b 𝕜)))
    (A : Matrix (Fin a) (Fin a) 𝕜) (B : Matrix (Fin b) (Fin b) 𝕜) : Prop :=
  ∀ ε : ℝ, 0 < ε → ∃ N₀ : ℕ, ∀ N, N₀ ≤ N → ∃ (tol₀ : ℝ) (K : ℕ), 0 < tol₀ ∧
    ∀ (tol : ℝ) (iterMax : ℤ), tol ≤ tol₀ → K ≤ iterMax → ∃ o, run N tol iterMax = .ok (some o) ∧
      frobDist (unitTrace o.A) (unitTrace A) < ε ∧ frobDist (unitTrace o.B) (unitTrace B) < ε ∧
      frobDist (unitTrace (kron o.A o.B)) (unitTrace (kron A B)) < ε

/-- The covariance stored by `fit` of `KroneckerEllipticalMM(a, b, tol, iter_max)` on the first `N`
samples, divided by its trace, tends to `S` divided by its trace. -/
def CovTendsTo {a b : ℕ} (run : ℕ → ℝ → ℤ → Py (KronFit a b))
    (S : Matrix (Fin (a * b)) (Fin (a * b)) ℂ) : Prop :=
  ∀ ε : ℝ, 0 < ε → ∃ N₀ : ℕ, ∀ N, N₀ ≤ N → ∃ (tol₀ : ℝ) (K : ℕ), 0 < tol₀ ∧
    ∀ (tol : ℝ) (iterMax : ℤ), tol ≤ tol₀ → K ≤ iterMax → ∃ f C, run N tol iterMax = .ok f ∧
      f.covariance = .cplx (.d2 (a * b) (a * b) C) ∧ frobDist (unitTrace C) (unitTrace S) < ε

/-- The stored covariances cannot tend to two different shapes. -/
theorem CovTendsTo.unique {a b : ℕ} {run : ℕ → ℝ → ℤ → Py (KronFit a b)}
    {S S' : Matrix (Fin (a * b)) (Fin (a * b)) ℂ} (h : CovTendsTo run S) (h' : CovTendsTo run S') :
    unitTrace S = unitTrace S' := by
  by_contra hne
  have hpos : 0 < frobDist (unitTrace S) (unitTrace S') := by
    rw [frobDist_eq]
    exact lt_of_le_of_ne (frob_nonneg _) fun e => hne (sub_eq_zero.1 ((frob_eq_zero _).1 e.symm))
  obtain ⟨N₁, h1⟩ := h _ (half_pos hpos)
  obtain ⟨N₂, h2⟩ := h' _ (half_pos hpos)
  obtain ⟨t₁, K₁, -, h3⟩ := h1 (max N₁ N₂) (le_max_left _ _)
  obtain ⟨t₂, K₂, -, h4⟩ := h2 (max N₁ N₂) (le_max_right _ _)
  obtain ⟨f, C, h5, h6, h7⟩ := h3 (min t₁ t₂) (max K₁ K₂ : ℕ) (min_le_left _ _)
    (by exact_mod_cast le_max_left _ _)
  obtain ⟨f', C', h5', h6', h7'⟩ := h4 (min t₁ t₂) (max K₁ K₂ : ℕ) (min_le_right _ _)
    (by exact_mod_cast le_max_right _ _)
  rw [h5] at h5'
  cases h5'
  rw [h6] at h6'
  cases h6'
  have h9 := frobDist_triangle (unitTrace S) (unitTrace C) (unitTrace S')
  have h10 : frobDist (unitTrace S) (unitTrace C) = frobDist (unitTrace C) (unitTrace S) := by
    rw [frobDist_eq, frobDist_eq, frob_sub_comm]
  linarith

section
variable {a b : ℕ} {Ω : Type*} [MeasurableSpace Ω] {P : Measure Ω} [IsProbabilityMeasure P]

/-- What the estimates tend to, real or complex data: if the population equation of Tyler's estimator
holds for `Aᵀ ⊗ B`, the two estimates tend to the shapes of `A` and `B`, almost surely. -/
theorem C149_exact {𝕜 : Type} [RCLike 𝕜] [MeasurableSpace 𝕜] [BorelSpace 𝕜]
    {x : ℕ → Ω → Fin (a * b) → 𝕜} {μ : Measure (Fin (a * b) → 𝕜)} (h : IIDSamples P x μ)
    (hμ : NullSubspaces μ) (ha : 0 < a) (hb : 0 < b) (A : Matrix (Fin a) (Fin a) 𝕜)
    (B : Matrix (Fin b) (Fin b) 𝕜) (hA : A.PosDef) (hB : B.PosDef) (hf : PopFixed 0 μ (kron Aᵀ B))
    (sq : Sqrtm 𝕜) (hsq : SqrtmPD sq) :
    ∀ᵐ ω ∂P, KronTendsTo (fun N tol iterMax =>
      kroneckerMM sq (firstSamples x ω N) a b tol iterMax) A B := by
  have hab : 0 < a * b := Nat.mul_pos ha hb
  filter_upwards [h.cost_consistent hμ hab (kron_posDef hA.transpose hB) hf, h.generalPosition hμ]
    with ω hω hg
  have h0 : ∀ N i, (firstSamples x ω N) i ≠ 0 := fun N i e =>
    generalPosition_nonzero (hg N) hab i (by ext j; simp [sample, e])
  have hex : ∀ N, ∃ (A' : Matrix (Fin a) (Fin a) 𝕜) (B' : Matrix (Fin b) (Fin b) 𝕜),
      A'.PosDef ∧ B'.PosDef ∧ (a * b < N →
        KronFixed (fun i => unstack (firstSamples x ω N i)) A' B' ∧
        ∀ ε : ℝ, 0 < ε → ∃ (tol₀ : ℝ) (K : ℕ), 0 < tol₀ ∧
          ∀ (tol : ℝ) (iterMax : ℤ), tol ≤ tol₀ → K ≤ iterMax → ∃ o,
          kroneckerMM sq (firstSamples x ω N) a b tol iterMax = .ok (some o) ∧
          frobDist o.A A' < ε ∧ frobDist o.B B' < ε) := fun N => by
    by_cases hN : a * b < N
    · obtain ⟨A', B', h1, h2, -⟩ := C145_converges sq hsq (firstSamples x ω N) (by omega) ha hb (h0 N)
        (C145_general_position _ ha hb hN (hg N))
      exact ⟨A', B', h1.posA, h1.posB, fun _ => ⟨h1, h2⟩⟩
    · exact ⟨1, 1, PosDef.one, PosDef.one, fun h => absurd h hN⟩
  choose An Bn hAn hBn hfix using hex
  obtain ⟨c, hc, hlim⟩ := hω (fun N => kron (An N)ᵀ (Bn N)) (by
    filter_upwards [eventually_gt_atTop (a * b)] with N hN
    obtain ⟨h1, -⟩ := hfix N hN
    exact ⟨kron_posDef (hAn N).transpose (hBn N), kron_fixed_minimises _ (by omega) (h0 N) (hAn N)
      (hBn N) h1.eqA h1.eqB hA hB⟩)
  obtain ⟨tA', tB⟩ := factors_tendsto ha hb hA.transpose hB (fun N => (hAn N).transpose) hBn hc hlim
  have tA : Tendsto (fun N => unitTrace (An N)) atTop (𝓝 (unitTrace A)) := by
    have hct : Continuous fun M : Matrix (Fin a) (Fin a) 𝕜 => Mᵀ := by fun_prop
    have h1 := (hct.tendsto _).comp tA'
    rw [← unitTrace_transpose, transpose_transpose] at h1
    refine h1.congr fun N => ?_
    simp only [Function.comp, ← unitTrace_transpose, transpose_transpose]
  have tK : Tendsto (fun N => unitTrace (kron (An N) (Bn N))) atTop (𝓝 (unitTrace (kron A B))) := by
    simp only [unitTrace_kron]
    exact tendsto_kron tA tB
  intro ε hε
  obtain ⟨N₁, hN₁⟩ := eventually_atTop.1 (((frob_of_tendsto tA).eventually (gt_mem_nhds hε)).and
    (((frob_of_tendsto tB).eventually (gt_mem_nhds hε)).and
      ((frob_of_tendsto tK).eventually (gt_mem_nhds hε))))
  refine ⟨max N₁ (a * b + 1), fun N hN => ?_⟩
  obtain ⟨-, hcalls⟩ := hfix N (by omega)
  obtain ⟨e1, e2, e3⟩ := hN₁ N (by omega)
  have hfr : ∀ {n : ℕ} (S : Matrix (Fin n) (Fin n) 𝕜), Continuous fun M : Matrix (Fin n) (Fin n) 𝕜 =>
      frob (M - S) :=
    fun S => by unfold frob; fun_prop
  have cA : ContinuousAt (fun z : Matrix (Fin a) (Fin a) 𝕜 × Matrix (Fin b) (Fin b) 𝕜 =>
      unitTrace z.1) (An N, Bn N) :=
    ContinuousAt.comp (g := unitTrace) (f := Prod.fst)
      (unitTrace_continuousAt (trace_ne_zero_of_posDef (hAn N) ha)) continuousAt_fst
  have cB : ContinuousAt (fun z : Matrix (Fin a) (Fin a) 𝕜 × Matrix (Fin b) (Fin b) 𝕜 =>
      unitTrace z.2) (An N, Bn N) :=
    ContinuousAt.comp (g := unitTrace) (f := Prod.snd)
      (unitTrace_continuousAt (trace_ne_zero_of_posDef (hBn N) hb)) continuousAt_snd
  have cK : ContinuousAt (fun z : Matrix (Fin a) (Fin a) 𝕜 × Matrix (Fin b) (Fin b) 𝕜 =>
      unitTrace (kron z.1 z.2)) (An N, Bn N) := by
    simp only [unitTrace_kron]
    exact tendsto_kron cA cB
  obtain ⟨δ, hδ, hclose⟩ := close_pair (((((hfr (unitTrace A)).continuousAt.comp cA).eventually
    (gt_mem_nhds e1))).and ((((hfr (unitTrace B)).continuousAt.comp cB).eventually
    (gt_mem_nhds e2)).and (((hfr (unitTrace (kron A B))).continuousAt.comp cK).eventually
    (gt_mem_nhds e3))))
  obtain ⟨tol₀, K, h1, h2⟩ := hcalls δ hδ
  refine ⟨tol₀, K, h1, fun tol iterMax htol hK => ?_⟩
  obtain ⟨o, h3, h4, h5⟩ := h2 tol iterMax htol hK
  exact ⟨o, h3, hclose _ _ h4 h5⟩

/-- Consistent, real data: on independent samples of an elliptical law with scatter matrix `A ⊗ B`,
the two estimates tend to the shapes of `A` and `B` and their Kronecker product to the shape of the
scatter matrix. Missing for the full claim: complex data, where it fails. -/
theorem C149_real_partial {x : ℕ → Ω → Fin (a * b) → ℝ} {μ : Measure (Fin (a * b) → ℝ)}
    (h : IIDSamples P x μ) (hμ : NullSubspaces μ) (ha : 0 < a) (hb : 0 < b)
    (A : Matrix (Fin a) (Fin a) ℝ) (B : Matrix (Fin b) (Fin b) ℝ) (hA : A.PosDef) (hB : B.PosDef)
    (hE : EllipticalLaw μ (kron A B)) (sq : Sqrtm ℝ) (hsq : SqrtmPD sq) :
    ∀ᵐ ω ∂P, KronTendsTo (fun N tol iterMax =>
      kroneckerMM sq (firstSamples x ω N) a b tol iterMax) A B := by
  have := h.prob
  have hT : Aᵀ = A := by have := hA.1.eq; rwa [conjTranspose_eq_transpose_of_trivial] at this
  refine C149_exact h hμ ha hb A B hA hB ?_ sq hsq
  rw [hT]
  exact elliptical_tyler hμ (Nat.mul_pos ha hb) (kron_posDef hA hB) hE

/-- `fit` of `KroneckerEllipticalMM` on independent complex samples of an elliptical law with scatter
matrix `A ⊗ B`: the stored covariance tends to the shape of `Aᵀ ⊗ B`. -/
theorem C149_fit_exact {x : ℕ → Ω → Fin (a * b) → ℂ} {μ : Measure (Fin (a * b) → ℂ)}
    (h : IIDSamples P x μ) (hμ : NullSubspaces μ) (ha : 0 < a) (hb : 0 < b)
    (A : Matrix (Fin a) (Fin a) ℂ) (B : Matrix (Fin b) (Fin b) ℂ) (hA : A.PosDef) (hB : B.PosDef)
    (hE : EllipticalLaw μ (kron A B)) (sq : Sqrtm ℂ) (hsq : SqrtmPD sq) :
    ∀ᵐ ω ∂P, CovTendsTo (fun N tol iterMax => kronMMFit sq ⟨a, b, tol, iterMax⟩
      (.cplx (.d2 N (a * b) (firstSamples x ω N)))) (kron Aᵀ B) := by
  have := h.prob
  have hab : 0 < a * b := Nat.mul_pos ha hb
  filter_upwards [C149_exact h hμ ha hb Aᵀ B hA.transpose hB (by
    rw [transpose_transpose]; exact elliptical_tyler hμ hab (kron_posDef hA hB) hE) sq hsq]
    with ω hω ε hε
  obtain ⟨N₀, h1⟩ := hω ε hε
  refine ⟨max N₀ 1, fun N hN => ?_⟩
  obtain ⟨tol₀, K, h2, h3⟩ := h1 N (by omega)
  refine ⟨tol₀, K, h2, fun tol iterMax htol hK => ?_⟩
  obtain ⟨o, h4, -, -, h5⟩ := h3 tol iterMax htol hK
  refine ⟨⟨o.A, o.B, .cplx (.d2 (a * b) (a * b) (kron o.A o.B))⟩, kron o.A o.B, ?_, rfl, h5⟩
  simp only [kronMMFit, arraytoreal_check_complex N (a * b) (by omega) hab _, Bind.bind, Except.bind,
    h4, npKron_eq, setCovariance_complex (a * b) hab, pure, Except.pure]

/-- Consistent when the first factor is a real matrix (or a multiple of one). Missing for the full
claim: the other factors, where it fails (`C149_violated`). -/
theorem C149_fit_partial {x : ℕ → Ω → Fin (a * b) → ℂ} {μ : Measure (Fin (a * b) → ℂ)}
    (h : IIDSamples P x μ) (hμ : NullSubspaces μ) (ha : 0 < a) (hb : 0 < b)
    (A : Matrix (Fin a) (Fin a) ℂ) (B : Matrix (Fin b) (Fin b) ℂ) (hA : A.PosDef) (hB : B.PosDef)
    (hE : EllipticalLaw μ (kron A B)) (hT : ∀ i j, (A i j).im = 0) (sq : Sqrtm ℂ) (hsq : SqrtmPD sq) :
    ∀ᵐ ω ∂P, CovTendsTo (fun N tol iterMax => kronMMFit sq ⟨a, b, tol, iterMax⟩
      (.cplx (.d2 N (a * b) (firstSamples x ω N)))) (kron A B) := by
  have hT' : Aᵀ = A := by
    ext i j
    rw [transpose_apply, ← hA.1.apply i j]
    exact (Complex.conj_eq_iff_im.2 (hT j i)).symm
  have := C149_fit_exact h hμ ha hb A B hA hB hE sq hsq
  rwa [hT'] at this

/-- Not consistent otherwise: on samples of an elliptical law (such as the complex normal law) with
scatter matrix `A ⊗ B`, where `A` has an entry with nonzero imaginary part, the stored covariance
almost surely does not tend to the shape of the scatter matrix. -/
theorem C149_fit_wrong {x : ℕ → Ω → Fin (a * b) → ℂ} {μ : Measure (Fin (a * b) → ℂ)}
    (h : IIDSamples P x μ) (hμ : NullSubspaces μ) (ha : 0 < a) (hb : 0 < b)
    (A : Matrix (Fin a) (Fin a) ℂ) (B : Matrix (Fin b) (Fin b) ℂ) (hA : A.PosDef) (hB : B.PosDef)
    (hE : EllipticalLaw μ (kron A B)) (hT : ∃ i j, (A i j).im ≠ 0) (sq : Sqrtm ℂ)
    (hsq : SqrtmPD sq) :
    ∀ᵐ ω ∂P, ¬ CovTendsTo (fun N tol iterMax => kronMMFit sq ⟨a, b, tol, iterMax⟩
      (.cplx (.d2 N (a * b) (firstSamples x ω N)))) (kron A B) := by
  filter_upwards [C149_fit_exact h hμ ha hb A B hA hB hE sq hsq] with ω hω h'
  have h1 := hω.unique h'
  have tA := trace_ne_zero_of_posDef hA ha
  have tB := trace_ne_zero_of_posDef hB hb
  have h2 : leftTrace (unitTrace (kron Aᵀ B)) = leftTrace (unitTrace (kron A B)) := by rw [h1]
  unfold unitTrace at h2
  rw [leftTrace_smul, leftTrace_smul, leftTrace_kron, leftTrace_kron, trace_kron', trace_kron',
    trace_transpose] at h2
  have h3 := smul_right_injective _ (inv_ne_zero (mul_ne_zero tA tB)) h2
  have h4 : Aᵀ = A := smul_right_injective _ tB h3
  obtain ⟨i, j, hij⟩ := hT
  refine hij (Complex.conj_eq_iff_im.1 ?_)
  have h5 := congrFun (congrFun h4 j) i
  rw [transpose_apply] at h5
  have h6 := hA.1.apply j i
  rw [← h5] at h6
  exact h6

end

/-- C149 is false: samples of the complex normal law with covariance `A ⊗ B`, `A = [[2, i], [-i, 2]]`,
`B = [1]`. -/
theorem C149_violated : ∃ (A : Matrix (Fin 2) (Fin 2) ℂ) (B : Matrix (Fin 1) (Fin 1) ℂ)
    (P : Measure (ℕ → Fin (2 * 1) → ℂ)), A.PosDef ∧ B.PosDef ∧ IsProbabilityMeasure P ∧
    IIDSamples P (fun i ω => ω i) (lawOf fun x => Real.exp (cnormalLogDensity 0 (kron A B) x)) ∧
    ∀ sq : Sqrtm ℂ, SqrtmPD sq → ∀ᵐ ω ∂P, ¬ CovTendsTo (fun N tol iterMax =>
      kronMMFit sq ⟨2, 1, tol, iterMax⟩
        (.cplx (.d2 N (2 * 1) (firstSamples (fun i (ω : ℕ → Fin (2 * 1) → ℂ) => ω i) ω N))))
      (kron A B) := by
  have hA := herm2_posDef 2 1 (by norm_num)
  have hB : (1 : Matrix (Fin 1) (Fin 1) ℂ).PosDef := PosDef.one
  have hK := kron_posDef hA hB
  have hpr : IsProbabilityMeasure
      (lawOf fun x => Real.exp (cnormalLogDensity 0
      (kron (herm2 2 1) (1 : Matrix (Fin 1) (Fin 1) ℂ)) x)) := by
    apply prob_of_real
    rw [exp_cnormal_zOf 0 hK]
    exact ell_prob (gNormal_moments _).toRadialMass ((realify_posDef _).2 hK)
  have h := iid_exists (lawOf fun x => Real.exp (cnormalLogDensity 0
      (kron (herm2 2 1) (1 : Matrix (Fin 1) (Fin 1) ℂ)) x))
  refine ⟨herm2 2 1, 1, _, hA, hB, inferInstance, h, fun sq hsq => ?_⟩
  exact C149_fit_wrong h (lawOf_null_cplx _) (by norm_num) (by norm_num) _ _ hA hB
    (cplxN_elliptical hK) ⟨0, 1, by simp [herm2]⟩ sq hsq

/-- Samples of the real t law with one degree of freedom (which has no mean), with any scatter matrix
`A ⊗ B`: the estimates tend to the shapes of `A` and `B`. -/
example (a b : ℕ) (ha : 0 < a) (hb : 0 < b) (A : Matrix (Fin a) (Fin a) ℝ)
    (B : Matrix (Fin b) (Fin b) ℝ) (hA : A.PosDef) (hB : B.PosDef) :
    ∃ P : Measure (ℕ → Fin (a * b) → ℝ), IsProbabilityMeasure P ∧
      ∀ sq : Sqrtm ℝ, SqrtmPD sq → ∀ᵐ ω ∂P, KronTendsTo (fun N tol iterMax => kroneckerMM sq
        (firstSamples (fun i (ω : ℕ → Fin (a * b) → ℝ) => ω i) ω N) a b tol iterMax) A B := by
  have hK := kron_posDef hA hB
  have hpr := realT_prob one_pos hK
  have h := iid_exists (lawOf fun x => Real.exp (tLogDensity 1 0 (kron A B) x))
  exact ⟨_, inferInstance, fun sq hsq => C149_real_partial h (lawOf_null_real _) ha hb A B hA hB
    (realT_elliptical one_pos hK) sq hsq⟩

end RS
