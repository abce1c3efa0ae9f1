import Verif.Lemmas.StudentEffReal
import Verif.Props.StudentClt
import Verif.Spec.FisherReal

/-
The real Student-t estimator has the smallest possible variance on samples of the law it is made for
(C176).
-/
set_option autoImplicit false

namespace RS
open Matrix ComplexOrder Filter Topology MeasureTheory ProbabilityTheory

section
variable {p : ℕ}

/-- The variance of the limit: `2 (ν + p + 2) / (ν + p) (tr(H S H S) + tr(H S)² / ν)`. -/
noncomputable def realLimitVar (nu : ℝ) (S H : Matrix (Fin p) (Fin p) ℝ) : ℝ :=
  2 * ((nu + p + 2) / (nu + p)) * ((H * S * (H * S)).trace + (H * S).trace ^ 2 / nu)

/-- The Fisher information of the real t laws with `df` degrees of freedom and scatter matrix `S` of
size `p`, for all differentiable curves through `S` with symmetric directions `D` and `E`:
`α/2 tr(S⁻¹ D S⁻¹ E) + (α - 1)/4 tr(S⁻¹ D) tr(S⁻¹ E)` with `α = (df + p)/(df + p + 2)`. -/
theorem C176_fisher (hp : 0 < p) {df : ℝ} (hdf : 0 < df) {c d : ℝ → Matrix (Fin p) (Fin p) ℝ}
    {S D E : Matrix (Fin p) (Fin p) ℝ} (hS : S.PosDef) (hc : c 0 = S) (hd : d 0 = S)
    (hD : D.IsSymm) (hE : E.IsSymm) (hcD : CurveDeriv c D 0) (hdE : CurveDeriv d E 0) :
    RealFisherIs df c d (1 / 2 * ((df + p) / (df + p + 2)) * (S⁻¹ * D * (S⁻¹ * E)).trace +
      1 / 4 * ((df + p) / (df + p + 2) - 1) * ((S⁻¹ * D).trace * (S⁻¹ * E).trace)) := by
  have hD' : D.IsHermitian := by rwa [IsHermitian, conjTranspose_eq_transpose_of_trivial]
  have hE' : E.IsHermitian := by rwa [IsHermitian, conjTranspose_eq_transpose_of_trivial]
  have h1 := fun z => FR.rtScore_deriv hdf (hc ▸ hS) hcD z
  have h2 := fun z => FR.rtScore_deriv hdf (hd ▸ hS) hdE z
  rw [hc] at h1
  rw [hd] at h2
  have e1 : ∀ z, deriv (fun t => tLogDensity df 0 (c t) z) 0 = FR.rtScore df S D z := fun z => (h1 z).deriv
  have e2 : ∀ z, deriv (fun t => tLogDensity df 0 (d t) z) 0 = FR.rtScore df S E z := fun z => (h2 z).deriv
  refine ⟨hc.trans hd.symm, fun z => (h1 z).differentiableAt, fun z => (h2 z).differentiableAt, ?_, ?_⟩
  · simp only [e1, e2, hc]
    exact FR.rtScore_integrable hdf hS hD' hE'
  · simp only [e1, e2, hc]
    rw [FR.rtScore_mul hdf hp hS hD' hE']

/-- The results on independent samples of the t law with `df/2` degrees of freedom and scatter matrix
`S`: for every symmetric `H`, `√N tr(H (T N - S))` converges in distribution to the centred normal law
with variance `realLimitVar (df / 2) S H`. -/
theorem C176_law {Ω : Type*} [MeasurableSpace Ω] {P : Measure Ω} [IsProbabilityMeasure P]
    {x : ℕ → Ω → Fin p → ℝ} (hp : 0 < p) (df : ℝ) (hdf : 0 < df) (S : Matrix (Fin p) (Fin p) ℝ)
    (hS : S.PosDef) (h : IIDSamples P x (lawOf fun x => Real.exp (tLogDensity (df / 2) 0 S x))) :
    ∃ T : ℕ → Ω → Matrix (Fin p) (Fin p) ℝ,
      (∀ᵐ ω ∂P, ∀ N, p ≤ N → ∀ env : NumEnv N p ℝ, env.eigh.Ok →
        SettlesAt (fun init tol iterMax =>
          studentFixedPoint env (firstSamples x ω N) df init tol iterMax) (T N ω)) ∧
      ∀ H : Matrix (Fin p) (Fin p) ℝ, H.IsSymm →
        TendstoInDistribution (fun (N : ℕ) ω => √N * (H * (T N ω - S)).trace) atTop id (fun _ => P)
          (gaussianReal 0 (realLimitVar (df / 2) S H).toNNReal) := by
  have hnu := half_pos hdf
  obtain ⟨T, h1, h2⟩ := C174_real h (lawOf_null_real _) hp df hdf S hS (FR.tLaw_popFixed hnu hS)
  refine ⟨T, h1, fun H hH => ?_⟩
  have hH' : H.IsHermitian := by rwa [IsHermitian, conjTranspose_eq_transpose_of_trivial]
  refine limit_congr (h2 H _ (influence_iff.2 (FR.solK_solves hnu hp hS hH'))) ?_ ?_
  · rw [hH.eq]
  · congr 1
    exact (FR.wScore_var hnu hp hS (FR.solK_herm hS hH')).trans (FR.effVar_eq hnu hp hS hH')

/-- The bound of Cramér and Rao for the same laws: along every differentiable curve of scatter matrices
through `S`, with symmetric direction `D`, the Fisher information `I` satisfies
`tr(H D)² / I ≤ realLimitVar (df / 2) S H`. -/
theorem C176_bound (hp : 0 < p) (df : ℝ) (hdf : 0 < df) (S : Matrix (Fin p) (Fin p) ℝ) (hS : S.PosDef)
    (H : Matrix (Fin p) (Fin p) ℝ) (hH : H.IsSymm) (c : ℝ → Matrix (Fin p) (Fin p) ℝ) (hc : c 0 = S)
    (D : Matrix (Fin p) (Fin p) ℝ) (hD : D.IsSymm) (hcD : CurveDeriv c D 0) (I : ℝ)
    (hI : RealFisherIs (df / 2) c c I) : (H * D).trace ^ 2 ≤ realLimitVar (df / 2) S H * I := by
  have hnu := half_pos hdf
  have hH' : H.IsHermitian := by rwa [IsHermitian, conjTranspose_eq_transpose_of_trivial]
  have hD' : D.IsHermitian := by rwa [IsHermitian, conjTranspose_eq_transpose_of_trivial]
  have e : I = FR.fisherForm (df / 2) S D D :=
    hI.value.symm.trans (C176_fisher hp hnu hS hc hc hD hD hcD hcD).value
  have h := FR.fisher_cs hnu hp hS (FR.sandwich_herm hS (FR.solK_herm (df := df / 2) hS hH')) hD'
  have h1 := FR.fisher_solK hnu hp hS hH' hD'
  have h2 := FR.effVar_eq hnu hp hS hH'
  rw [← h1, e]
  change _ ≤ FR.effVar (df / 2) S H * _
  rw [← h2]
  linarith

/-- The bound is attained: for `H ≠ 0` there is a curve with positive information `I` for which
`tr(H D)² / I = realLimitVar (df / 2) S H`. The estimator is asymptotically efficient. -/
theorem C176_attained (hp : 0 < p) (df : ℝ) (hdf : 0 < df) (S : Matrix (Fin p) (Fin p) ℝ) (hS : S.PosDef)
    (H : Matrix (Fin p) (Fin p) ℝ) (hH : H.IsSymm) (hH0 : H ≠ 0) :
    ∃ (c : ℝ → Matrix (Fin p) (Fin p) ℝ) (D : Matrix (Fin p) (Fin p) ℝ) (I : ℝ), c 0 = S ∧
      D.IsSymm ∧ CurveDeriv c D 0 ∧ RealFisherIs (df / 2) c c I ∧ 0 < I ∧
      (H * D).trace ^ 2 / I = realLimitVar (df / 2) S H := by
  have hnu := half_pos hdf
  have hH' : H.IsHermitian := by rwa [IsHermitian, conjTranspose_eq_transpose_of_trivial]
  have hD := FR.sandwich_herm hS (FR.solK_herm (df := df / 2) hS hH')
  have hDs : (S * FR.solK (df / 2) S H * S).IsSymm := by
    rwa [IsHermitian, conjTranspose_eq_transpose_of_trivial] at hD
  set D := S * FR.solK (df / 2) S H * S with hDdef
  have hpos : 0 < FR.fisherForm (df / 2) S D D := by
    rcases lt_trichotomy 0 (FR.fisherForm (df / 2) S D D) with h | h | h
    · exact h
    · have h1 := FR.fisher_cs hnu hp hS hD hH'
      have h2 := FR.fisher_solK hnu hp hS hH' hH'
      rw [← h, zero_mul] at h1
      rw [pow_eq_zero_iff two_ne_zero |>.1 (h1.antisymm (sq_nonneg _)), mul_zero, ← FR.mip_herm hH'] at h2
      exact absurd (FR.mip_self h2.symm) hH0
    · rw [← (FR.tScore_mul hnu hp hS hD hD).2] at h
      exact absurd h (not_lt.2 (integral_nonneg fun z => mul_self_nonneg _))
  have hc : CurveDeriv (fun t : ℝ => S + t • D) D 0 := fun i j => by
    have := ((hasDerivAt_id (0 : ℝ)).smul_const (D i j)).const_add (S i j)
    simpa using this
  refine ⟨fun t => S + t • D, D, _, by simp, hDs, hc,
    C176_fisher hp hnu hS (by simp) (by simp) hDs hDs hc hc, hpos, ?_⟩
  have h := FR.fisher_solK hnu hp hS hH' hD
  rw [← h]
  change (2 * FR.fisherForm (df / 2) S D D) ^ 2 / FR.fisherForm (df / 2) S D D = FR.effVar (df / 2) S H
  rw [← FR.effVar_eq hnu hp hS hH', ← hDdef]
  field_simp
  norm_num

/-! The hypotheses can be met: samples of the bivariate t law with one degree of freedom, `df = 2`;
`tr(H T)` is twice the entry `(0, 1)` of `T`, and the variance is `20/3`. -/

example : ∃ (P : Measure (ℕ → Fin 2 → ℝ)) (_ : IsProbabilityMeasure P),
    ∃ T : ℕ → (ℕ → Fin 2 → ℝ) → Matrix (Fin 2) (Fin 2) ℝ, (∀ᵐ ω ∂P, ∀ N, 2 ≤ N →
      ∀ env : NumEnv N 2 ℝ, env.eigh.Ok → SettlesAt (fun init tol iterMax => studentFixedPoint env
        (firstSamples (fun i (ω : ℕ → Fin 2 → ℝ) => ω i) ω N) 2 init tol iterMax) (T N ω)) ∧
      TendstoInDistribution (fun (N : ℕ) ω => √N * (!![0, 1; 1, 0] * (T N ω - 1)).trace) atTop id
        (fun _ => P) (gaussianReal 0 (20 / 3)) := by
  have h1 : (1 : Matrix (Fin 2) (Fin 2) ℝ).PosDef := PosDef.one
  have hpr := realT_prob (by norm_num : (0 : ℝ) < 2 / 2) h1
  have h := iid_exists (lawOf fun x => Real.exp (tLogDensity (2 / 2) 0 (1 : Matrix (Fin 2) (Fin 2) ℝ) x))
  obtain ⟨T, a1, a2⟩ := C176_law two_pos 2 two_pos 1 h1 h
  refine ⟨_, inferInstance, T, a1, limit_congr (a2 !![0, 1; 1, 0] ?_) rfl ?_⟩
  · ext i j
    fin_cases i <;> fin_cases j <;> simp
  · have e : realLimitVar (2 / 2) 1 (!![0, 1; 1, 0] : Matrix (Fin 2) (Fin 2) ℝ) = 20 / 3 := by
      unfold realLimitVar
      simp [trace, Fin.sum_univ_two]
      norm_num
    rw [e]
    apply NNReal.eq
    rw [Real.coe_toNNReal _ (by norm_num)]
    norm_num

example : ∃ (c : ℝ → Matrix (Fin 2) (Fin 2) ℝ) (D : Matrix (Fin 2) (Fin 2) ℝ) (I : ℝ), c 0 = 1 ∧
    D.IsSymm ∧ CurveDeriv c D 0 ∧ RealFisherIs 1 c c I ∧ 0 < I ∧
    (!![0, 1; 1, 0] * D).trace ^ 2 / I = 20 / 3 := by
  obtain ⟨c, D, I, h1, h2, h3, h4, h5, h6⟩ := C176_attained two_pos 2 two_pos 1 PosDef.one
    (!![0, 1; 1, 0] : Matrix (Fin 2) (Fin 2) ℝ) (by ext i j; fin_cases i <;> fin_cases j <;> simp)
    (fun h => by simpa using congrFun (congrFun h 0) 1)
  refine ⟨c, D, I, h1, h2, h3, by simpa using h4, h5, h6.trans ?_⟩
  unfold realLimitVar
  simp [trace, Fin.sum_univ_two]
  norm_num

end
end RS
