import Verif.Lemmas.StudentEff
import Verif.Props.StudentClt
import Verif.Props.Fisher

/-
The complex Student-t estimator has the smallest possible variance on samples of the law it is made
for (C175).
-/
set_option autoImplicit false

namespace RS
open Matrix ComplexOrder Filter Topology MeasureTheory ProbabilityTheory

section
variable {p : ℕ}

/-- The variance of the limit: `(df + p + 1) / (df + p) (tr(H S H S) + tr(H S)² / df)`. -/
noncomputable def limitVar (df : ℝ) (S H : Matrix (Fin p) (Fin p) ℂ) : ℝ :=
  (df + p + 1) / (df + p) * ((H * S * (H * S)).trace.re + (H * S).trace.re ^ 2 / df)

/-- The results on independent samples of the complex t law with `2 df` degrees of freedom and scatter
matrix `S`: for every Hermitian `H`, `√N tr(H (T N - S))` converges in distribution to the centred
normal law with variance `limitVar df S H`. -/
theorem C175_law {Ω : Type*} [MeasurableSpace Ω] {P : Measure Ω} [IsProbabilityMeasure P]
    {x : ℕ → Ω → Fin p → ℂ} (hp : 0 < p) (df : ℝ) (hdf : 0 < df) (S : Matrix (Fin p) (Fin p) ℂ)
    (hS : S.PosDef) (h : IIDSamples P x (lawOf fun x => Real.exp (ctLogDensity (2 * df) 0 S x))) :
    ∃ T : ℕ → Ω → Matrix (Fin p) (Fin p) ℂ,
      (∀ᵐ ω ∂P, ∀ N, p ≤ N → ∀ env : NumEnv N p ℂ, env.eigh.Ok →
        SettlesAt (fun init tol iterMax =>
          complexStudentFixedPoint env (firstSamples x ω N) df init tol iterMax) (T N ω)) ∧
      ∀ H : Matrix (Fin p) (Fin p) ℂ, H.IsHermitian →
        TendstoInDistribution (fun (N : ℕ) ω => √N * (H * (T N ω - S)).trace.re) atTop id (fun _ => P)
          (gaussianReal 0 (limitVar df S H).toNNReal) := by
  obtain ⟨T, h1, h2⟩ := C174_complex h (lawOf_null_cplx _) hp df hdf S hS (tLaw_popFixed hdf hS)
  refine ⟨T, h1, fun H hH => limit_congr (h2 H _ (influence_iff.2 (solK_solves hdf hp hS hH))) ?_ ?_⟩
  · rw [hH.eq]
  · congr 1
    exact (wScore_var hdf hp hS (solK_herm hS hH)).trans (effVar_eq hdf hp hS hH)

theorem fisher_curve (hp : 0 < p) {df : ℝ} (hdf : 0 < df) {c : ℝ → Matrix (Fin p) (Fin p) ℂ}
    {S D : Matrix (Fin p) (Fin p) ℂ} (hS : S.PosDef) (hc : c 0 = S) (hD : D.IsHermitian)
    (hcD : CurveDeriv c D 0) : FisherIs (2 * df) c c (fisherForm df S D D) := by
  have h := C140_fisher hp (by linarith : 0 < 2 * df) hS hc hc hD hD hcD hcD
  have e : (2 * df + 2 * p) / (2 * df + 2 * p + 2) = (df + p) / (df + p + 1) := by field_simp
  rwa [e] at h

/-- The bound of Cramér and Rao for the same laws: along every differentiable curve of scatter matrices
through `S`, with Hermitian direction `D`, the Fisher information `I` satisfies
`tr(H D)² / I ≤ limitVar df S H`. -/
theorem C175_bound (hp : 0 < p) (df : ℝ) (hdf : 0 < df) (S : Matrix (Fin p) (Fin p) ℂ) (hS : S.PosDef)
    (H : Matrix (Fin p) (Fin p) ℂ) (hH : H.IsHermitian) (c : ℝ → Matrix (Fin p) (Fin p) ℂ) (hc : c 0 = S)
    (D : Matrix (Fin p) (Fin p) ℂ) (hD : D.IsHermitian) (hcD : CurveDeriv c D 0) (I : ℝ)
    (hI : FisherIs (2 * df) c c I) : (H * D).trace.re ^ 2 ≤ limitVar df S H * I := by
  have e : I = fisherForm df S D D := hI.value.symm.trans (fisher_curve hp hdf hS hc hD hcD).value
  have h := fisher_cs hdf hp hS (sandwich_herm hS (solK_herm (df := df) hS hH)) hD
  rwa [fisher_solK hdf hp hS hH hD, effVar_eq hdf hp hS hH, ← e] at h

/-- The bound is attained: for `H ≠ 0` there is a curve with positive information `I` for which
`tr(H D)² / I = limitVar df S H`. The estimator is asymptotically efficient: its limit variance is the
largest of the Cramér–Rao bounds of the one-parameter families through `S`. -/
theorem C175_attained (hp : 0 < p) (df : ℝ) (hdf : 0 < df) (S : Matrix (Fin p) (Fin p) ℂ) (hS : S.PosDef)
    (H : Matrix (Fin p) (Fin p) ℂ) (hH : H.IsHermitian) (hH0 : H ≠ 0) :
    ∃ (c : ℝ → Matrix (Fin p) (Fin p) ℂ) (D : Matrix (Fin p) (Fin p) ℂ) (I : ℝ), c 0 = S ∧
      D.IsHermitian ∧ CurveDeriv c D 0 ∧ FisherIs (2 * df) c c I ∧ 0 < I ∧
      (H * D).trace.re ^ 2 / I = limitVar df S H := by
  have hK := solK_herm (df := df) hS hH
  have hD := sandwich_herm hS hK
  have hpos : 0 < fisherForm df S (S * solK df S H * S) (S * solK df S H * S) := by
    rcases lt_trichotomy 0 (fisherForm df S (S * solK df S H * S) (S * solK df S H * S)) with h | h | h
    · exact h
    · have h1 := fisher_cs hdf hp hS hD hH
      rw [← h, zero_mul, fisher_solK hdf hp hS hH hH, ← mip_herm hH] at h1
      exact absurd (mip_self (pow_eq_zero_iff two_ne_zero |>.1 (h1.antisymm (sq_nonneg _)))) hH0
    · rw [← (tScore_mul hdf hp hS hD hD).2] at h
      exact absurd h (not_lt.2 (integral_nonneg fun z => mul_self_nonneg _))
  have hc : CurveDeriv (fun t : ℝ => S + t • (S * solK df S H * S)) (S * solK df S H * S) 0 := fun i j => by
    have := ((hasDerivAt_id (0 : ℝ)).smul_const ((S * solK df S H * S) i j)).const_add (S i j)
    simpa using this
  refine ⟨fun t => S + t • (S * solK df S H * S), S * solK df S H * S, _, by simp, hD, hc,
    fisher_curve hp hdf hS (by simp) hD hc, hpos, ?_⟩
  · have h := fisher_solK hdf hp hS hH hD
    rw [← h, sq, mul_div_assoc, div_self hpos.ne', mul_one, effVar_eq hdf hp hS hH]
    rfl

/-! The hypotheses can be met: samples of the bivariate complex t law with two degrees of freedom,
`df = 1`; `tr(H T)` is twice the real part of the entry `(0, 1)` of `T`, and the variance is `8/3`. -/

example : ∃ (P : Measure (ℕ → Fin 2 → ℂ)) (_ : IsProbabilityMeasure P),
    ∃ T : ℕ → (ℕ → Fin 2 → ℂ) → Matrix (Fin 2) (Fin 2) ℂ, (∀ᵐ ω ∂P, ∀ N, 2 ≤ N →
      ∀ env : NumEnv N 2 ℂ, env.eigh.Ok → SettlesAt (fun init tol iterMax => complexStudentFixedPoint env
        (firstSamples (fun i (ω : ℕ → Fin 2 → ℂ) => ω i) ω N) 1 init tol iterMax) (T N ω)) ∧
      TendstoInDistribution (fun (N : ℕ) ω => √N * (!![0, 1; 1, 0] * (T N ω - 1)).trace.re) atTop id
        (fun _ => P) (gaussianReal 0 (8 / 3)) := by
  have h1 : (1 : Matrix (Fin 2) (Fin 2) ℂ).PosDef := PosDef.one
  have hpr := cplxT_prob (by norm_num : (0 : ℝ) < 2 * 1) h1
  have h := iid_exists (lawOf fun x => Real.exp (ctLogDensity (2 * 1) 0 (1 : Matrix (Fin 2) (Fin 2) ℂ) x))
  obtain ⟨T, a1, a2⟩ := C175_law two_pos 1 one_pos 1 h1 h
  refine ⟨_, inferInstance, T, a1, limit_congr (a2 !![0, 1; 1, 0] ?_) rfl ?_⟩
  · ext i j
    fin_cases i <;> fin_cases j <;> simp
  · have e : limitVar 1 1 (!![0, 1; 1, 0] : Matrix (Fin 2) (Fin 2) ℂ) = 8 / 3 := by
      unfold limitVar
      simp [trace, Fin.sum_univ_two]
      norm_num
    rw [e]
    apply NNReal.eq
    rw [Real.coe_toNNReal _ (by norm_num)]
    norm_num

example : ∃ (c : ℝ → Matrix (Fin 2) (Fin 2) ℂ) (D : Matrix (Fin 2) (Fin 2) ℂ) (I : ℝ), c 0 = 1 ∧
    D.IsHermitian ∧ CurveDeriv c D 0 ∧ FisherIs 2 c c I ∧ 0 < I ∧
    (!![0, 1; 1, 0] * D).trace.re ^ 2 / I = 8 / 3 := by
  obtain ⟨c, D, I, h1, h2, h3, h4, h5, h6⟩ := C175_attained two_pos 1 one_pos 1 PosDef.one
    (!![0, 1; 1, 0] : Matrix (Fin 2) (Fin 2) ℂ) (by ext i j; fin_cases i <;> fin_cases j <;> simp)
    (fun h => by simpa using congrFun (congrFun h 0) 1)
  refine ⟨c, D, I, h1, h2, h3, by simpa using h4, h5, h6.trans ?_⟩
  unfold limitVar
  simp [trace, Fin.sum_univ_two]
  norm_num

end
end RS
