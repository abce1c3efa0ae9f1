import Verif.Props.CorrInterval

/-
How much accuracy Tyler's estimator loses on samples of the t law (C187).
-/
set_option autoImplicit false

namespace RS
open Matrix ComplexOrder Filter Topology MeasureTheory ProbabilityTheory

section
variable {p : ℕ} {Ω : Type*} [MeasurableSpace Ω] {P : Measure Ω} [IsProbabilityMeasure P]

theorem loss_bounds {a b c : ℝ} (ha : 0 < a) (hb : 0 < b) (hc : 0 < c) {k : ℝ} (hk : 0 < k) :
    k * (1 + a / (b + c)) < k * (1 + a / c) ∧ k * (1 + a / c) < (1 + a / c) * (k * (1 + a / (b + c))) := by
  have h1 : a / (b + c) < a / c := div_lt_div_of_pos_left ha hc (by linarith)
  have h2 : 0 < a / (b + c) := by positivity
  have h3 : 0 < a / c := by positivity
  have h4 : 0 < k * (1 + a / c) := by positivity
  constructor
  · nlinarith
  · nlinarith [mul_pos h4 h2]

/-- Real samples of the t law with `df / 2` degrees of freedom: correlations of the Student-t estimate with
parameter `df` have a smaller variance in the limit than those of Tyler's estimate, but the ratio is below
`1 + 2/p` whatever `df`. -/
theorem C187_real {x : ℕ → Ω → Fin p → ℝ} (hp : 0 < p) (df : ℝ) (hdf : 0 < df)
    (S : Matrix (Fin p) (Fin p) ℝ) (hS : S.PosDef)
    (h : IIDSamples P x (lawOf fun x => Real.exp (tLogDensity (df / 2) 0 S x)))
    (name : String) (hname : name = "trace" ∨ name = "determinant" ∨ name = "element") :
    ∃ T U : ℕ → Ω → Matrix (Fin p) (Fin p) ℝ,
      (∀ᵐ ω ∂P, ∀ N, p ≤ N → ∀ env : NumEnv N p ℝ, env.eigh.Ok →
        SettlesAt (fun init tol iterMax =>
          studentFixedPoint env (firstSamples x ω N) df init tol iterMax) (T N ω)) ∧
      (∀ᵐ ω ∂P, ∀ N, p < N → ∀ env : NumEnv N p ℝ, env.eigh.Ok →
        SettlesAt (fun init tol iterMax =>
          tylerFixedPoint env (firstSamples x ω N) init tol iterMax name) (U N ω)) ∧
      ∀ i j, i ≠ j → ∃ v w : NNReal,
        TendstoInDistribution (fun (N : ℕ) ω => √N * (correlation i j (T N ω) - correlation i j S)) atTop id
          (fun _ => P) (gaussianReal 0 v) ∧
        TendstoInDistribution (fun (N : ℕ) ω => √N * (correlation i j (U N ω) - correlation i j S)) atTop id
          (fun _ => P) (gaussianReal 0 w) ∧
        v < w ∧ (w : ℝ) < (1 + 2 / p) * v := by
  have hp' : (0 : ℝ) < p := by exact_mod_cast hp
  have hd : 0 < df / 2 := half_pos hdf
  have hpr := realT_prob hd hS
  obtain ⟨T, a1, a2⟩ := C178_correlation_student hp df hdf S hS h
  obtain ⟨U, b1, b2⟩ := C178_correlation_tyler h (lawOf_null_real _) hp S hS (realT_elliptical hd hS) name hname
  refine ⟨T, U, a1, b1, fun i j hij => ⟨_, _, a2 i j, b2 i j, ?_⟩⟩
  have h2 : 0 < 1 - correlation i j S ^ 2 := by
    have := (sq_lt_one_iff_abs_lt_one _).2 (correlation_lt hS hij)
    linarith
  obtain ⟨l1, l2⟩ := loss_bounds two_pos hd hp' (pow_pos h2 2)
  constructor
  · rw [Real.toNNReal_lt_toNNReal_iff (by positivity)]
    linarith
  · rw [Real.coe_toNNReal _ (by positivity), Real.coe_toNNReal _ (by positivity)]
    linarith

/-- Complex samples of the t law with `2 df` degrees of freedom: the same for squared coherences that are not
zero, with a ratio below `1 + 1/p`. -/
theorem C187_complex {x : ℕ → Ω → Fin p → ℂ} (hp : 0 < p) (df : ℝ) (hdf : 0 < df)
    (S : Matrix (Fin p) (Fin p) ℂ) (hS : S.PosDef)
    (h : IIDSamples P x (lawOf fun x => Real.exp (ctLogDensity (2 * df) 0 S x)))
    (name : String) (hname : name = "trace" ∨ name = "determinant" ∨ name = "element") :
    ∃ T U : ℕ → Ω → Matrix (Fin p) (Fin p) ℂ,
      (∀ᵐ ω ∂P, ∀ N, p ≤ N → ∀ env : NumEnv N p ℂ, env.eigh.Ok →
        SettlesAt (fun init tol iterMax =>
          complexStudentFixedPoint env (firstSamples x ω N) df init tol iterMax) (T N ω)) ∧
      (∀ᵐ ω ∂P, ∀ N, p < N → ∀ env : NumEnv N p ℂ, env.eigh.Ok →
        SettlesAt (fun init tol iterMax =>
          complexTylerFixedPoint env (firstSamples x ω N) init tol iterMax name) (U N ω)) ∧
      ∀ i j, i ≠ j → S i j ≠ 0 → ∃ v w : NNReal,
        TendstoInDistribution (fun (N : ℕ) ω => √N * (coherence2 i j (T N ω) - coherence2 i j S)) atTop id
          (fun _ => P) (gaussianReal 0 v) ∧
        TendstoInDistribution (fun (N : ℕ) ω => √N * (coherence2 i j (U N ω) - coherence2 i j S)) atTop id
          (fun _ => P) (gaussianReal 0 w) ∧
        v < w ∧ (w : ℝ) < (1 + 1 / p) * v := by
  have hp' : (0 : ℝ) < p := by exact_mod_cast hp
  have hd : 0 < 2 * df := by linarith
  have hpr := cplxT_prob hd hS
  obtain ⟨T, a1, a2⟩ := C178_coherence_student hp df hdf S hS h
  obtain ⟨U, b1, b2⟩ := C178_coherence_tyler h (lawOf_null_cplx _) hp S hS (cplxT_elliptical _ hS) name hname
  refine ⟨T, U, a1, b1, fun i j hij h0 => ⟨_, _, a2 i j, b2 i j, ?_⟩⟩
  have g0 := coherence2_pos hS h0
  have g1 : 0 < 1 - coherence2 i j S := sub_pos.2 (coherence2_lt hS hij)
  obtain ⟨l1, l2⟩ := loss_bounds one_pos hdf hp' (mul_pos g0 (pow_pos g1 2))
  constructor
  · rw [Real.toNNReal_lt_toNNReal_iff (by positivity)]
    linarith
  · rw [Real.coe_toNNReal _ (by positivity), Real.coe_toNNReal _ (by positivity)]
    linarith

/- The hypotheses can be met. -/
example : ∃ (P : Measure (ℕ → Fin 2 → ℝ)) (_ : IsProbabilityMeasure P)
    (T U : ℕ → (ℕ → Fin 2 → ℝ) → Matrix (Fin 2) (Fin 2) ℝ) (v w : NNReal),
    (∀ᵐ ω ∂P, ∀ N, 2 ≤ N → ∀ env : NumEnv N 2 ℝ, env.eigh.Ok →
      SettlesAt (fun init tol iterMax => studentFixedPoint env
        (firstSamples (fun i (ω : ℕ → Fin 2 → ℝ) => ω i) ω N) 2 init tol iterMax) (T N ω)) ∧
    TendstoInDistribution (fun (N : ℕ) ω => √N * (correlation 0 1 (T N ω) - 1 / 2)) atTop id
      (fun _ => P) (gaussianReal 0 v) ∧
    TendstoInDistribution (fun (N : ℕ) ω => √N * (correlation 0 1 (U N ω) - 1 / 2)) atTop id
      (fun _ => P) (gaussianReal 0 w) ∧ v < w := by
  have hd : (0 : ℝ) < 2 / 2 := by norm_num
  have hpr := realT_prob hd two_one_posDef
  have h := iid_exists (lawOf fun x => Real.exp (tLogDensity (2 / 2) 0
    (!![2, 1; 1, 2] : Matrix (Fin 2) (Fin 2) ℝ) x))
  obtain ⟨T, U, a1, -, a2⟩ := C187_real two_pos 2 two_pos _ two_one_posDef h "trace" (Or.inl rfl)
  obtain ⟨v, w, b1, b2, b3, -⟩ := a2 0 1 (by decide)
  refine ⟨_, inferInstance, T, U, v, w, a1, limit_congr b1 ?_ rfl, limit_congr b2 ?_ rfl, b3⟩
  all_goals rw [two_one_corr]

end
end RS
