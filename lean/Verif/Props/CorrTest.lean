import Verif.Props.EmpInterval

/-
Tests of uncorrelated variables: false alarms for real data, detection of every true correlation (C186).
-/
set_option autoImplicit false

namespace RS
open Matrix ComplexOrder Filter Topology MeasureTheory ProbabilityTheory

section
variable {p : ℕ} {Ω : Type*} [MeasurableSpace Ω] {P : Measure Ω} [IsProbabilityMeasure P]

theorem icc_compl_abs (t : ℝ) : (Set.Icc (-t) t)ᶜ = {z : ℝ | t < |z|} := by
  ext z
  rw [Set.mem_compl_iff, Set.mem_Icc, ← abs_le, not_le]
  rfl

/-- Probability of large values from a limit law with mean zero. -/
theorem tail_limit {F : ℕ → Ω → ℝ} {v : NNReal} (hv : v ≠ 0)
    (hF : TendstoInDistribution (fun (N : ℕ) ω => √N * F N ω) atTop id (fun _ => P) (gaussianReal 0 v)) (t : ℝ) :
    Tendsto (fun N : ℕ => P {ω | t < √N * |F N ω|}) atTop (𝓝 (gaussianReal 0 v {z | t < |z|})) := by
  have h1 := interval_limit hv hF t
  rw [← icc_compl_abs, prob_compl_eq_one_sub measurableSet_Icc]
  refine (ENNReal.Tendsto.sub tendsto_const_nhds h1 (.inl ENNReal.one_ne_top)).congr' ?_
  filter_upwards [eventually_gt_atTop 0] with N hN
  have hs : 0 < √(N : ℝ) := Real.sqrt_pos.2 (by exact_mod_cast hN)
  have hm := hF.forall_aemeasurable N
  have e : {ω | |F N ω| ≤ t / √N} = (fun ω => √N * F N ω) ⁻¹' Set.Icc (-t) t := by
    ext ω
    simp only [Set.mem_preimage, Set.mem_Icc, Set.mem_ofPred_eq]
    rw [le_div_iff₀ hs, ← abs_le, abs_mul, abs_of_pos hs, mul_comm]
  have hn : NullMeasurableSet {ω | |F N ω| ≤ t / √N} P := by
    rw [e]
    exact hm.nullMeasurable measurableSet_Icc
  rw [← prob_compl_eq_one_sub₀ hn]
  congr 1
  ext ω
  simp only [Set.mem_compl_iff, Set.mem_ofPred_eq]
  rw [le_div_iff₀ hs, not_le, mul_comm]

theorem icc_limit (v : NNReal) : Tendsto (fun q : ℕ => gaussianReal 0 v (Set.Icc (-(q : ℝ)) q)) atTop (𝓝 1) := by
  have h1 : (⋃ q : ℕ, Set.Icc (-(q : ℝ)) q) = Set.univ := by
    refine Set.eq_univ_of_forall fun z => ?_
    obtain ⟨n, hn⟩ := exists_nat_ge |z|
    exact Set.mem_iUnion.2 ⟨n, abs_le.1 hn⟩
  have h2 := tendsto_measure_iUnion_atTop (μ := gaussianReal 0 v) (s := fun q : ℕ => Set.Icc (-(q : ℝ)) q)
    fun a b hab => Set.Icc_subset_Icc (neg_le_neg (by exact_mod_cast hab)) (by exact_mod_cast hab)
  rwa [h1, measure_univ] at h2

/-- Values that tend to a number other than zero exceed every threshold of order `1/√N`. -/
theorem power_limit {F : ℕ → Ω → ℝ} {r : ℝ} {v : NNReal} (hv : v ≠ 0) (hr : r ≠ 0)
    (hF : TendstoInDistribution (fun (N : ℕ) ω => √N * (F N ω - r)) atTop id (fun _ => P) (gaussianReal 0 v)) (t : ℝ) :
    Tendsto (fun N : ℕ => P {ω | t < √N * |F N ω|}) atTop (𝓝 1) := by
  refine tendsto_order.2 ⟨fun a ha => ?_, fun a ha => Eventually.of_forall fun N => prob_le_one.trans_lt ha⟩
  obtain ⟨q, hq⟩ := ((icc_limit v).eventually (lt_mem_nhds ha)).exists
  have hN : Tendsto (fun N : ℕ => √(N : ℝ)) atTop atTop :=
    Real.tendsto_sqrt_atTop.comp tendsto_natCast_atTop_atTop
  filter_upwards [(interval_limit hv hF q).eventually (lt_mem_nhds hq),
    hN.eventually (eventually_gt_atTop ((t + q) / |r|)), eventually_gt_atTop 0] with N h1 h2 h3
  refine h1.trans_le (measure_mono fun ω hω => ?_)
  have hs : 0 < √(N : ℝ) := Real.sqrt_pos.2 (by exact_mod_cast h3)
  have hω' : |F N ω - r| ≤ q / √N := hω
  rw [le_div_iff₀ hs] at hω'
  rw [div_lt_iff₀ (abs_pos.2 hr)] at h2
  have h4 : |r| ≤ |F N ω| + |F N ω - r| := by
    have := abs_sub (F N ω) (F N ω - r)
    rwa [sub_sub_cancel] at this
  change t < √N * |F N ω|
  nlinarith

/-- From the limit law of the squared coherence. -/
theorem coherence_power {T : ℕ → Ω → Matrix (Fin p) (Fin p) ℂ} {i j : Fin p} {r : ℝ} {v : NNReal} (hv : v ≠ 0)
    (hr : 0 < r) (hF : TendstoInDistribution (fun (N : ℕ) ω => √N * (coherence2 i j (T N ω) - r)) atTop id
      (fun _ => P) (gaussianReal 0 v)) (t : ℝ) :
    Tendsto (fun N : ℕ => P {ω | t < N * coherence2 i j (T N ω)}) atTop (𝓝 1) := by
  refine tendsto_order.2 ⟨fun a ha => ?_, fun a ha => Eventually.of_forall fun N => prob_le_one.trans_lt ha⟩
  obtain ⟨q, hq⟩ := ((icc_limit v).eventually (lt_mem_nhds ha)).exists
  have hN : Tendsto (fun N : ℕ => √(N : ℝ)) atTop atTop :=
    Real.tendsto_sqrt_atTop.comp tendsto_natCast_atTop_atTop
  filter_upwards [(interval_limit hv hF q).eventually (lt_mem_nhds hq),
    hN.eventually (eventually_gt_atTop ((|t| + q) / r)), hN.eventually (eventually_ge_atTop 1)] with N h1 h2 h3
  refine h1.trans_le (measure_mono fun ω hω => ?_)
  have hs : 0 < √(N : ℝ) := by linarith
  have hω' : |coherence2 i j (T N ω) - r| ≤ q / √N := hω
  rw [le_div_iff₀ hs] at hω'
  rw [div_lt_iff₀ hr] at h2
  have h4 := neg_abs_le (coherence2 i j (T N ω) - r)
  have h5 : |t| < √N * coherence2 i j (T N ω) := by nlinarith
  have h6 : (N : ℝ) = √N * √N := (Real.mul_self_sqrt (Nat.cast_nonneg N)).symm
  have h7 := le_abs_self t
  have h8 := abs_nonneg t
  change t < N * coherence2 i j (T N ω)
  rw [h6, mul_assoc]
  nlinarith

/-- Tyler's estimator of real data, for every elliptical law with or without moments. The test that reports a
correlation of the variables `i` and `j` if `√N |r_N| > t` has a false alarm rate that tends to the
probability of `|z| > t` under the normal law with variance `1 + 2/p`, and it finds every true correlation with
a probability that tends to one. -/
theorem C186_tyler_real {x : ℕ → Ω → Fin p → ℝ} {μ : Measure (Fin p → ℝ)} (h : IIDSamples P x μ)
    (hμ : NullSubspaces μ) (hp : 0 < p) (S : Matrix (Fin p) (Fin p) ℝ) (hS : S.PosDef) (hE : EllipticalLaw μ S)
    (name : String) (hname : name = "trace" ∨ name = "determinant" ∨ name = "element") :
    ∃ T : ℕ → Ω → Matrix (Fin p) (Fin p) ℝ,
      (∀ᵐ ω ∂P, ∀ N, p < N → ∀ env : NumEnv N p ℝ, env.eigh.Ok →
        SettlesAt (fun init tol iterMax =>
          tylerFixedPoint env (firstSamples x ω N) init tol iterMax name) (T N ω)) ∧
      (∀ i j, S i j = 0 → ∀ t : ℝ, Tendsto (fun N : ℕ => P {ω | t < √N * |correlation i j (T N ω)|}) atTop
        (𝓝 (gaussianReal 0 (1 + 2 / p : ℝ).toNNReal {z | t < |z|}))) ∧
      ∀ i j, i ≠ j → S i j ≠ 0 → ∀ t : ℝ,
        Tendsto (fun N : ℕ => P {ω | t < √N * |correlation i j (T N ω)|}) atTop (𝓝 1) := by
  have hp' : (0 : ℝ) < p := by exact_mod_cast hp
  have hv : (0 : ℝ) < 1 + 2 / p := by positivity
  obtain ⟨T, a1, a2⟩ := C178_correlation_tyler h hμ hp S hS hE name hname
  refine ⟨T, a1, fun i j h0 t => ?_, fun i j hij h0 t => ?_⟩
  · have e : correlation i j S = 0 := by rw [correlation, h0, zero_div]
    refine tail_limit (Real.toNNReal_pos.2 hv).ne' (limit_congr (a2 i j) ?_ ?_) t
    · simp only [e, sub_zero]
    · rw [e]; norm_num
  · have h1 := correlation_lt hS hij
    have h2 : 0 < 1 - correlation i j S ^ 2 := by
      have := (sq_lt_one_iff_abs_lt_one _).2 h1
      linarith
    have h3 : correlation i j S ≠ 0 :=
      div_ne_zero h0 (Real.sqrt_pos.2 (mul_pos hS.diag_pos hS.diag_pos)).ne'
    exact power_limit (Real.toNNReal_pos.2 (by positivity)).ne' h3 (a2 i j) t

/-- The Student-t estimator on real samples of the t law with `df / 2` degrees of freedom. -/
theorem C186_student_real {x : ℕ → Ω → Fin p → ℝ} (hp : 0 < p) (df : ℝ) (hdf : 0 < df)
    (S : Matrix (Fin p) (Fin p) ℝ) (hS : S.PosDef)
    (h : IIDSamples P x (lawOf fun x => Real.exp (tLogDensity (df / 2) 0 S x))) :
    ∃ T : ℕ → Ω → Matrix (Fin p) (Fin p) ℝ,
      (∀ᵐ ω ∂P, ∀ N, p ≤ N → ∀ env : NumEnv N p ℝ, env.eigh.Ok →
        SettlesAt (fun init tol iterMax =>
          studentFixedPoint env (firstSamples x ω N) df init tol iterMax) (T N ω)) ∧
      (∀ i j, S i j = 0 → ∀ t : ℝ, Tendsto (fun N : ℕ => P {ω | t < √N * |correlation i j (T N ω)|}) atTop
        (𝓝 (gaussianReal 0 (1 + 2 / (df / 2 + p) : ℝ).toNNReal {z | t < |z|}))) ∧
      ∀ i j, i ≠ j → S i j ≠ 0 → ∀ t : ℝ,
        Tendsto (fun N : ℕ => P {ω | t < √N * |correlation i j (T N ω)|}) atTop (𝓝 1) := by
  have hp' : (0 : ℝ) < p := by exact_mod_cast hp
  have hv : (0 : ℝ) < 1 + 2 / (df / 2 + p) := by positivity
  obtain ⟨T, a1, a2⟩ := C178_correlation_student hp df hdf S hS h
  refine ⟨T, a1, fun i j h0 t => ?_, fun i j hij h0 t => ?_⟩
  · have e : correlation i j S = 0 := by rw [correlation, h0, zero_div]
    refine tail_limit (Real.toNNReal_pos.2 hv).ne' (limit_congr (a2 i j) ?_ ?_) t
    · simp only [e, sub_zero]
    · rw [e]; norm_num
  · have h1 := correlation_lt hS hij
    have h2 : 0 < 1 - correlation i j S ^ 2 := by
      have := (sq_lt_one_iff_abs_lt_one _).2 h1
      linarith
    have h3 : correlation i j S ≠ 0 :=
      div_ne_zero h0 (Real.sqrt_pos.2 (mul_pos hS.diag_pos hS.diag_pos)).ne'
    exact power_limit (Real.toNNReal_pos.2 (by positivity)).ne' h3 (a2 i j) t

/-- Tyler's estimator of complex data: the test of C183 finds every true coherence. -/
theorem C186_tyler_complex {x : ℕ → Ω → Fin p → ℂ} {μ : Measure (Fin p → ℂ)} (h : IIDSamples P x μ)
    (hμ : NullSubspaces μ) (hp : 0 < p) (S : Matrix (Fin p) (Fin p) ℂ) (hS : S.PosDef) (hE : EllipticalLaw μ S)
    (name : String) (hname : name = "trace" ∨ name = "determinant" ∨ name = "element") :
    ∃ T : ℕ → Ω → Matrix (Fin p) (Fin p) ℂ,
      (∀ᵐ ω ∂P, ∀ N, p < N → ∀ env : NumEnv N p ℂ, env.eigh.Ok →
        SettlesAt (fun init tol iterMax =>
          complexTylerFixedPoint env (firstSamples x ω N) init tol iterMax name) (T N ω)) ∧
      ∀ i j, i ≠ j → S i j ≠ 0 → ∀ t : ℝ,
        Tendsto (fun N : ℕ => P {ω | t < N * coherence2 i j (T N ω)}) atTop (𝓝 1) := by
  have hp' : (0 : ℝ) < p := by exact_mod_cast hp
  obtain ⟨T, a1, a2⟩ := C178_coherence_tyler h hμ hp S hS hE name hname
  refine ⟨T, a1, fun i j hij h0 t => ?_⟩
  have g0 := coherence2_pos hS h0
  have g1 : 0 < 1 - coherence2 i j S := sub_pos.2 (coherence2_lt hS hij)
  exact coherence_power (Real.toNNReal_pos.2 (by positivity)).ne' g0 (a2 i j) t

/-- The Student-t estimator on complex samples of the t law with `2 df` degrees of freedom. -/
theorem C186_student_complex {x : ℕ → Ω → Fin p → ℂ} (hp : 0 < p) (df : ℝ) (hdf : 0 < df)
    (S : Matrix (Fin p) (Fin p) ℂ) (hS : S.PosDef)
    (h : IIDSamples P x (lawOf fun x => Real.exp (ctLogDensity (2 * df) 0 S x))) :
    ∃ T : ℕ → Ω → Matrix (Fin p) (Fin p) ℂ,
      (∀ᵐ ω ∂P, ∀ N, p ≤ N → ∀ env : NumEnv N p ℂ, env.eigh.Ok →
        SettlesAt (fun init tol iterMax =>
          complexStudentFixedPoint env (firstSamples x ω N) df init tol iterMax) (T N ω)) ∧
      ∀ i j, i ≠ j → S i j ≠ 0 → ∀ t : ℝ,
        Tendsto (fun N : ℕ => P {ω | t < N * coherence2 i j (T N ω)}) atTop (𝓝 1) := by
  have hp' : (0 : ℝ) < p := by exact_mod_cast hp
  obtain ⟨T, a1, a2⟩ := C178_coherence_student hp df hdf S hS h
  refine ⟨T, a1, fun i j hij h0 t => ?_⟩
  have g0 := coherence2_pos hS h0
  have g1 : 0 < 1 - coherence2 i j S := sub_pos.2 (coherence2_lt hS hij)
  exact coherence_power (Real.toNNReal_pos.2 (by positivity)).ne' g0 (a2 i j) t

/-- The empirical covariance of complex data with finite fourth moments. -/
theorem C186_empirical {x : ℕ → Ω → Fin p → ℂ} {μ : Measure (Fin p → ℂ)} {S : Matrix (Fin p) (Fin p) ℂ}
    (h : IIDSamples P x μ) (hp : 0 < p) (hS : S.PosDef) (hE : EllipticalLaw μ S)
    (hM : MeanCov μ 0 S) (h4 : FourthMoment μ) (centered : Bool) :
    ∃ C : ℕ → Ω → Matrix (Fin p) (Fin p) ℂ,
      (∀ N, 0 < N → ∀ ω, ∃ loc, complexEmpCovFit (.cplx (.d2 N p (firstSamples x ω N))) centered =
        .ok ⟨⟨p, loc⟩, .cplx (.d2 p p (C N ω))⟩) ∧
      ∀ i j, i ≠ j → S i j ≠ 0 → ∀ t : ℝ,
        Tendsto (fun N : ℕ => P {ω | t < N * coherence2 i j (C N ω)}) atTop (𝓝 1) := by
  have hp' : (0 : ℝ) < p := by exact_mod_cast hp
  have hpr := h.prob
  have hq := meanCov_qf_sq_pos hp hS hM h4
  obtain ⟨C, a1, a2⟩ := C181_coherence h hp hS hE hM h4 centered
  refine ⟨C, a1, fun i j hij h0 t => ?_⟩
  have g0 := coherence2_pos hS h0
  have g1 : 0 < 1 - coherence2 i j S := sub_pos.2 (coherence2_lt hS hij)
  exact coherence_power (Real.toNNReal_pos.2 (by positivity)).ne' g0 (a2 i j) t

/- Real samples of the t law with one degree of freedom (no mean): uncorrelated and correlated variables. -/
example : ∃ (P : Measure (ℕ → Fin 2 → ℝ)) (_ : IsProbabilityMeasure P)
    (T : ℕ → (ℕ → Fin 2 → ℝ) → Matrix (Fin 2) (Fin 2) ℝ),
    (∀ᵐ ω ∂P, ∀ N, 2 < N → ∀ env : NumEnv N 2 ℝ, env.eigh.Ok →
      SettlesAt (fun init tol iterMax => tylerFixedPoint env
        (firstSamples (fun i (ω : ℕ → Fin 2 → ℝ) => ω i) ω N) init tol iterMax "trace") (T N ω)) ∧
    Tendsto (fun N : ℕ => P {ω | 3 < √N * |correlation 0 1 (T N ω)|}) atTop
      (𝓝 (gaussianReal 0 (1 + 2 / ((2 : ℕ) : ℝ)).toNNReal {z | 3 < |z|})) := by
  have hpr := realT_prob one_pos (PosDef.one (n := Fin 2) (R := ℝ))
  have h := iid_exists (lawOf fun x => Real.exp (tLogDensity 1 0 (1 : Matrix (Fin 2) (Fin 2) ℝ) x))
  obtain ⟨T, a1, a2, -⟩ := C186_tyler_real h (lawOf_null_real _) two_pos _ PosDef.one
    (realT_elliptical one_pos PosDef.one) "trace" (Or.inl rfl)
  exact ⟨_, inferInstance, T, a1, a2 0 1 (by simp) 3⟩

example : ∃ (P : Measure (ℕ → Fin 2 → ℝ)) (_ : IsProbabilityMeasure P)
    (T : ℕ → (ℕ → Fin 2 → ℝ) → Matrix (Fin 2) (Fin 2) ℝ),
    (∀ᵐ ω ∂P, ∀ N, 2 ≤ N → ∀ env : NumEnv N 2 ℝ, env.eigh.Ok →
      SettlesAt (fun init tol iterMax => studentFixedPoint env
        (firstSamples (fun i (ω : ℕ → Fin 2 → ℝ) => ω i) ω N) 2 init tol iterMax) (T N ω)) ∧
    Tendsto (fun N : ℕ => P {ω | 3 < √N * |correlation 0 1 (T N ω)|}) atTop (𝓝 1) := by
  have hd : (0 : ℝ) < 2 / 2 := by norm_num
  have hpr := realT_prob hd two_one_posDef
  have h := iid_exists (lawOf fun x => Real.exp (tLogDensity (2 / 2) 0
    (!![2, 1; 1, 2] : Matrix (Fin 2) (Fin 2) ℝ) x))
  obtain ⟨T, a1, -, a2⟩ := C186_student_real two_pos 2 two_pos _ two_one_posDef h
  exact ⟨_, inferInstance, T, a1, a2 0 1 (by decide) (by simp) 3⟩

/- Complex samples of the t law with two degrees of freedom (no covariance). -/
example : ∃ (P : Measure (ℕ → Fin 2 → ℂ)) (_ : IsProbabilityMeasure P)
    (T : ℕ → (ℕ → Fin 2 → ℂ) → Matrix (Fin 2) (Fin 2) ℂ),
    (∀ᵐ ω ∂P, ∀ N, 2 < N → ∀ env : NumEnv N 2 ℂ, env.eigh.Ok →
      SettlesAt (fun init tol iterMax => complexTylerFixedPoint env
        (firstSamples (fun i (ω : ℕ → Fin 2 → ℂ) => ω i) ω N) init tol iterMax "trace") (T N ω)) ∧
    Tendsto (fun N : ℕ => P {ω | 3 < N * coherence2 0 1 (T N ω)}) atTop (𝓝 1) := by
  have hd : (0 : ℝ) < 2 * 1 := by norm_num
  have hpr := cplxT_prob hd two_one_posDef'
  have h := iid_exists (lawOf fun x => Real.exp (ctLogDensity (2 * 1) 0
    (!![2, 1; 1, 2] : Matrix (Fin 2) (Fin 2) ℂ) x))
  obtain ⟨T, a1, a2⟩ := C186_tyler_complex h (lawOf_null_cplx _) two_pos _ two_one_posDef'
    (cplxT_elliptical _ two_one_posDef') "trace" (Or.inl rfl)
  exact ⟨_, inferInstance, T, a1, a2 0 1 (by decide) (by simp) 3⟩

end
end RS
