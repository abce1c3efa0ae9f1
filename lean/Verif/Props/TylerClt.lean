import Verif.Lemmas.TylerLaw
import Verif.Props.StudentEff
import Verif.Props.StudentEffReal

/-
How far Tyler's estimates are from their limit: the same for all elliptical laws (C177).
-/
set_option autoImplicit false

namespace RS
open Matrix ComplexOrder Filter Topology MeasureTheory ProbabilityTheory

section
variable {p : ℕ} {Ω : Type*} [MeasurableSpace Ω] {P : Measure Ω} [IsProbabilityMeasure P]

private def noChi2t : Chi2 := ⟨fun q _ => q, fun _ _ => 0⟩
private theorem noChi2t_ok : noChi2t.Ok :=
  ⟨fun _ => rfl, fun _ _ h _ _ => h, fun _ _ => le_rfl⟩

theorem shapePart_eq {𝕜 : Type} [RCLike 𝕜] (name : String) (S : Matrix (Fin p) (Fin p) 𝕜)
    {H : Matrix (Fin p) (Fin p) 𝕜} (hH : H.IsHermitian) :
    unscaled (scaleDir name S) S H = shapePart name S H := by
  rw [unscaled, mip, hH.eq, shapePart]

theorem tylerVar_eq {𝕜 : Type} [RCLike 𝕜] (b : ℝ) (name : String) {S : Matrix (Fin p) (Fin p) 𝕜}
    (hS : S.PosDef) {H : Matrix (Fin p) (Fin p) 𝕜} (hH : H.IsHermitian) :
    b * (p + b) / p * mip (unscaled (scaleDir name S) S H) (S * unscaled (scaleDir name S) S H * S) =
      tylerVar b name S H := by
  rw [mip, (unscaled_herm (scaleDir_herm hS) S hH).eq, tylerVar, shapePart_eq name S hH]
  simp only [Matrix.mul_assoc]

theorem tyler_settles_real {N : ℕ} {X : Matrix (Fin N) (Fin p) ℝ} {name : String}
    (hname : name = "trace" ∨ name = "determinant" ∨ name = "element") (hp : 0 < p) (hN : p < N)
    (hg : GeneralPosition X) {Q : Matrix (Fin p) (Fin p) ℝ} (hQ : Q.PosDef)
    (hfix : mStep (wTyler p) X Q = Q) (env : NumEnv N p ℝ) (hs : env.eigh.Ok) :
    SettlesAt (fun init tol iterMax => tylerFixedPoint env X init tol iterMax name) (toName name Q) := by
  intro init hi ε hε
  have hnz := generalPosition_nonzero hg hp
  have hct := generalPosition_tyler hg hN
  have hsp := tyler_spans (by omega) _ hnz hct
  have hr := (run_one_real_eq (.tyler "None") hs noChi2t_ok hp hnz rfl hQ 0 Q).2 hfix
  obtain ⟨S'', h1, h2⟩ := C84_real env hs _ hp hsp hnz (count_indecomposable _ hct) Q hQ
    0 hr init hi name hname
  rw [(toName_normalise hname hp hQ).2] at h1
  cases h1
  exact C112_real (.tyler name) env hs noChi2t noChi2t_ok _ hp hsp hnz init hi (toName name Q) h2 ε hε

theorem tyler_settles_complex {N : ℕ} {X : Matrix (Fin N) (Fin p) ℂ} {name : String}
    (hname : name = "trace" ∨ name = "determinant" ∨ name = "element") (hp : 0 < p) (hN : p < N)
    (hg : GeneralPosition X) {Q : Matrix (Fin p) (Fin p) ℂ} (hQ : Q.PosDef)
    (hfix : mStep (wTyler p) X Q = Q) (env : NumEnv N p ℂ) (hs : env.eigh.Ok) :
    SettlesAt (fun init tol iterMax => complexTylerFixedPoint env X init tol iterMax name)
      (toName name Q) := by
  intro init hi ε hε
  have hnz := generalPosition_nonzero hg hp
  have hct := generalPosition_tyler hg hN
  have hsp := tyler_spans (by omega) _ hnz hct
  have hr := (run_one_complex_eq (.tyler "None") hs noChi2t_ok hp hnz rfl hQ 0 Q).2 hfix
  obtain ⟨S'', h1, h2⟩ := C84_complex env hs _ hp hsp hnz (count_indecomposable _ hct) Q hQ
    0 hr init hi name hname
  rw [(toName_normalise hname hp hQ).2] at h1
  cases h1
  exact C112_complex (.tyler name) env hs noChi2t noChi2t_ok _ hp hsp hnz init hi (toName name Q) h2 ε hε

/-- Real data. Independent samples of any elliptical law with normalised scatter matrix `S` (trace
`p`, determinant `1` or top-left entry `1`): almost surely the calls with that normalisation on the first
`N > p` samples settle at a matrix `T N`, and for every symmetric `H`, `√N tr(H (T N - S))` converges in distribution to the centred normal law with
variance `2 (p + 2) / p · tr(H₀ S H₀ S)`. The limit is the same for all elliptical laws, with or without
moments. -/
theorem C177_real {x : ℕ → Ω → Fin p → ℝ} {μ : Measure (Fin p → ℝ)} (h : IIDSamples P x μ)
    (hμ : NullSubspaces μ) (hp : 0 < p) (S : Matrix (Fin p) (Fin p) ℝ) (hS : S.PosDef)
    (name : String) (hname : name = "trace" ∨ name = "determinant" ∨ name = "element")
    (hn : Normalised name S) (hE : EllipticalLaw μ S) :
    ∃ T : ℕ → Ω → Matrix (Fin p) (Fin p) ℝ,
      (∀ᵐ ω ∂P, ∀ N, p < N → ∀ env : NumEnv N p ℝ, env.eigh.Ok →
        SettlesAt (fun init tol iterMax =>
          tylerFixedPoint env (firstSamples x ω N) init tol iterMax name) (T N ω)) ∧
      ∀ H : Matrix (Fin p) (Fin p) ℝ, H.IsHermitian →
        TendstoInDistribution (fun (N : ℕ) ω => √N * (H * (T N ω - S)).trace) atTop id (fun _ => P)
          (gaussianReal 0 (tylerVar 2 name S H).toNNReal) := by
  have := h.prob
  refine ⟨tylerSol name S x, ?_, fun H hH => ?_⟩
  · filter_upwards [h.generalPosition hμ] with ω hg N hN env hs
    obtain ⟨Q, a1, a2, a3⟩ := tylerSol_spec name hp S hN (hg N)
    rw [a3]
    exact tyler_settles_real hname hp hN (hg N) a1 a2 env hs
  · refine limit_congr ((sphere_real hμ hp hS hE).clt hname two_pos h hμ hp hS
      (elliptical_tyler hμ hp hS hE) hn hH) ?_ ?_
    · funext N ω
      rw [mip, hH.eq]
      rfl
    · rw [tylerVar_eq 2 name hS hH]

/-- Complex data, with `Re tr(H ·)` and variance `(p + 1) / p · tr(H₀ S H₀ S)`. -/
theorem C177_complex {x : ℕ → Ω → Fin p → ℂ} {μ : Measure (Fin p → ℂ)} (h : IIDSamples P x μ)
    (hμ : NullSubspaces μ) (hp : 0 < p) (S : Matrix (Fin p) (Fin p) ℂ) (hS : S.PosDef)
    (name : String) (hname : name = "trace" ∨ name = "determinant" ∨ name = "element")
    (hn : Normalised name S) (hE : EllipticalLaw μ S) :
    ∃ T : ℕ → Ω → Matrix (Fin p) (Fin p) ℂ,
      (∀ᵐ ω ∂P, ∀ N, p < N → ∀ env : NumEnv N p ℂ, env.eigh.Ok →
        SettlesAt (fun init tol iterMax =>
          complexTylerFixedPoint env (firstSamples x ω N) init tol iterMax name) (T N ω)) ∧
      ∀ H : Matrix (Fin p) (Fin p) ℂ, H.IsHermitian →
        TendstoInDistribution (fun (N : ℕ) ω => √N * (H * (T N ω - S)).trace.re) atTop id (fun _ => P)
          (gaussianReal 0 (tylerVar 1 name S H).toNNReal) := by
  have := h.prob
  refine ⟨tylerSol name S x, ?_, fun H hH => ?_⟩
  · filter_upwards [h.generalPosition hμ] with ω hg N hN env hs
    obtain ⟨Q, a1, a2, a3⟩ := tylerSol_spec name hp S hN (hg N)
    rw [a3]
    exact tyler_settles_complex hname hp hN (hg N) a1 a2 env hs
  · refine limit_congr ((sphere_complex hμ hp hS hE).clt hname one_pos h hμ hp hS
      (elliptical_tyler hμ hp hS hE) hn hH) ?_ ?_
    · funext N ω
      rw [mip, hH.eq]
      rfl
    · rw [tylerVar_eq 1 name hS hH]

/-- The price of not knowing the law, complex data: for functions of the shape (`tr(H S) = 0`) the
variance is at most `(p + 1) / p` times the smallest possible one for the t law (C175), whatever its
number of degrees of freedom. -/
theorem C177_price (hp : 0 < p) (df : ℝ) (hdf : 0 < df) (S : Matrix (Fin p) (Fin p) ℂ) (hS : S.PosDef)
    (H : Matrix (Fin p) (Fin p) ℂ) (hH : H.IsHermitian) (name : String)
    (h0 : (H * S).trace.re = 0) :
    limitVar df S H ≤ tylerVar 1 name S H ∧ tylerVar 1 name S H ≤ (p + 1) / p * limitVar df S H := by
  have hp' : (0 : ℝ) < p := by exact_mod_cast hp
  have h1 : shapePart name S H = H := by
    rw [shapePart]
    change H - (((H * S).trace.re : ℝ) : ℂ) • scaleDir name S = H
    rw [h0, Complex.ofReal_zero, zero_smul, sub_zero]
  have hnn : 0 ≤ (H * S * (H * S)).trace.re := by
    have h2 := (fisher_cs hdf hp hS (sandwich_herm hS (solK_herm (df := df) hS hH)) hH)
    obtain ⟨i1, e1⟩ := tScore_mul hdf hp hS (sandwich_herm hS (solK_herm (df := df) hS hH))
      (sandwich_herm hS (solK_herm (df := df) hS hH))
    have h3 : 0 ≤ effVar df S H := by
      rw [← effVar_eq hdf hp hS hH, ← e1]
      exact integral_nonneg fun z => mul_self_nonneg _
    rw [effVar, h0] at h3
    have h4 : 0 < (df + p + 1) / (df + p) := by positivity
    have h5 := nonneg_of_mul_nonneg_right h3 h4
    simpa using h5
  unfold tylerVar limitVar
  rw [h1, h0]
  change _ ≤ 1 * (p + 1) / p * (H * S * (H * S)).trace.re ∧
    1 * (p + 1) / p * (H * S * (H * S)).trace.re ≤ _
  set t := (H * S * (H * S)).trace.re
  have e1 : (df + p + 1) / (df + p) ≤ (p + 1) / p := by
    rw [div_le_div_iff₀ (by positivity) hp']
    nlinarith
  have e2 : 1 ≤ (df + p + 1) / (df + p) := by
    rw [le_div_iff₀ (by positivity)]
    linarith
  rw [one_mul, zero_pow two_ne_zero, zero_div, add_zero]
  refine ⟨mul_le_mul_of_nonneg_right e1 hnn, mul_le_mul_of_nonneg_left ?_ (by positivity)⟩
  exact le_mul_of_one_le_left hnn e2

/-- Real data: at most `(p + 2) / p` times the smallest possible variance (C176). -/
theorem C177_price_real (hp : 0 < p) (nu : ℝ) (hnu : 0 < nu) (S : Matrix (Fin p) (Fin p) ℝ) (hS : S.PosDef)
    (H : Matrix (Fin p) (Fin p) ℝ) (hH : H.IsHermitian) (name : String)
    (h0 : (H * S).trace = 0) :
    realLimitVar nu S H ≤ tylerVar 2 name S H ∧
      tylerVar 2 name S H ≤ (p + 2) / p * realLimitVar nu S H := by
  have hp' : (0 : ℝ) < p := by exact_mod_cast hp
  have h1 : shapePart name S H = H := by
    rw [shapePart]
    change H - (((H * S).trace : ℝ) : ℝ) • scaleDir name S = H
    rw [h0, zero_smul, sub_zero]
  have hnn : 0 ≤ (H * S * (H * S)).trace := by
    have hs := FR.sandwich_herm hS (FR.solK_herm (df := nu) hS hH)
    have h3 : 0 ≤ FR.effVar nu S H := by
      have h2 : 0 ≤ FR.fisherForm nu S (S * FR.solK nu S H * S) (S * FR.solK nu S H * S) :=
        (integral_nonneg fun z => mul_self_nonneg _).trans_eq (FR.rtScore_mul hnu hp hS hs hs)
      rw [← FR.effVar_eq hnu hp hS hH]
      linarith
    rw [FR.effVar, h0] at h3
    have h4 : 0 < (nu + p + 2) / (nu + p) := by positivity
    have h5 := nonneg_of_mul_nonneg_right h3 (by positivity)
    simpa using h5
  unfold tylerVar realLimitVar
  rw [h1, h0]
  change _ ≤ 2 * (p + 2) / p * (H * S * (H * S)).trace ∧ 2 * (p + 2) / p * (H * S * (H * S)).trace ≤ _
  set t := (H * S * (H * S)).trace
  have e1 : (nu + p + 2) / (nu + p) ≤ (p + 2) / p := by
    rw [div_le_div_iff₀ (by positivity) hp']
    nlinarith
  have e2 : 1 ≤ (nu + p + 2) / (nu + p) := by
    rw [le_div_iff₀ (by positivity)]
    linarith
  rw [zero_pow two_ne_zero, zero_div, add_zero, mul_div_assoc, mul_assoc, mul_assoc]
  refine ⟨mul_le_mul_of_nonneg_left (mul_le_mul_of_nonneg_right e1 hnn) two_pos.le, ?_⟩
  rw [mul_left_comm ((p + 2 : ℝ) / p)]
  refine mul_le_mul_of_nonneg_left (mul_le_mul_of_nonneg_left ?_ (by positivity)) two_pos.le
  exact le_mul_of_one_le_left hnn e2

/-! The hypotheses can be met: samples of the bivariate normal law and of the bivariate t law with one
degree of freedom, which has no mean; `tr(H T)` is twice the entry `(0, 1)` of `T`, and the variance is
`8` for both. For the bivariate complex normal law it is `3`. -/

example : ∃ (P : Measure (ℕ → Fin 2 → ℝ)) (_ : IsProbabilityMeasure P),
    ∃ T : ℕ → (ℕ → Fin 2 → ℝ) → Matrix (Fin 2) (Fin 2) ℝ, (∀ᵐ ω ∂P, ∀ N, 2 < N →
      ∀ env : NumEnv N 2 ℝ, env.eigh.Ok → SettlesAt (fun init tol iterMax => tylerFixedPoint env
        (firstSamples (fun i (ω : ℕ → Fin 2 → ℝ) => ω i) ω N) init tol iterMax "trace") (T N ω)) ∧
      TendstoInDistribution (fun (N : ℕ) ω => √N * (!![0, 1; 1, 0] * (T N ω - 1)).trace) atTop id
        (fun _ => P) (gaussianReal 0 8) := by
  have h1 : (1 : Matrix (Fin 2) (Fin 2) ℝ).PosDef := PosDef.one
  have hpr := realT_prob one_pos h1
  have h := iid_exists (lawOf fun x => Real.exp (tLogDensity 1 0 (1 : Matrix (Fin 2) (Fin 2) ℝ) x))
  obtain ⟨T, a1, a2⟩ := C177_real h (lawOf_null_real _) two_pos 1 h1 "trace" (Or.inl rfl) ⟨fun _ => by simp, fun h => by simp at h, fun h => by simp at h⟩
    (realT_elliptical one_pos h1)
  refine ⟨_, inferInstance, T, a1, limit_congr (a2 !![0, 1; 1, 0] ?_) rfl ?_⟩
  · ext i j
    fin_cases i <;> fin_cases j <;> simp
  · have e : tylerVar 2 "trace" 1 (!![0, 1; 1, 0] : Matrix (Fin 2) (Fin 2) ℝ) = 8 := by
      unfold tylerVar shapePart scaleDir
      simp [trace, Fin.sum_univ_two]
      norm_num
    rw [e]
    apply NNReal.eq
    rw [Real.coe_toNNReal _ (by norm_num)]
    norm_num

example : ∃ (P : Measure (ℕ → Fin 2 → ℂ)) (_ : IsProbabilityMeasure P),
    ∃ T : ℕ → (ℕ → Fin 2 → ℂ) → Matrix (Fin 2) (Fin 2) ℂ, (∀ᵐ ω ∂P, ∀ N, 2 < N →
      ∀ env : NumEnv N 2 ℂ, env.eigh.Ok → SettlesAt (fun init tol iterMax => complexTylerFixedPoint env
        (firstSamples (fun i (ω : ℕ → Fin 2 → ℂ) => ω i) ω N) init tol iterMax "trace") (T N ω)) ∧
      TendstoInDistribution (fun (N : ℕ) ω => √N * (!![0, 1; 1, 0] * (T N ω - 1)).trace.re) atTop id
        (fun _ => P) (gaussianReal 0 3) := by
  have h1 : (1 : Matrix (Fin 2) (Fin 2) ℂ).PosDef := PosDef.one
  have hpr := cplxN_prob h1
  have h := iid_exists (lawOf fun x => Real.exp (cnormalLogDensity 0 (1 : Matrix (Fin 2) (Fin 2) ℂ) x))
  obtain ⟨T, a1, a2⟩ := C177_complex h (lawOf_null_cplx _) two_pos 1 h1 "trace" (Or.inl rfl) ⟨fun _ => by simp, fun h => by simp at h, fun h => by simp at h⟩
    (cplxN_elliptical h1)
  refine ⟨_, inferInstance, T, a1, limit_congr (a2 !![0, 1; 1, 0] ?_) rfl ?_⟩
  · ext i j
    fin_cases i <;> fin_cases j <;> simp
  · have e : tylerVar 1 "trace" 1 (!![0, 1; 1, 0] : Matrix (Fin 2) (Fin 2) ℂ) = 3 := by
      unfold tylerVar shapePart scaleDir
      simp [trace, Fin.sum_univ_two]
      norm_num
    rw [e]
    apply NNReal.eq
    rw [Real.coe_toNNReal _ (by norm_num)]
    norm_num

example : limitVar 1 1 (!![0, 1; 1, 0] : Matrix (Fin 2) (Fin 2) ℂ) ≤
      tylerVar 1 "trace" 1 (!![0, 1; 1, 0] : Matrix (Fin 2) (Fin 2) ℂ) ∧
    tylerVar 1 "trace" 1 (!![0, 1; 1, 0] : Matrix (Fin 2) (Fin 2) ℂ) ≤
      (((2 : ℕ) : ℝ) + 1) / (2 : ℕ) * limitVar 1 1 !![0, 1; 1, 0] :=
  C177_price two_pos 1 one_pos 1 PosDef.one !![0, 1; 1, 0] (by ext i j; fin_cases i <;> fin_cases j <;> simp)
    "trace"
    (by simp [trace, Fin.sum_univ_two])

example : realLimitVar 1 1 (!![0, 1; 1, 0] : Matrix (Fin 2) (Fin 2) ℝ) ≤
      tylerVar 2 "trace" 1 (!![0, 1; 1, 0] : Matrix (Fin 2) (Fin 2) ℝ) ∧
    tylerVar 2 "trace" 1 (!![0, 1; 1, 0] : Matrix (Fin 2) (Fin 2) ℝ) ≤
      (((2 : ℕ) : ℝ) + 2) / (2 : ℕ) * realLimitVar 1 1 !![0, 1; 1, 0] :=
  C177_price_real two_pos 1 one_pos 1 PosDef.one !![0, 1; 1, 0]
    (by ext i j; fin_cases i <;> fin_cases j <;> simp) "trace" (by simp [trace, Fin.sum_univ_two])

/-- The other normalisations, bivariate t law with one degree of freedom, entry `(1, 1)` of `T`: the
variance is `2` for the determinant and `8` for the top-left entry. -/
example : ∃ (P : Measure (ℕ → Fin 2 → ℝ)) (_ : IsProbabilityMeasure P),
    ∀ r ∈ [("determinant", (2 : NNReal)), ("element", 8)],
    ∃ T : ℕ → (ℕ → Fin 2 → ℝ) → Matrix (Fin 2) (Fin 2) ℝ, (∀ᵐ ω ∂P, ∀ N, 2 < N →
      ∀ env : NumEnv N 2 ℝ, env.eigh.Ok → SettlesAt (fun init tol iterMax => tylerFixedPoint env
        (firstSamples (fun i (ω : ℕ → Fin 2 → ℝ) => ω i) ω N) init tol iterMax r.1) (T N ω)) ∧
      TendstoInDistribution (fun (N : ℕ) ω => √N * (!![0, 0; 0, 1] * (T N ω - 1)).trace) atTop id
        (fun _ => P) (gaussianReal 0 r.2) := by
  have h1 : (1 : Matrix (Fin 2) (Fin 2) ℝ).PosDef := PosDef.one
  have hpr := realT_prob one_pos h1
  have h := iid_exists (lawOf fun x => Real.exp (tLogDensity 1 0 (1 : Matrix (Fin 2) (Fin 2) ℝ) x))
  have hH : (!![0, 0; 0, 1] : Matrix (Fin 2) (Fin 2) ℝ).IsHermitian := by
    ext i j
    fin_cases i <;> fin_cases j <;> simp
  refine ⟨Measure.infinitePi fun _ : ℕ => lawOf fun x => Real.exp (tLogDensity 1 0
    (1 : Matrix (Fin 2) (Fin 2) ℝ) x), inferInstance, fun r hr => ?_⟩
  simp only [List.mem_cons, List.not_mem_nil, or_false] at hr
  rcases hr with rfl | rfl
  · obtain ⟨T, a1, a2⟩ := C177_real h (lawOf_null_real _) two_pos 1 h1 "determinant" (Or.inr (Or.inl rfl))
      ⟨fun h => by simp at h, fun _ => by simp, fun h => by simp at h⟩ (realT_elliptical one_pos h1)
    refine ⟨T, a1, limit_congr (a2 _ hH) rfl ?_⟩
    have e : tylerVar 2 "determinant" 1 (!![0, 0; 0, 1] : Matrix (Fin 2) (Fin 2) ℝ) = 2 := by
      unfold tylerVar shapePart scaleDir
      simp [trace, Fin.sum_univ_two, Matrix.mul_apply]
      norm_num
    rw [e]
    apply NNReal.eq
    rw [Real.coe_toNNReal _ (by norm_num)]
    norm_num
  · obtain ⟨T, a1, a2⟩ := C177_real h (lawOf_null_real _) two_pos 1 h1 "element" (Or.inr (Or.inr rfl))
      ⟨fun h => by simp at h, fun h => by simp at h, fun _ _ => by simp⟩ (realT_elliptical one_pos h1)
    refine ⟨T, a1, limit_congr (a2 _ hH) rfl ?_⟩
    have e : tylerVar 2 "element" 1 (!![0, 0; 0, 1] : Matrix (Fin 2) (Fin 2) ℝ) = 8 := by
      unfold tylerVar shapePart scaleDir
      simp [trace, Fin.sum_univ_two, vecHead, vecTail]
      norm_num
    rw [e]
    apply NNReal.eq
    rw [Real.coe_toNNReal _ (by norm_num)]
    norm_num

end
end RS
