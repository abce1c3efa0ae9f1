import Verif.Lemmas.Unique
import Verif.Props.Cost

/-
Optimality and uniqueness of the fixed points: Tyler (C80, C82) and Student-t (C81).
-/
set_option autoImplicit false

namespace RS
open Matrix ComplexOrder

section
variable {N p : ℕ}

/-- A call with `iter_max = 1` and no normalisation makes exactly one M-step. -/
theorem run_one_real_eq (e : RealEst) {env : NumEnv N p ℝ} (hs : env.eigh.Ok) {c : Chi2}
    (hc : c.Ok) {X : Matrix (Fin N) (Fin p) ℝ} (hp : 0 < p) (hv : e.Valid X)
    (hnone : e.normalisation = "None")
    {S : Matrix (Fin p) (Fin p) ℝ} (hS : S.PosDef) (tol : ℝ) (S' : Matrix (Fin p) (Fin p) ℝ) :
    Returns (e.run env c X (some S) tol 1) S' ↔ mStep (e.weight c p) X S = S' := by
  constructor
  · rintro ⟨d, b, h⟩
    exact (run_one_real hs hc hp hv hnone hS h).symm
  · intro h
    have hst := (e.isMStep (X := X) hs hc hp hv).1 S hS
    have hl : fpLoop (e.step env c X) tol 1 ⟨.fin S, .inf, 0⟩ =
        .ok ⟨.fin (mStep (e.weight c p) X S), relErr (.fin (mStep (e.weight c p) X S)) (.fin S), 1⟩ := by
      rw [fpLoop, if_pos ⟨trivial, by simp⟩]
      simp only [stepSig, hst]
      rw [fpLoop, if_neg (by simp)]
    refine ⟨relErr (.fin (mStep (e.weight c p) X S)) (.fin S), true, ?_⟩
    rw [e.run_eq env c X hv, Option.getD_some]
    unfold runLoop
    rw [hl, hnone, h]
    change Except.ok _ = Except.ok _
    simp only [C30_none "None" (by decide +kernel)]
    rfl

theorem run_one_complex_eq (e : ComplexEst) {env : NumEnv N p ℂ} (hs : env.eigh.Ok) {c : Chi2}
    (hc : c.Ok) {X : Matrix (Fin N) (Fin p) ℂ} (hp : 0 < p) (hv : e.Valid X)
    (hnone : e.normalisation = "None")
    {S : Matrix (Fin p) (Fin p) ℂ} (hS : S.PosDef) (tol : ℝ) (S' : Matrix (Fin p) (Fin p) ℂ) :
    Returns (e.run env c X (some S) tol 1) S' ↔ mStep (e.weight c p) X S = S' := by
  constructor
  · rintro ⟨d, b, h⟩
    exact (run_one_complex hs hc hp hv hnone hS h).symm
  · intro h
    have hst := (e.isMStep (X := X) hs hc hp hv).1 S hS
    have hl : fpLoop (e.step env c X) tol 1 ⟨.fin S, .inf, 0⟩ =
        .ok ⟨.fin (mStep (e.weight c p) X S), relErr (.fin (mStep (e.weight c p) X S)) (.fin S), 1⟩ := by
      rw [fpLoop, if_pos ⟨trivial, by simp⟩]
      simp only [stepSig, hst]
      rw [fpLoop, if_neg (by simp)]
    refine ⟨relErr (.fin (mStep (e.weight c p) X S)) (.fin S), true, ?_⟩
    rw [e.run_eq env c X hv, Option.getD_some]
    unfold runLoop
    rw [hl, hnone, h]
    change Except.ok _ = Except.ok _
    simp only [C30_none "None" (by decide +kernel)]
    rfl

/-- A dummy chi-square law, for estimators that do not use it. -/
private def noChi2' : Chi2 := ⟨fun q _ => q, fun _ _ => 0⟩
private theorem noChi2_ok' : noChi2'.Ok :=
  ⟨fun _ => rfl, fun _ _ h _ _ => h, fun _ _ => le_rfl⟩

/-! ## C80 -/

/-- Real data: a fixed point of Tyler's iteration has the smallest value of the cost function of
the package among all positive definite matrices. -/
theorem C80_real (env : NumEnv N p ℝ) (hs : env.eigh.Ok) (X : Matrix (Fin N) (Fin p) ℝ)
    (hn : NonzeroSamples X) (hp : 0 < p) (S : Matrix (Fin p) (Fin p) ℝ) (hS : S.PosDef) (tol : ℝ)
    (hfix : Returns (tylerFixedPoint env X (some S) tol 1 "None") S)
    (S' : Matrix (Fin p) (Fin p) ℝ) (hS' : S'.PosDef) :
    ∃ v v' : ℝ, tylerCostReal env.eigh X S = .ok (.fin v) ∧
      tylerCostReal env.eigh X S' = .ok (.fin v') ∧ v ≤ v' := by
  refine ⟨_, _, tylerCostReal_eq hs hn hS, tylerCostReal_eq hs hn hS', ?_⟩
  have h : mStep (wTyler p) X S = S :=
    (run_one_real_eq (.tyler "None") hs noChi2_ok' hp hn rfl hS tol S).1 hfix
  rw [wTyler_eq] at h
  rw [tylerCost_eq, tylerCost_eq]
  exact fixed_point_minimises le_rfl X S S' hS hS' (fun i => by linarith [qf_pos hS (hn i)]) h

/-- Complex data. -/
theorem C80_complex (env : NumEnv N p ℂ) (hs : env.eigh.Ok) (X : Matrix (Fin N) (Fin p) ℂ)
    (hn : NonzeroSamples X) (hp : 0 < p) (S : Matrix (Fin p) (Fin p) ℂ) (hS : S.PosDef) (tol : ℝ)
    (hfix : Returns (complexTylerFixedPoint env X (some S) tol 1 "None") S)
    (S' : Matrix (Fin p) (Fin p) ℂ) (hS' : S'.PosDef) :
    ∃ v v' : ℝ, tylerCostComplex env.eigh X S = .ok (.fin v) ∧
      tylerCostComplex env.eigh X S' = .ok (.fin v') ∧ v ≤ v' := by
  refine ⟨_, _, tylerCostComplex_eq hs hn hS, tylerCostComplex_eq hs hn hS', ?_⟩
  have h : mStep (wTyler p) X S = S :=
    (run_one_complex_eq (.tyler "None") hs noChi2_ok' hp hn rfl hS tol S).1 hfix
  rw [wTyler_eq] at h
  rw [tylerCost_eq, tylerCost_eq]
  exact fixed_point_minimises le_rfl X S S' hS hS' (fun i => by linarith [qf_pos hS (hn i)]) h

/-- Conversely, a positive definite minimiser of the cost is a fixed point. -/
theorem C80_converse_real (env : NumEnv N p ℝ) (hs : env.eigh.Ok) (X : Matrix (Fin N) (Fin p) ℝ)
    (hX : Spans X) (hn : NonzeroSamples X) (hp : 0 < p) (S : Matrix (Fin p) (Fin p) ℝ)
    (hS : S.PosDef) (tol : ℝ)
    (hmin : ∀ S' : Matrix (Fin p) (Fin p) ℝ, S'.PosDef → ∃ v v' : ℝ,
      tylerCostReal env.eigh X S = .ok (.fin v) ∧ tylerCostReal env.eigh X S' = .ok (.fin v') ∧
      v ≤ v') :
    Returns (tylerFixedPoint env X (some S) tol 1 "None") S := by
  refine (run_one_real_eq (.tyler "None") hs noChi2_ok' hp hn rfl hS tol S).2 ?_
  have hS' : (mStep (wTyler p) X S).PosDef := mStep_posDef _ X hX S fun i => wTyler_pos hn hS i
  obtain ⟨v, v', h1, h2, h3⟩ := hmin _ hS'
  rw [tylerCostReal_eq hs hn hS] at h1
  rw [tylerCostReal_eq hs hn hS'] at h2
  rw [← CostVal.fin.inj (Except.ok.inj h1), ← CostVal.fin.inj (Except.ok.inj h2), tylerCost_eq,
    tylerCost_eq] at h3
  change mStep (wTyler p) X S = S
  rw [wTyler_eq] at h3 ⊢
  exact student_step_eq le_rfl (nat_pos_of_spans hp hX) hp X hX
    (fun S hS i => by linarith [qf_pos hS (hn i)]) S hS h3

/-- Complex data. -/
theorem C80_converse_complex (env : NumEnv N p ℂ) (hs : env.eigh.Ok)
    (X : Matrix (Fin N) (Fin p) ℂ)
    (hX : Spans X) (hn : NonzeroSamples X) (hp : 0 < p) (S : Matrix (Fin p) (Fin p) ℂ)
    (hS : S.PosDef) (tol : ℝ)
    (hmin : ∀ S' : Matrix (Fin p) (Fin p) ℂ, S'.PosDef → ∃ v v' : ℝ,
      tylerCostComplex env.eigh X S = .ok (.fin v) ∧
      tylerCostComplex env.eigh X S' = .ok (.fin v') ∧ v ≤ v') :
    Returns (complexTylerFixedPoint env X (some S) tol 1 "None") S := by
  refine (run_one_complex_eq (.tyler "None") hs noChi2_ok' hp hn rfl hS tol S).2 ?_
  have hS' : (mStep (wTyler p) X S).PosDef := mStep_posDef _ X hX S fun i => wTyler_pos hn hS i
  obtain ⟨v, v', h1, h2, h3⟩ := hmin _ hS'
  rw [tylerCostComplex_eq hs hn hS] at h1
  rw [tylerCostComplex_eq hs hn hS'] at h2
  rw [← CostVal.fin.inj (Except.ok.inj h1), ← CostVal.fin.inj (Except.ok.inj h2), tylerCost_eq,
    tylerCost_eq] at h3
  change mStep (wTyler p) X S = S
  rw [wTyler_eq] at h3 ⊢
  exact student_step_eq le_rfl (nat_pos_of_spans hp hX) hp X hX
    (fun S hS i => by linarith [qf_pos hS (hn i)]) S hS h3

/-- The three directions `(1,0)`, `(-1/2, s)`, `(-1/2,-s)` with `s = sqrt(3)/2`: the identity is a
fixed point, so the hypotheses of this section can be met. -/
noncomputable def mercedes (𝕜 : Type) [RCLike 𝕜] : Matrix (Fin 3) (Fin 2) 𝕜 :=
  of fun i j => ((![![1, 0], ![-(1 / 2), Real.sqrt 3 / 2], ![-(1 / 2), -(Real.sqrt 3 / 2)]] i j : ℝ) : 𝕜)

theorem mercedes_qf {𝕜 : Type} [RCLike 𝕜] (i : Fin 3) :
    qf (1 : Matrix (Fin 2) (Fin 2) 𝕜) (sample (mercedes 𝕜) i) = 1 := by
  rw [qf_one, Fin.sum_univ_two]
  have h3 : Real.sqrt 3 ^ 2 = 3 := Real.sq_sqrt (by norm_num)
  fin_cases i <;>
    simp [sample, mercedes, sq_abs, div_pow, h3] <;>
    norm_num

theorem mercedes_fix (𝕜 : Type) [RCLike 𝕜] :
    mStep (wTyler 2) (mercedes 𝕜) (1 : Matrix (Fin 2) (Fin 2) 𝕜) = 1 := by
  have h3 : Real.sqrt 3 * Real.sqrt 3 = 3 := Real.mul_self_sqrt (by norm_num)
  ext a b
  rw [mStep, scatter_apply]
  simp only [mercedes_qf]
  simp only [Fin.sum_univ_three, mercedes, of_apply, RCLike.star_def, RCLike.conj_ofReal,
    ← RCLike.ofReal_mul, ← RCLike.ofReal_add, wTyler]
  rw [← RCLike.ofReal_natCast, ← RCLike.ofReal_inv, ← RCLike.ofReal_mul]
  have : ∀ x : ℝ, x = (1 : Matrix (Fin 2) (Fin 2) ℝ) a b → (x : 𝕜) = (1 : Matrix (Fin 2) (Fin 2) 𝕜) a b := by
    rintro x rfl
    rw [Matrix.one_apply, Matrix.one_apply]
    split_ifs <;> simp
  apply this
  fin_cases a <;> fin_cases b <;> (simp; try ring_nf) <;> (try rw [Real.sq_sqrt (by norm_num)]) <;>
    norm_num

theorem mercedes_nonzero (𝕜 : Type) [RCLike 𝕜] : NonzeroSamples (mercedes 𝕜) := by
  intro i h
  have := mercedes_qf (𝕜 := 𝕜) i
  rw [h] at this
  simp [qf] at this

/-- The hypotheses of `C80_real` are met by the three directions and the identity. -/
example (env : NumEnv 3 2 ℝ) (hs : env.eigh.Ok) :
    Returns (tylerFixedPoint env (mercedes ℝ) (some 1) (1 / 10000) 1 "None") 1 :=
  (run_one_real_eq (.tyler "None") hs noChi2_ok' two_pos (mercedes_nonzero ℝ) rfl PosDef.one _ 1).2
    (mercedes_fix ℝ)

/-! ## C81 -/

/-- Real data: the estimate of the Student-t estimator does not depend on the starting point --
its iteration has at most one positive definite fixed point. -/
theorem C81_real (env : NumEnv N p ℝ) (hs : env.eigh.Ok) (X : Matrix (Fin N) (Fin p) ℝ)
    (hp : 0 < p) (df : ℝ) (hdf : 0 < df) (S S' : Matrix (Fin p) (Fin p) ℝ) (hS : S.PosDef)
    (hS' : S'.PosDef) (tol tol' : ℝ)
    (hfix : Returns (studentFixedPoint env X df (some S) tol 1) S)
    (hfix' : Returns (studentFixedPoint env X df (some S') tol' 1) S') : S' = S := by
  have hd2 := half_pos hdf
  have h : mStep (wStudent (df / 2) p) X S = S :=
    (run_one_real_eq (.student df) hs noChi2_ok' hp hdf rfl hS tol S).1 hfix
  have h' : mStep (wStudent (df / 2) p) X S' = S' :=
    (run_one_real_eq (.student df) hs noChi2_ok' hp hdf rfl hS' tol' S').1 hfix'
  exact student_unique hd2 hp X S S' hS hS' h (fixed_point_minimises hd2.le X S' S hS' hS
    (fun i => by linarith [qf_nonneg hS' (sample X i)]) h')

/-- Complex data. -/
theorem C81_complex (env : NumEnv N p ℂ) (hs : env.eigh.Ok) (X : Matrix (Fin N) (Fin p) ℂ)
    (hp : 0 < p) (df : ℝ) (hdf : 0 < df) (S S' : Matrix (Fin p) (Fin p) ℂ) (hS : S.PosDef)
    (hS' : S'.PosDef) (tol tol' : ℝ)
    (hfix : Returns (complexStudentFixedPoint env X df (some S) tol 1) S)
    (hfix' : Returns (complexStudentFixedPoint env X df (some S') tol' 1) S') : S' = S := by
  have h : mStep (wStudent df p) X S = S :=
    (run_one_complex_eq (.student df) hs noChi2_ok' hp hdf rfl hS tol S).1 hfix
  have h' : mStep (wStudent df p) X S' = S' :=
    (run_one_complex_eq (.student df) hs noChi2_ok' hp hdf rfl hS' tol' S').1 hfix'
  exact student_unique hdf hp X S S' hS hS' h (fixed_point_minimises hdf.le X S' S hS' hS
    (fun i => by linarith [qf_nonneg hS' (sample X i)]) h')

/-- The maximiser of the likelihood is strict: any other matrix is worse (real data; with the
likelihood of `C40_real_partial`). -/
theorem C81_strict_real (env : NumEnv N p ℝ) (hs : env.eigh.Ok) (X : Matrix (Fin N) (Fin p) ℝ)
    (hp : 0 < p) (df : ℝ) (hdf : 0 < df) (S S' : Matrix (Fin p) (Fin p) ℝ) (hS : S.PosDef)
    (hS' : S'.PosDef) (tol : ℝ)
    (hfix : Returns (studentFixedPoint env X df (some S) tol 1) S) (hne : S' ≠ S) :
    tLogLik (df / 2) X S' < tLogLik (df / 2) X S := by
  have hd2 := half_pos hdf
  have h : mStep (wStudent (df / 2) p) X S = S :=
    (run_one_real_eq (.student df) hs noChi2_ok' hp hdf rfl hS tol S).1 hfix
  obtain ⟨K, hK⟩ := tLogLik_eq hd2 X
  by_contra hcon
  push Not at hcon
  rw [hK S hS, hK S' hS'] at hcon
  exact hne (student_unique hd2 hp X S S' hS hS' h (by linarith))

/-- Complex data. -/
theorem C81_strict_complex (env : NumEnv N p ℂ) (hs : env.eigh.Ok) (X : Matrix (Fin N) (Fin p) ℂ)
    (hp : 0 < p) (df : ℝ) (hdf : 0 < df) (S S' : Matrix (Fin p) (Fin p) ℂ) (hS : S.PosDef)
    (hS' : S'.PosDef) (tol : ℝ)
    (hfix : Returns (complexStudentFixedPoint env X df (some S) tol 1) S) (hne : S' ≠ S) :
    complexTLogLik (2 * df) X S' < complexTLogLik (2 * df) X S := by
  have h : mStep (wStudent df p) X S = S :=
    (run_one_complex_eq (.student df) hs noChi2_ok' hp hdf rfl hS tol S).1 hfix
  obtain ⟨K, hK⟩ := complexTLogLik_eq (show (0 : ℝ) < 2 * df by linarith) X
  by_contra hcon
  push Not at hcon
  rw [hK S hS, hK S' hS', show 2 * df / 2 = df by ring] at hcon
  exact hne (student_unique hdf hp X S S' hS hS' h (by linarith))

/-- The hypotheses of `C81` are met: two samples of one feature, `df = 2`. -/
example (env : NumEnv 2 1 ℝ) (hs : env.eigh.Ok) :
    Returns (studentFixedPoint env (twoSamples ℝ) 2 (some 1) (1 / 10000) 1) 1 :=
  C40_real_violated env hs |>.1

/-! ## C82 -/

/-- Real data, given one fixed point `S`: the fixed points are exactly the multiples of `S` (the
estimate is unique once a normalisation is chosen) if and only if the samples cannot be split
between two complementary subspaces. -/
theorem C82_real (env : NumEnv N p ℝ) (hs : env.eigh.Ok) (X : Matrix (Fin N) (Fin p) ℝ)
    (hn : NonzeroSamples X) (hp : 0 < p) (S : Matrix (Fin p) (Fin p) ℝ) (hS : S.PosDef) (tol : ℝ)
    (hfix : Returns (tylerFixedPoint env X (some S) tol 1 "None") S) :
    Indecomposable X ↔ ∀ S' : Matrix (Fin p) (Fin p) ℝ, S'.PosDef →
      Returns (tylerFixedPoint env X (some S') tol 1 "None") S' → ∃ c : ℝ, 0 < c ∧ S' = c • S := by
  have hr : ∀ S' : Matrix (Fin p) (Fin p) ℝ, S'.PosDef →
      (Returns (tylerFixedPoint env X (some S') tol 1 "None") S' ↔ mStep (wTyler p) X S' = S') :=
    fun S' hS' => run_one_real_eq (.tyler "None") hs noChi2_ok' hp hn rfl hS' tol S'
  have h := (hr S hS).1 hfix
  constructor
  · intro hX S' hS' hfix'
    have h' := (hr S' hS').1 hfix'
    refine tyler_unique hp X hn hX S S' hS hS' h ?_
    rw [tylerCost_eq, tylerCost_eq]
    rw [wTyler_eq] at h'
    exact fixed_point_minimises le_rfl X S' S hS' hS (fun i => by linarith [qf_pos hS' (hn i)]) h'
  · intro hall P hPP hPx
    by_contra hcon
    push Not at hcon
    obtain ⟨S', h1, h2, h3⟩ := tyler_not_unique X P hPP hPx hcon.1 hcon.2 S hS h
    obtain ⟨c, hc, h4⟩ := hall S' h1 ((hr S' h1).2 h2)
    exact h3 c hc h4

/-- Complex data. -/
theorem C82_complex (env : NumEnv N p ℂ) (hs : env.eigh.Ok) (X : Matrix (Fin N) (Fin p) ℂ)
    (hn : NonzeroSamples X) (hp : 0 < p) (S : Matrix (Fin p) (Fin p) ℂ) (hS : S.PosDef) (tol : ℝ)
    (hfix : Returns (complexTylerFixedPoint env X (some S) tol 1 "None") S) :
    Indecomposable X ↔ ∀ S' : Matrix (Fin p) (Fin p) ℂ, S'.PosDef →
      Returns (complexTylerFixedPoint env X (some S') tol 1 "None") S' →
        ∃ c : ℝ, 0 < c ∧ S' = (c : ℂ) • S := by
  have hr : ∀ S' : Matrix (Fin p) (Fin p) ℂ, S'.PosDef →
      (Returns (complexTylerFixedPoint env X (some S') tol 1 "None") S' ↔
        mStep (wTyler p) X S' = S') :=
    fun S' hS' => run_one_complex_eq (.tyler "None") hs noChi2_ok' hp hn rfl hS' tol S'
  have h := (hr S hS).1 hfix
  constructor
  · intro hX S' hS' hfix'
    have h' := (hr S' hS').1 hfix'
    refine tyler_unique hp X hn hX S S' hS hS' h ?_
    rw [tylerCost_eq, tylerCost_eq]
    rw [wTyler_eq] at h'
    exact fixed_point_minimises le_rfl X S' S hS' hS (fun i => by linarith [qf_pos hS' (hn i)]) h'
  · intro hall P hPP hPx
    by_contra hcon
    push Not at hcon
    obtain ⟨S', h1, h2, h3⟩ := tyler_not_unique X P hPP hPx hcon.1 hcon.2 S hS h
    obtain ⟨c, hc, h4⟩ := hall S' h1 ((hr S' h1).2 h2)
    exact h3 c hc h4

/-- Two estimates with the same trace coincide, on data that cannot be split: with trace
normalisation the result of a converged run is unique. -/
theorem C82_trace_real (env : NumEnv N p ℝ) (hs : env.eigh.Ok) (X : Matrix (Fin N) (Fin p) ℝ)
    (hn : NonzeroSamples X) (hp : 0 < p) (hX : Indecomposable X)
    (S S' : Matrix (Fin p) (Fin p) ℝ) (hS : S.PosDef) (hS' : S'.PosDef) (tol : ℝ)
    (hfix : Returns (tylerFixedPoint env X (some S) tol 1 "None") S)
    (hfix' : Returns (tylerFixedPoint env X (some S') tol 1 "None") S')
    (htr : S.trace = S'.trace) : S' = S := by
  obtain ⟨c, hc, h⟩ := (C82_real env hs X hn hp S hS tol hfix).1 hX S' hS' hfix'
  rw [h, trace_smul, smul_eq_mul] at htr
  have : Nonempty (Fin p) := ⟨⟨0, hp⟩⟩
  have hpos := hS.trace_pos
  have : c = 1 := by
    have h0 : (c - 1) * S.trace = 0 := by linarith
    rcases mul_eq_zero.1 h0 with h1 | h1
    · linarith
    · exact absurd h1 hpos.ne'
  rw [h, this, one_smul]

/-- The three directions cannot be split. -/
theorem mercedes_indecomposable : Indecomposable (mercedes ℝ) := by
  intro P hPP hPx
  have hs3 : Real.sqrt 3 ≠ 0 := by positivity
  have h0 := hPx 0
  have h1 := hPx 1
  have h2 := hPx 2
  have ex : ∀ i, sample (mercedes ℝ) i =
      ![![1, 0], ![-(1 / 2), Real.sqrt 3 / 2], ![-(1 / 2), -(Real.sqrt 3 / 2)]] i := fun i => rfl
  rw [ex] at h0 h1 h2
  have e : ∀ (v w : Fin 2 → ℝ), P *ᵥ v = w ↔ P 0 0 * v 0 + P 0 1 * v 1 = w 0 ∧
      P 1 0 * v 0 + P 1 1 * v 1 = w 1 := by
    intro v w
    constructor
    · intro h
      rw [← h]
      simp [mulVec, dotProduct, Fin.sum_univ_two]
    · rintro ⟨h1, h2⟩
      funext j
      fin_cases j <;> simpa [mulVec, dotProduct, Fin.sum_univ_two]
  simp only [e] at h0 h1 h2
  simp only [cons_val_zero, cons_val_one, cons_val, Pi.zero_apply, mul_one, mul_zero, add_zero] at h0 h1 h2
  have hP : ∀ a b c d : ℝ, P 0 0 = a → P 0 1 = b → P 1 0 = c → P 1 1 = d → P = !![a, b; c, d] := by
    rintro _ _ _ _ rfl rfl rfl rfl
    exact (Matrix.eta_fin_two P)
  have key : ∀ x : ℝ, x * Real.sqrt 3 = 0 → x = 0 := fun x hx => (mul_eq_zero.1 hx).resolve_right hs3
  rcases h0 with ⟨a0, c0⟩ | ⟨a0, c0⟩ <;> rcases h1 with ⟨a1, c1⟩ | ⟨a1, c1⟩ <;>
    rcases h2 with ⟨a2, c2⟩ | ⟨a2, c2⟩ <;> rw [a0] at a1 a2 <;> rw [c0] at c1 c2 <;>
    first
    | (exfalso; linarith)
    | (left
       rw [hP 0 0 0 0 a0 (key _ (by linarith)) c0 (key _ (by linarith))]
       ext i j; fin_cases i <;> fin_cases j <;> rfl)
    | (right
       have hb := key (P 0 1) (by linarith)
       have hd := key (P 1 1 - 1) (by linarith)
       rw [hP 1 0 0 1 a0 hb c0 (by linarith)]
       exact Matrix.one_fin_two.symm)

/-- The hypotheses of `C82` are met, on both sides of the equivalence: the three directions cannot
be split (and have the identity as fixed point), the two coordinate directions can. -/
example : Indecomposable (mercedes ℝ) ∧ mStep (wTyler 2) (mercedes ℝ) 1 = 1 ∧
    ¬ Indecomposable (!![1, 0; 0, 1] : Matrix (Fin 2) (Fin 2) ℝ) ∧
    mStep (wTyler 2) (!![1, 0; 0, 1] : Matrix (Fin 2) (Fin 2) ℝ) (1 : Matrix (Fin 2) (Fin 2) ℝ) = 1 := by
  refine ⟨mercedes_indecomposable, mercedes_fix ℝ, fun h => ?_, ?_⟩
  · have := h !![1, 0; 0, 0] (by ext i j; fin_cases i <;> fin_cases j <;> simp [Matrix.mul_apply])
      (fun i => by
        fin_cases i
        · left; funext j; fin_cases j <;> simp [mulVec, dotProduct, sample, Fin.sum_univ_two]
        · right; funext j; fin_cases j <;> simp [mulVec, dotProduct, sample, Fin.sum_univ_two])
    rcases this with h | h
    · exact one_ne_zero (congrFun (congrFun h 0) 0)
    · exact zero_ne_one (congrFun (congrFun h 1) 1)
  · have hq : ∀ i, qf (1 : Matrix (Fin 2) (Fin 2) ℝ) (sample !![1, 0; 0, 1] i) = 1 := by
      intro i
      rw [qf_one]
      fin_cases i <;> simp [sample, Fin.sum_univ_two]
    ext a b
    rw [mStep, scatter_apply]
    simp only [hq, wTyler]
    fin_cases a <;> fin_cases b <;> simp

end
end RS
