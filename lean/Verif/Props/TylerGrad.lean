import Verif.Lemmas.TylerGrad
import Verif.Props.NatGrad

/-
The gradient of Tyler's cost (C163) and the accuracy of the natural-gradient method with a solver that
stops at a small gradient (C164).
-/
set_option autoImplicit false

namespace RS
open Matrix ComplexOrder

section
variable {N p : ℕ}

private def noChi2g : Chi2 := ⟨fun q _ => q, fun _ _ => 0⟩
private theorem noChi2g_ok : noChi2g.Ok :=
  ⟨fun _ => rfl, fun _ _ h _ _ => h, fun _ _ => le_rfl⟩

/-! ## C163 -/

/-- The natural gradient of Tyler's cost at `S` is the number of samples times the step that one
iteration of the fixed-point method makes from `S`, reversed. This determines the symmetric part of a
gradient. -/
theorem C163_gradient_real (env : NumEnv N p ℝ) (hs : env.eigh.Ok) (X : Matrix (Fin N) (Fin p) ℝ)
    (hN : 0 < N) (hp : 0 < p) (hn : NonzeroSamples X) (S : Matrix (Fin p) (Fin p) ℝ) (hS : S.PosDef)
    (tol : ℝ) (T : Matrix (Fin p) (Fin p) ℝ)
    (hT : Returns (tylerFixedPoint env X (some S) tol 1 "None") T) (G : Matrix (Fin p) (Fin p) ℝ) :
    IsGradientAt (tylerCostReal env.eigh X) S G ↔ natGrad S G = (N : ℝ) • (S - T) := by
  have h := (run_one_real_eq (.tyler "None") hs noChi2g_ok hp hn rfl hS tol T).1 hT
  have hc : ∀ S : Matrix (Fin p) (Fin p) ℝ, S.PosDef →
      tylerCostReal env.eigh X S = .ok (.fin (tylerCost X S + 0)) := fun S hS => by
    rw [add_zero]; exact tylerCostReal_eq hs hn hS
  rw [isGradientAt_iff hc hN hn hS G, ← h]
  rfl

theorem C163_gradient_complex (env : NumEnv N p ℂ) (hs : env.eigh.Ok) (X : Matrix (Fin N) (Fin p) ℂ)
    (hN : 0 < N) (hp : 0 < p) (hn : NonzeroSamples X) (S : Matrix (Fin p) (Fin p) ℂ) (hS : S.PosDef)
    (tol : ℝ) (T : Matrix (Fin p) (Fin p) ℂ)
    (hT : Returns (complexTylerFixedPoint env X (some S) tol 1 "None") T)
    (G : Matrix (Fin p) (Fin p) ℂ) :
    IsGradientAt (tylerCostComplex env.eigh X) S G ↔ natGrad S G = (N : ℂ) • (S - T) := by
  have h := (run_one_complex_eq (.tyler "None") hs noChi2g_ok hp hn rfl hS tol T).1 hT
  have hc : ∀ S : Matrix (Fin p) (Fin p) ℂ, S.PosDef →
      tylerCostComplex env.eigh X S = .ok (.fin (tylerCost X S + 0)) := fun S hS => by
    rw [add_zero]; exact tylerCostComplex_eq hs hn hS
  rw [isGradientAt_iff hc hN hn hS G, ← h]
  rfl

theorem stationary_iff {𝕜 : Type} [RCLike 𝕜] {X : Matrix (Fin N) (Fin p) 𝕜}
    {cost : Matrix (Fin p) (Fin p) 𝕜 → Py CostVal}
    (hcost : ∀ S : Matrix (Fin p) (Fin p) 𝕜, S.PosDef → cost S = .ok (.fin (tylerCost X S + 0)))
    (hN : 0 < N) (hn : NonzeroSamples X) {S : Matrix (Fin p) (Fin p) 𝕜} (hS : S.PosDef) :
    (IsGradientAt cost S 0 ↔ mStep (wTyler p) X S = S) ∧ (Minimises cost S ↔ IsGradientAt cost S 0) := by
  have hN' : (N : 𝕜) ≠ 0 := by exact_mod_cast hN.ne'
  have h1 : IsGradientAt cost S 0 ↔ mStep (wTyler p) X S = S := by
    rw [isGradientAt_iff hcost hN hn hS 0]
    have : natGrad S (0 : Matrix (Fin p) (Fin p) 𝕜) = 0 := by simp [natGrad]
    rw [this, eq_comm, smul_eq_zero, or_iff_right hN', sub_eq_zero, eq_comm]
  refine ⟨h1, fun h => ?_, fun h => ?_⟩
  · obtain ⟨G, hG⟩ := exists_gradient (X := X) S hS
    have hG' := (isGradientAt_iff hcost hN hn hS G).2 hG
    have h2 := minimises_gradient h hG'
    rw [h2, eq_comm, smul_eq_zero, or_iff_right hN', sub_eq_zero] at hG
    exact h1.2 hG.symm
  · refine ⟨hS, _, hcost S hS, fun S' hS' => ⟨_, hcost S' hS', ?_⟩⟩
    have := tyler_fix_minimises hn hS (h1.1 h) S' hS'
    linarith

/-- Three ways to say that `S` is a Tyler estimate: the cost has gradient zero at `S`; the cost is
nowhere smaller than at `S`; an iteration of the fixed-point method started at `S` returns `S`. -/
theorem C163_stationary_real (env : NumEnv N p ℝ) (hs : env.eigh.Ok) (X : Matrix (Fin N) (Fin p) ℝ)
    (hN : 0 < N) (hp : 0 < p) (hn : NonzeroSamples X) (S : Matrix (Fin p) (Fin p) ℝ) (hS : S.PosDef)
    (tol : ℝ) :
    (IsGradientAt (tylerCostReal env.eigh X) S 0 ↔ Minimises (tylerCostReal env.eigh X) S) ∧
    (IsGradientAt (tylerCostReal env.eigh X) S 0 ↔
      Returns (tylerFixedPoint env X (some S) tol 1 "None") S) := by
  have hc : ∀ S : Matrix (Fin p) (Fin p) ℝ, S.PosDef →
      tylerCostReal env.eigh X S = .ok (.fin (tylerCost X S + 0)) := fun S hS => by
    rw [add_zero]; exact tylerCostReal_eq hs hn hS
  obtain ⟨h1, h2⟩ := stationary_iff hc hN hn hS
  exact ⟨h2.symm, h1.trans (run_one_real_eq (.tyler "None") hs noChi2g_ok hp hn rfl hS tol S).symm⟩

theorem C163_stationary_complex (env : NumEnv N p ℂ) (hs : env.eigh.Ok)
    (X : Matrix (Fin N) (Fin p) ℂ) (hN : 0 < N) (hp : 0 < p) (hn : NonzeroSamples X)
    (S : Matrix (Fin p) (Fin p) ℂ) (hS : S.PosDef) (tol : ℝ) :
    (IsGradientAt (tylerCostComplex env.eigh X) S 0 ↔ Minimises (tylerCostComplex env.eigh X) S) ∧
    (IsGradientAt (tylerCostComplex env.eigh X) S 0 ↔
      Returns (complexTylerFixedPoint env X (some S) tol 1 "None") S) := by
  have hc : ∀ S : Matrix (Fin p) (Fin p) ℂ, S.PosDef →
      tylerCostComplex env.eigh X S = .ok (.fin (tylerCost X S + 0)) := fun S hS => by
    rw [add_zero]; exact tylerCostComplex_eq hs hn hS
  obtain ⟨h1, h2⟩ := stationary_iff hc hN hn hS
  exact ⟨h2.symm, h1.trans (run_one_complex_eq (.tyler "None") hs noChi2g_ok hp hn rfl hS tol S).symm⟩

/-- The cost that the natural-gradient method gives to its solver, computed from normalised samples, has
the gradients of Tyler's cost of the samples themselves. -/
theorem C163_solver (L : Lib) (hs : (L.envR N p).eigh.Ok) (X : Matrix (Fin N) (Fin p) ℝ)
    (hN : 0 < N) (hn : NonzeroSamples X) (S : Matrix (Fin p) (Fin p) ℝ) (hS : S.PosDef)
    (G : Matrix (Fin p) (Fin p) ℝ) :
    IsGradientAt (ngCost L X) S G ↔ IsGradientAt (tylerCostReal (L.envR N p).eigh X) S G := by
  obtain ⟨k, hk⟩ := ngCost_eq L hs hn
  have hc : ∀ S : Matrix (Fin p) (Fin p) ℝ, S.PosDef →
      tylerCostReal (L.envR N p).eigh X S = .ok (.fin (tylerCost X S + 0)) := fun S hS => by
    rw [add_zero]; exact tylerCostReal_eq hs hn hS
  rw [isGradientAt_iff hk hN hn hS G, isGradientAt_iff hc hN hn hS G]

/-! ## C164 -/

/-- Real data with a unique Tyler estimate: a solver that stops when the natural gradient is at most `ε`
makes the method return a matrix within a multiple of `ε` of the estimate to which the fixed-point method
converges. -/
theorem C164_real (X : Matrix (Fin N) (Fin p) ℝ) (hN : 0 < N) (hp : 0 < p) (hn : NonzeroSamples X)
    (hX : FairShares X) (name : String)
    (hname : name = "trace" ∨ name = "determinant" ∨ name = "element") :
    ∃ (R : Matrix (Fin p) (Fin p) ℝ) (C ε0 : ℝ), 0 ≤ C ∧ 0 < ε0 ∧
      ∀ (L : Lib), (L.envR N p).eigh.Ok →
        RunsTendTo (fun init tol iterMax => tylerFixedPoint (L.envR N p) X init tol iterMax name) R ∧
        ∀ (init : Option (Matrix (Fin p) (Fin p) ℝ)) (ε : ℝ), ε ≤ ε0 → SolverStops L p init ε →
          ∃ (A : Matrix (Fin p) (Fin p) ℝ) (v : CostVal), ngReal L X init name = .ok (.fin A, v) ∧
            A.PosDef ∧ frobDist A R ≤ C * ε := by
  obtain ⟨S0, hS0, h0, -⟩ := (tyler_exists_unique_iff X hN hp hn).2 hX
  have hsp := tyler_spans hN X hn hX
  have hI := count_indecomposable X hX
  obtain ⟨R, hR, hRpd⟩ := C31_posDef name hp S0 hS0
  obtain ⟨G, H, hG, -, hGH, hHG, hHH, hGu, hGS⟩ := exists_whiten hS0
  obtain ⟨δ, D, hδ, hD, hres⟩ := shapeDev_normalise name hname hp hS0 hR hG hGH hHG hHH hGu
  obtain ⟨κ, hκ, hsol⟩ := solver_near hN hp hn hI hS0 h0 hG hGu hGS
  refine ⟨R, D * κ⁻¹, min (κ / 2) (κ * δ), by positivity, by positivity, fun L hs => ⟨?_, ?_⟩⟩
  · intro init' hi ε hε
    obtain ⟨R', hR', hlim⟩ := C84_real (L.envR N p) hs X hp hsp hn hI S0 hS0 0
      ((run_one_real_eq (.tyler "None") hs noChi2g_ok hp hn rfl hS0 0 S0).2 h0) init' hi name hname
    obtain rfl : R = R' := FMat.fin.inj (hR.symm.trans hR')
    exact hlim ε hε
  · intro init ε hε hst
    have hε1 : ε < κ := by
      have := hε.trans (min_le_left _ _)
      linarith
    have hε2 : κ⁻¹ * ε ≤ δ := by
      rw [inv_mul_le_iff₀ hκ]
      exact hε.trans (min_le_right _ _)
    obtain ⟨S, hS, hret, hdev⟩ := hsol L hs init ε hε1 hst
    obtain ⟨v, hv⟩ := ngReal_of_solve L hret name
    obtain ⟨A, hA, hApd⟩ := C31_posDef name hp S hS
    refine ⟨A, v, by rw [hv, hA], hApd, ?_⟩
    rw [frobDist_eq, mul_assoc]
    exact (hres S A hS hA (hdev.trans hε2)).trans (mul_le_mul_of_nonneg_left hdev hD)

/-- Common part for complex data. -/
theorem ngComplex_near (X : Matrix (Fin N) (Fin p) ℂ) (hN : 0 < N) (hp : 0 < p)
    (hn : NonzeroSamples X) (hX : FairShares (realForm X))
    (hB : ∀ S : Matrix (Fin (p + p)) (Fin (p + p)) ℝ, S.PosDef →
      mStep (wTyler (p + p)) (realForm X) S = S → IsBlockForm S) (name : String)
    (hname : name = "trace" ∨ name = "determinant" ∨ name = "element") :
    ∃ (R : Matrix (Fin p) (Fin p) ℂ) (C ε0 : ℝ), 0 ≤ C ∧ 0 < ε0 ∧
      ∀ (L : Lib), (L.envR N (p + p)).eigh.Ok → (L.envC N p).eigh.Ok →
        RunsTendTo (fun init tol iterMax =>
          complexTylerFixedPoint (L.envC N p) X init tol iterMax name) R ∧
        ∀ (init : Option (Matrix (Fin (p + p)) (Fin (p + p)) ℝ)) (ε : ℝ), ε ≤ ε0 →
          SolverStops L (p + p) init ε →
          ∃ (A : Matrix (Fin p) (Fin p) ℂ) (v : CostVal), ngComplex L X init name = .ok (.fin A, v) ∧
            A.PosDef ∧ frobDist A R ≤ C * ε := by
  have hn' := realForm_nonzero hn
  have hp' : 0 < p + p := by omega
  obtain ⟨S0, hS0, h0, -⟩ := (tyler_exists_unique_iff (realForm X) hN hp' hn').2 hX
  obtain ⟨M, hM, hMS, hMng⟩ := exists_realify hS0 (hB S0 hS0 h0)
  have hMfix : mStep (wTyler p) X M = M := fix_of_realForm hM (by rw [hMS]; exact h0)
  have hsp : Spans X := spans_of_scatter (by
    have : (mStep (wTyler p) X M).PosDef := by rw [hMfix]; exact hM
    exact this)
  have hI' := count_indecomposable (realForm X) hX
  have hI := indecomposable_of_realForm hI'
  obtain ⟨R, hR, hRpd⟩ := C31_posDef name hp M hM
  obtain ⟨G, H, hG, -, hGH, hHG, hHH, hGu, hGS⟩ := exists_whiten hS0
  obtain ⟨κ, hκ, hsol⟩ := solver_near hN hp' hn' hI' hS0 h0 hG hGu hGS
  obtain ⟨η, D, hη, hlip⟩ := normalise_lip name hp hM hR
  obtain ⟨δ, hδ, hnear⟩ := posDef_near hM
  obtain ⟨h, hh⟩ : ∃ h, h = frob H * frob H := ⟨_, rfl⟩
  have hh0 : 0 ≤ h := by rw [hh]; exact mul_nonneg (frob_nonneg _) (frob_nonneg _)
  obtain ⟨μ, hμ⟩ : ∃ μ, μ = min η δ := ⟨_, rfl⟩
  have hμ0 : 0 < μ := by rw [hμ]; exact lt_min hη hδ
  refine ⟨R, |D| * (2 * (h * κ⁻¹)), min (κ / 2) (κ * μ / (2 * (h + 1))), by positivity, by positivity,
    fun L hs hs' => ⟨?_, ?_⟩⟩
  · intro init' hi ε hε
    obtain ⟨R', hR', hlim⟩ := C84_complex (L.envC N p) hs' X hp hsp hn hI M hM 0
      ((run_one_complex_eq (.tyler "None") hs' noChi2g_ok hp hn rfl hM 0 M).2 hMfix) init' hi name hname
    obtain rfl : R = R' := FMat.fin.inj (hR.symm.trans hR')
    exact hlim ε hε
  · intro init ε hε hst
    have hε1 : ε < κ := by
      have := hε.trans (min_le_left _ _)
      linarith
    obtain ⟨S, hS, hret, hdev⟩ := hsol L hs init ε hε1 hst
    have hε0 : 0 ≤ κ⁻¹ * ε := (frob_nonneg _).trans hdev
    have hε2 : 2 * (h * (κ⁻¹ * ε)) ≤ μ := by
      have h1 := hε.trans (min_le_right _ _)
      rw [le_div_iff₀ (by positivity)] at h1
      have h2 : κ⁻¹ * (ε * (2 * (h + 1))) ≤ κ⁻¹ * (κ * μ) :=
        mul_le_mul_of_nonneg_left h1 (inv_pos.2 hκ).le
      rw [← mul_assoc κ⁻¹ κ, inv_mul_cancel₀ hκ.ne', one_mul] at h2
      nlinarith
    obtain ⟨s, hs0, hsS⟩ := shapeDev_scaled hp' hG hGH hHG hHH hGu hS
    obtain ⟨v, hv⟩ := ngComplex_of_solve L hret name
    have e : ngToComplex (s • S) = (s : ℂ) • ngToComplex S := ngToComplex_smul s S
    have hsS' : frob (s • S - S0) ≤ h * shapeDev G S := by rw [hh]; exact hsS
    have hd : frob ((s : ℂ) • ngToComplex S - M) ≤ 2 * (h * (κ⁻¹ * ε)) := by
      rw [← e, ← hMng, ← ngToComplex_sub]
      refine (frob_ngToComplex _).trans (mul_le_mul_of_nonneg_left ?_ (by norm_num))
      exact hsS'.trans (mul_le_mul_of_nonneg_left hdev hh0)
    have hHerm : ((s : ℂ) • ngToComplex S).IsHermitian := by rw [← e]; exact ngToComplex_herm _
    have hT : ((s : ℂ) • ngToComplex S).PosDef :=
      hnear _ hHerm ((hd.trans hε2).trans (by rw [hμ]; exact min_le_right _ _))
    have hNg : (ngToComplex S).PosDef := by
      have : (((s⁻¹ : ℝ) : ℂ) • ((s : ℂ) • ngToComplex S)).PosDef :=
        hT.smul (by exact_mod_cast inv_pos.2 hs0)
      rwa [smul_smul, ← Complex.ofReal_mul, inv_mul_cancel₀ hs0.ne', Complex.ofReal_one, one_smul] at this
    obtain ⟨A, hA, hApd⟩ := C31_posDef name hp (ngToComplex S) hNg
    refine ⟨A, v, by rw [hv, hA], hApd, ?_⟩
    have hTn : FMat.normalise name (.fin ((s : ℂ) • ngToComplex S)) = .fin A := by
      have := C31_scale_free name hname hp (ngToComplex S) hNg s hs0
      rw [← hA, ← this]
      rfl
    have h1 := hlip _ A hT hTn ((hd.trans hε2).trans (by rw [hμ]; exact min_le_left _ _))
    rw [frobDist_eq]
    refine h1.trans ((mul_le_mul_of_nonneg_right (le_abs_self D) (frob_nonneg _)).trans ?_)
    rw [mul_assoc, mul_assoc 2, mul_assoc h]
    exact mul_le_mul_of_nonneg_left hd (abs_nonneg _)

/-- The same for complex data that multiplication by `i` permutes. -/
theorem C164_circular (X : Matrix (Fin N) (Fin p) ℂ) (hN : 0 < N) (hp : 0 < p)
    (hn : NonzeroSamples X) (hX : FairShares (realForm X)) (π : Equiv.Perm (Fin N))
    (hπ : ∀ i j, X (π i) j = Complex.I * X i j) (name : String)
    (hname : name = "trace" ∨ name = "determinant" ∨ name = "element") :
    ∃ (R : Matrix (Fin p) (Fin p) ℂ) (C ε0 : ℝ), 0 ≤ C ∧ 0 < ε0 ∧
      ∀ (L : Lib), (L.envR N (p + p)).eigh.Ok → (L.envC N p).eigh.Ok →
        RunsTendTo (fun init tol iterMax =>
          complexTylerFixedPoint (L.envC N p) X init tol iterMax name) R ∧
        ∀ (init : Option (Matrix (Fin (p + p)) (Fin (p + p)) ℝ)) (ε : ℝ), ε ≤ ε0 →
          SolverStops L (p + p) init ε →
          ∃ (A : Matrix (Fin p) (Fin p) ℂ) (v : CostVal), ngComplex L X init name = .ok (.fin A, v) ∧
            A.PosDef ∧ frobDist A R ≤ C * ε :=
  ngComplex_near X hN hp hn hX (fun _ hS h => circular_blockForm hp hn
    (count_indecomposable (realForm X) hX) π hπ hS h) name hname

/-! ## The hypotheses are met -/

/-- C163: the gradient for three directions at equal angles at `diag(1, 4)`. -/
example (env : NumEnv 3 2 ℝ) (hs : env.eigh.Ok) :
    ∃ T G : Matrix (Fin 2) (Fin 2) ℝ,
      Returns (tylerFixedPoint env (mercedes ℝ) (some (diagonal ![1, 4])) 0 1 "None") T ∧
      IsGradientAt (tylerCostReal env.eigh (mercedes ℝ)) (diagonal ![1, 4]) G := by
  have hD : (diagonal ![1, 4] : Matrix (Fin 2) (Fin 2) ℝ).PosDef := by
    rw [posDef_diagonal_iff]; intro i; fin_cases i <;> norm_num
  have h := (run_one_real_eq (.tyler "None") hs noChi2g_ok two_pos (mercedes_nonzero ℝ) rfl hD 0 _).2 rfl
  obtain ⟨G, hG⟩ := exists_gradient (X := mercedes ℝ) _ hD
  exact ⟨_, G, h, (C163_gradient_real env hs (mercedes ℝ) (by norm_num) two_pos (mercedes_nonzero ℝ) _ hD
    0 _ h G).2 hG⟩

/-- C163: the gradient at the identity for three directions at equal angles is zero. -/
example (env : NumEnv 3 2 ℝ) (hs : env.eigh.Ok) :
    IsGradientAt (tylerCostReal env.eigh (mercedes ℝ)) 1 0 ∧
      Minimises (tylerCostReal env.eigh (mercedes ℝ)) 1 := by
  have h := C163_stationary_real env hs (mercedes ℝ) (by norm_num) two_pos (mercedes_nonzero ℝ) 1
    PosDef.one 0
  have h1 := h.2.2 ((run_one_real_eq (.tyler "None") hs noChi2g_ok two_pos (mercedes_nonzero ℝ) rfl
    PosDef.one 0 1).2 (mercedes_fix ℝ))
  exact ⟨h1, h.1.1 h1⟩

/-- C164 applies to three directions at equal angles and a solver that finds minimisers. -/
example : ∃ (R : Matrix (Fin 2) (Fin 2) ℝ) (C : ℝ), ∀ (L0 : Lib), (L0.envR 3 2).eigh.Ok →
    ∃ (ε : ℝ) (A : Matrix (Fin 2) (Fin 2) ℝ) (v : CostVal), 0 < ε ∧
      SolverStops (idealLib L0) 2 none ε ∧
      ngReal (idealLib L0) (mercedes ℝ) none "trace" = .ok (.fin A, v) ∧ frobDist A R ≤ C * ε := by
  obtain ⟨R, C, ε0, -, hε0, h⟩ := C164_real (mercedes ℝ) (by norm_num) two_pos (mercedes_nonzero ℝ)
    (fairShares_of_fix (by norm_num) two_pos (mercedes_nonzero ℝ)
      mercedes_indecomposable PosDef.one (mercedes_fix ℝ)) "trace" (.inl rfl)
  refine ⟨R, C, fun L0 hs => ?_⟩
  have hst := (idealLib_finds L0 (p := 2) none).stops hε0.le
  obtain ⟨A, v, hA, -, hd⟩ := (h (idealLib L0) hs).2 none ε0 le_rfl hst
  exact ⟨ε0, A, v, hε0, hst, hA, hd⟩

/-- C164 applies to the wheel. -/
example : ∃ (R : Matrix (Fin 1) (Fin 1) ℂ) (C : ℝ), ∀ (L0 : Lib), (L0.envR 8 (1 + 1)).eigh.Ok →
    (L0.envC 8 1).eigh.Ok → ∃ (ε : ℝ) (A : Matrix (Fin 1) (Fin 1) ℂ) (v : CostVal), 0 < ε ∧
      ngComplex (idealLib L0) wheel none "trace" = .ok (.fin A, v) ∧ frobDist A R ≤ C * ε := by
  let π : Equiv.Perm (Fin 8) := ⟨![1, 2, 3, 0, 5, 6, 7, 4], ![3, 0, 1, 2, 7, 4, 5, 6],
    fun i => by fin_cases i <;> rfl, fun i => by fin_cases i <;> rfl⟩
  obtain ⟨R, C, ε0, -, hε0, h⟩ := C164_circular wheel (by norm_num) one_pos wheel_nonzero
    (fairShares_of_fix (by norm_num) (by norm_num) (realForm_nonzero wheel_nonzero)
      wheel_indecomposable PosDef.one wheel_fix) π (by
        intro i j
        fin_cases i <;> fin_cases j <;> apply Complex.ext <;> simp [π, wheel]) "trace" (.inl rfl)
  refine ⟨R, C, fun L0 hs hs' => ?_⟩
  obtain ⟨A, v, hA, -, hd⟩ := (h (idealLib L0) hs hs').2 none ε0 le_rfl
    ((idealLib_finds L0 (p := 1 + 1) none).stops hε0.le)
  exact ⟨ε0, A, v, hε0, hA, hd⟩

end
end RS
