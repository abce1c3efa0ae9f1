import Verif.Lemmas.NatGrad

/-
The natural-gradient method of Tyler's estimator against the fixed-point method (C105).
-/
set_option autoImplicit false

namespace RS
open Matrix ComplexOrder

section
variable {N p : ℕ}

/-- A dummy chi-square law, for estimators that do not use it. -/
private def noChi2₅ : Chi2 := ⟨fun q _ => q, fun _ _ => 0⟩
private theorem noChi2_ok₅ : noChi2₅.Ok :=
  ⟨fun _ => rfl, fun _ _ h _ _ => h, fun _ _ => le_rfl⟩

/-- Whatever the positive definite starting point, calls that make enough iterations return a
matrix as close to `R` as wanted. -/
def RunsTendTo {𝕜 : Type} [RCLike 𝕜]
    (run : Option (Matrix (Fin p) (Fin p) 𝕜) → ℝ → ℤ → Py (FPOut p 𝕜))
    (R : Matrix (Fin p) (Fin p) 𝕜) : Prop :=
  ∀ init : Option (Matrix (Fin p) (Fin p) 𝕜), (∀ S ∈ init, S.PosDef) →
    ∀ ε : ℝ, 0 < ε → ∃ K : ℕ, ∀ (tol : ℝ) (iterMax : ℤ), ∃ result delta iteration warned,
      run init tol iterMax = .ok ⟨.fin result, delta, iteration, warned⟩ ∧
      (K ≤ iteration → frobDist result R < ε)

/-! ## C105 -/

/-- Real data with a unique Tyler estimate: the natural-gradient method returns exactly the matrix
to which the fixed-point method converges, for every normalisation that fixes the scale. -/
theorem C105_real (L : Lib) (hs : (L.envR N p).eigh.Ok)
    (init : Option (Matrix (Fin p) (Fin p) ℝ)) (hsol : SolverFinds L p init)
    (X : Matrix (Fin N) (Fin p) ℝ) (hN : 0 < N) (hp : 0 < p) (hn : NonzeroSamples X)
    (hX : FairShares X) (name : String)
    (hname : name = "trace" ∨ name = "determinant" ∨ name = "element") :
    ∃ (R : Matrix (Fin p) (Fin p) ℝ) (v : CostVal),
      ngReal L X init name = .ok (.fin R, v) ∧ R.PosDef ∧
      RunsTendTo (fun init tol iterMax => tylerFixedPoint (L.envR N p) X init tol iterMax name) R := by
  obtain ⟨S0, hS0, h0, -⟩ := (tyler_exists_unique_iff X hN hp hn).2 hX
  obtain ⟨S, hS, hfix, hret⟩ := solver_fix L hs hsol hp hn hS0 h0
  have hsp := tyler_spans hN X hn hX
  have hI := count_indecomposable X hX
  obtain ⟨v, hv⟩ := ngReal_of_solve L hret name
  obtain ⟨R, hR, hRpd⟩ := C31_posDef name hp S hS
  refine ⟨R, v, by rw [hv, hR], hRpd, fun init' hi ε hε => ?_⟩
  obtain ⟨R', hR', hlim⟩ := C84_real (L.envR N p) hs X hp hsp hn hI S hS 0
    ((run_one_real_eq (.tyler "None") hs noChi2_ok₅ hp hn rfl hS 0 S).2 hfix) init' hi name hname
  obtain rfl : R = R' := FMat.fin.inj (hR.symm.trans hR')
  exact hlim ε hε

/-- Real data for which the iteration has a fixed point, unique or not: without normalisation the
natural-gradient method returns a fixed point of the fixed-point method. -/
theorem C105_fixed_real (L : Lib) (hs : (L.envR N p).eigh.Ok)
    (init : Option (Matrix (Fin p) (Fin p) ℝ)) (hsol : SolverFinds L p init)
    (X : Matrix (Fin N) (Fin p) ℝ) (hp : 0 < p) (hn : NonzeroSamples X) (tol : ℝ)
    (S0 : Matrix (Fin p) (Fin p) ℝ) (hS0 : S0.PosDef)
    (h0 : Returns (tylerFixedPoint (L.envR N p) X (some S0) tol 1 "None") S0) :
    ∃ (S : Matrix (Fin p) (Fin p) ℝ) (v : CostVal),
      ngReal L X init "None" = .ok (.fin S, v) ∧ S.PosDef ∧
      Returns (tylerFixedPoint (L.envR N p) X (some S) tol 1 "None") S := by
  obtain ⟨S, hS, hfix, hret⟩ := solver_fix L hs hsol hp hn hS0
    ((run_one_real_eq (.tyler "None") hs noChi2_ok₅ hp hn rfl hS0 tol S0).1 h0)
  obtain ⟨v, hv⟩ := ngReal_of_solve L hret "None"
  rw [C30_none "None" (by decide +kernel)] at hv
  exact ⟨S, v, hv, hS, (run_one_real_eq (.tyler "None") hs noChi2_ok₅ hp hn rfl hS tol S).2 hfix⟩

/-- Common part of the positive results for complex data. -/
theorem ngComplex_agrees (L : Lib) (hs : (L.envR N (p + p)).eigh.Ok) (hs' : (L.envC N p).eigh.Ok)
    (init : Option (Matrix (Fin (p + p)) (Fin (p + p)) ℝ)) (hsol : SolverFinds L (p + p) init)
    (X : Matrix (Fin N) (Fin p) ℂ) (hN : 0 < N) (hp : 0 < p) (hn : NonzeroSamples X)
    (hX : FairShares (realForm X))
    (hB : ∀ S : Matrix (Fin (p + p)) (Fin (p + p)) ℝ, S.PosDef →
      mStep (wTyler (p + p)) (realForm X) S = S → IsBlockForm S) (name : String)
    (hname : name = "trace" ∨ name = "determinant" ∨ name = "element") :
    ∃ (R : Matrix (Fin p) (Fin p) ℂ) (v : CostVal),
      ngComplex L X init name = .ok (.fin R, v) ∧ R.PosDef ∧
      RunsTendTo (fun init tol iterMax =>
        complexTylerFixedPoint (L.envC N p) X init tol iterMax name) R := by
  have hn' := realForm_nonzero hn
  have hp' : 0 < p + p := by omega
  obtain ⟨S0, hS0, h0, -⟩ := (tyler_exists_unique_iff (realForm X) hN hp' hn').2 hX
  obtain ⟨S, hS, hfix, hret⟩ := solver_fix L hs hsol hp' hn' hS0 h0
  obtain ⟨M, hM, hMS, hMng⟩ := exists_realify hS (hB S hS hfix)
  have hMfix : mStep (wTyler p) X M = M := fix_of_realForm hM (by rw [hMS]; exact hfix)
  have hsp : Spans X := spans_of_scatter (by
    have : (mStep (wTyler p) X M).PosDef := by rw [hMfix]; exact hM
    exact this)
  have hI := indecomposable_of_realForm (count_indecomposable (realForm X) hX)
  obtain ⟨v, hv⟩ := ngComplex_of_solve L hret name
  rw [hMng] at hv
  obtain ⟨R, hR, hRpd⟩ := C31_posDef name hp M hM
  refine ⟨R, v, by rw [hv, hR], hRpd, fun init' hi ε hε => ?_⟩
  obtain ⟨R', hR', hlim⟩ := C84_complex (L.envC N p) hs' X hp hsp hn hI M hM 0
    ((run_one_complex_eq (.tyler "None") hs' noChi2_ok₅ hp hn rfl hM 0 M).2 hMfix) init' hi name hname
  obtain rfl : R = R' := FMat.fin.inj (hR.symm.trans hR')
  exact hlim ε hε

/-- Complex data whose real form has Tyler estimates of the block form `[[A, -B], [B, A]]`: the two
methods agree. What is missing of C105 are the other complex data sets. -/
theorem C105_complex_partial (L : Lib) (hs : (L.envR N (p + p)).eigh.Ok)
    (hs' : (L.envC N p).eigh.Ok)
    (init : Option (Matrix (Fin (p + p)) (Fin (p + p)) ℝ)) (hsol : SolverFinds L (p + p) init)
    (X : Matrix (Fin N) (Fin p) ℂ) (hN : 0 < N) (hp : 0 < p) (hn : NonzeroSamples X)
    (hX : FairShares (realForm X)) (tol : ℝ)
    (hB : ∀ S : Matrix (Fin (p + p)) (Fin (p + p)) ℝ, S.PosDef →
      Returns (tylerFixedPoint (L.envR N (p + p)) (realForm X) (some S) tol 1 "None") S →
      IsBlockForm S) (name : String)
    (hname : name = "trace" ∨ name = "determinant" ∨ name = "element") :
    ∃ (R : Matrix (Fin p) (Fin p) ℂ) (v : CostVal),
      ngComplex L X init name = .ok (.fin R, v) ∧ R.PosDef ∧
      RunsTendTo (fun init tol iterMax =>
        complexTylerFixedPoint (L.envC N p) X init tol iterMax name) R :=
  ngComplex_agrees L hs hs' init hsol X hN hp hn hX (fun S hS h => hB S hS
    ((run_one_real_eq (.tyler "None") hs noChi2_ok₅ (by omega) (realForm_nonzero hn) rfl hS tol
      S).2 h)) name hname

/-- Circular complex data: if multiplying the samples by `i` only permutes them, the two methods
agree. -/
theorem C105_circular_partial (L : Lib) (hs : (L.envR N (p + p)).eigh.Ok)
    (hs' : (L.envC N p).eigh.Ok)
    (init : Option (Matrix (Fin (p + p)) (Fin (p + p)) ℝ)) (hsol : SolverFinds L (p + p) init)
    (X : Matrix (Fin N) (Fin p) ℂ) (hN : 0 < N) (hp : 0 < p) (hn : NonzeroSamples X)
    (hX : FairShares (realForm X)) (π : Equiv.Perm (Fin N))
    (hπ : ∀ i j, X (π i) j = Complex.I * X i j) (name : String)
    (hname : name = "trace" ∨ name = "determinant" ∨ name = "element") :
    ∃ (R : Matrix (Fin p) (Fin p) ℂ) (v : CostVal),
      ngComplex L X init name = .ok (.fin R, v) ∧ R.PosDef ∧
      RunsTendTo (fun init tol iterMax =>
        complexTylerFixedPoint (L.envC N p) X init tol iterMax name) R :=
  ngComplex_agrees L hs hs' init hsol X hN hp hn hX (fun _ hS h => circular_blockForm hp hn
    (count_indecomposable (realForm X) hX) π hπ hS h) name hname

/-! ### The witness -/

/-- Eight complex samples `(1 ± 2i, ±1 ± i)`. -/
noncomputable def eight : Matrix (Fin 8) (Fin 2) ℂ :=
  !![⟨1, 2⟩, ⟨1, 1⟩; ⟨1, 2⟩, ⟨1, -1⟩; ⟨1, 2⟩, ⟨-1, 1⟩; ⟨1, 2⟩, ⟨-1, -1⟩;
     ⟨1, -2⟩, ⟨1, 1⟩; ⟨1, -2⟩, ⟨1, -1⟩; ⟨1, -2⟩, ⟨-1, 1⟩; ⟨1, -2⟩, ⟨-1, -1⟩]

theorem eight_real : realForm eight = !![1, 1, 2, 1; 1, 1, 2, -1; 1, -1, 2, 1; 1, -1, 2, -1;
    1, 1, -2, 1; 1, 1, -2, -1; 1, -1, -2, 1; 1, -1, -2, -1] := by
  ext i j
  fin_cases i <;> fin_cases j <;> rfl

theorem eight_nonzero : NonzeroSamples eight := fun i h => by
  have := congrArg Complex.re (congrFun h 0)
  fin_cases i <;> simp [sample, eight] at this

theorem eight_indecomposable : Indecomposable (realForm eight) := by
  intro P _ hP
  have hc : ∀ i, ∃ c : ℝ, (c = 0 ∨ c = 1) ∧ ∀ a, (P *ᵥ sample (realForm eight) i) a =
      c * realForm eight i a := fun i => by
    rcases hP i with h | h
    · exact ⟨1, .inr rfl, fun a => by rw [h, one_mul]; rfl⟩
    · exact ⟨0, .inl rfl, fun a => by rw [h, zero_mul]; rfl⟩
  choose c hc01 hc using hc
  rw [eight_real] at hc
  have h0 := hc 0
  have h1 := hc 1
  have h2 := hc 2
  have h3 := hc 3
  have h4 := hc 4
  have h5 := hc 5
  have h6 := hc 6
  have h7 := hc 7
  simp only [Nat.reduceAdd, Fin.forall_fin_succ, mulVec, dotProduct, sample, Fin.sum_univ_four] at h0 h1 h2 h3 h4 h5 h6 h7
  simp at h0 h1 h2 h3 h4 h5 h6 h7
  obtain ⟨a0, b0, c0, d0⟩ := h0
  obtain ⟨a1, b1, c1, d1⟩ := h1
  obtain ⟨a2, b2, c2, d2⟩ := h2
  obtain ⟨a3, b3, c3, d3⟩ := h3
  obtain ⟨a4, b4, c4, d4⟩ := h4
  obtain ⟨a5, b5, c5, d5⟩ := h5
  obtain ⟨a6, b6, c6, d6⟩ := h6
  obtain ⟨a7, b7, c7, d7⟩ := h7
  have e1 : c 1 = c 0 := by linarith
  have e2 : c 2 = c 0 := by linarith
  have e3 : c 3 = c 0 := by linarith
  have e4 : c 4 = c 0 := by linarith
  rw [e1] at a1 b1 c1 d1
  rw [e2] at a2 b2 c2 d2
  rw [e4] at a4 b4 c4 d4
  have hPc : P = c 0 • 1 := by
    ext i j
    fin_cases i <;> fin_cases j <;> simp <;> linarith
  rcases hc01 0 with h | h
  · left; rw [hPc, h, zero_smul]
  · right; rw [hPc, h, one_smul]

theorem eight_fix_real : mStep (wTyler (2 + 2)) (realForm eight) (diagonal ![1, 1, 4, 1]) =
    diagonal ![1, 1, 4, 1] := by
  have hq : ∀ i, qf (diagonal ![1, 1, 4, 1] : Matrix (Fin (2 + 2)) (Fin (2 + 2)) ℝ)
      (sample (realForm eight) i) = 4 := fun i => by
    have := qf_diagonal (𝕜 := ℝ) (![1, 1, 4, 1] : Fin (2 + 2) → ℝ)
      (fun j => by fin_cases j <;> norm_num) (sample (realForm eight) i)
    refine Eq.trans this ?_
    rw [eight_real]
    simp only [Nat.reduceAdd, Fin.sum_univ_four]
    fin_cases i <;> simp [sample] <;> norm_num
  ext a b
  unfold mStep
  rw [scatter_apply]
  simp only [hq, wTyler]
  rw [eight_real]
  simp only [Fin.sum_univ_eight]
  fin_cases a <;> fin_cases b <;> simp <;> norm_num

theorem eight_fix : mStep (wTyler 2) eight (diagonal ![5, 2]) = diagonal ![5, 2] := by
  have hq : ∀ i, qf (diagonal ![5, 2] : Matrix (Fin 2) (Fin 2) ℂ) (sample eight i) = 2 := fun i => by
    have := qf_diagonal (𝕜 := ℂ) (![5, 2] : Fin 2 → ℝ)
      (fun j => by fin_cases j <;> norm_num) (sample eight i)
    have e : (fun j => ((![5, 2] : Fin 2 → ℝ) j : ℂ)) = ![5, 2] := by
      funext j; fin_cases j <;> simp
    refine Eq.trans (by rw [← e]; rfl) (this.trans ?_)
    simp only [Fin.sum_univ_two, ← Complex.normSq_eq_norm_sq]
    fin_cases i <;> simp [sample, eight, Complex.normSq_apply] <;> norm_num
  ext a b
  unfold mStep
  rw [scatter_apply]
  simp only [hq, wTyler, Fin.sum_univ_eight]
  fin_cases a <;> fin_cases b <;> simp [eight] <;> apply Complex.ext <;> simp <;> norm_num

theorem fairShares_of_fix {𝕜 : Type} [RCLike 𝕜] {X : Matrix (Fin N) (Fin p) 𝕜} (hN : 0 < N)
    (hp : 0 < p) (hn : NonzeroSamples X) (hI : Indecomposable X) {S : Matrix (Fin p) (Fin p) 𝕜}
    (hS : S.PosDef) (h : mStep (wTyler p) X S = S) : FairShares X :=
  (tyler_exists_unique_iff X hN hp hn).1 ⟨S, hS, h, fun S' hS' h' =>
    tyler_unique hp X hn hI S S' hS hS' h (tyler_fix_minimises hn hS' h' S hS)⟩

/-- C105 is false for complex data: for the eight samples `(1 ± 2i, ±1 ± i)` both methods have a
unique answer, and the answers differ whatever the normalisation. The natural-gradient method
weighs the two features equally, the fixed-point method as 5 to 2. -/
theorem C105_violated : ∃ X : Matrix (Fin 8) (Fin 2) ℂ, NonzeroSamples X ∧ FairShares X ∧
    FairShares (realForm X) ∧
    ∀ (L : Lib) (_ : (L.envR 8 (2 + 2)).eigh.Ok) (_ : (L.envC 8 2).eigh.Ok)
      (init : Option (Matrix (Fin (2 + 2)) (Fin (2 + 2)) ℝ)) (_ : SolverFinds L (2 + 2) init)
      (name : String) (_ : name = "trace" ∨ name = "determinant" ∨ name = "element"),
      ∃ (R R' : Matrix (Fin 2) (Fin 2) ℂ) (v : CostVal),
        ngComplex L X init name = .ok (.fin R, v) ∧
        RunsTendTo (fun init tol iterMax =>
          complexTylerFixedPoint (L.envC 8 2) X init tol iterMax name) R' ∧ R ≠ R' := by
  have hD : (diagonal ![1, 1, 4, 1] : Matrix (Fin (2 + 2)) (Fin (2 + 2)) ℝ).PosDef := by
    rw [posDef_diagonal_iff]; intro i; fin_cases i <;> norm_num
  have hD' : (diagonal ![5, 2] : Matrix (Fin 2) (Fin 2) ℂ).PosDef := by
    rw [posDef_diagonal_iff]; intro i; fin_cases i <;> norm_num
  have hn := eight_nonzero
  have hn' := realForm_nonzero hn
  have hI := indecomposable_of_realForm eight_indecomposable
  refine ⟨eight, hn, fairShares_of_fix (by norm_num) two_pos hn hI hD' eight_fix,
    fairShares_of_fix (by norm_num) (by norm_num) hn' eight_indecomposable hD eight_fix_real, ?_⟩
  intro L hs hs' init hsol name hname
  obtain ⟨S, hS, hfix, hret⟩ := solver_fix L hs hsol (by norm_num) hn' hD eight_fix_real
  obtain ⟨c, hc, hcS⟩ := tyler_unique (by norm_num) (realForm eight) hn' eight_indecomposable _ S hD
    hS eight_fix_real (tyler_fix_minimises hn' hS hfix _ hD)
  obtain ⟨v, hv⟩ := ngComplex_of_solve L hret name
  have hng : ngToComplex S = ((2 * c : ℝ) : ℂ) • 1 := by
    ext i j
    rw [ngToComplex_apply, hcS]
    fin_cases i <;> fin_cases j <;> apply Complex.ext <;> simp [diagonal] <;> ring
  have hsf : FMat.normalise name (.fin (((2 * c : ℝ) : ℂ) • (1 : Matrix (Fin 2) (Fin 2) ℂ))) = _ :=
    C31_scale_free name hname two_pos 1 PosDef.one (2 * c) (by positivity)
  rw [hng, hsf] at hv
  obtain ⟨r, hr, -, h1⟩ := normalise_pos name two_pos (PosDef.one (R := ℂ) (n := Fin 2))
  obtain ⟨r', hr', -, h2⟩ := normalise_pos name two_pos hD'
  have hsp : Spans eight := spans_of_scatter (by
    have : (mStep (wTyler 2) eight (diagonal ![5, 2])).PosDef := by rw [eight_fix]; exact hD'
    exact this)
  refine ⟨_, ((r'⁻¹ : ℝ) : ℂ) • diagonal ![5, 2], v, by rw [hv, h1], fun init' hi ε hε => ?_, ?_⟩
  rotate_left
  · intro h
    have e0 := congrArg Complex.re (congrFun (congrFun h 0) 0)
    have e1 := congrArg Complex.re (congrFun (congrFun h 1) 1)
    simp [diagonal] at e0 e1
    have : 0 < r'⁻¹ := inv_pos.2 hr'
    linarith
  · obtain ⟨R', hR', hlim⟩ := C84_complex (L.envC 8 2) hs' eight two_pos hsp hn hI _ hD' 0
      ((run_one_complex_eq (.tyler "None") hs' noChi2_ok₅ two_pos hn rfl hD' 0 _).2 eight_fix)
      init' hi name hname
    rw [h2] at hR'
    obtain rfl := FMat.fin.inj hR'
    exact hlim ε hε

/-! ### The hypotheses are met -/

open Classical in
/-- A library whose solver meets its contract. -/
noncomputable def idealLib (L0 : Lib) : Lib :=
  { L0 with solve := fun p cost _ =>
      if h : ∃ S : Matrix (Fin p) (Fin p) ℝ, Minimises cost S then .ok (.fin h.choose)
      else .error .valueError }

theorem idealLib_finds (L0 : Lib) (init : Option (Matrix (Fin p) (Fin p) ℝ)) :
    SolverFinds (idealLib L0) p init := fun cost h => by
  refine ⟨h.choose, h.choose_spec, ?_⟩
  simp only [idealLib]
  rw [dif_pos h]

/-- `C105_real` and `C105_fixed_real` apply to three directions at equal angles. -/
example (L0 : Lib) (hs : (L0.envR 3 2).eigh.Ok) :
    ∃ (R : Matrix (Fin 2) (Fin 2) ℝ) (v : CostVal),
      ngReal (idealLib L0) (mercedes ℝ) none "trace" = .ok (.fin R, v) ∧ R.PosDef ∧
      RunsTendTo (fun init tol iterMax =>
        tylerFixedPoint (L0.envR 3 2) (mercedes ℝ) init tol iterMax "trace") R :=
  C105_real (idealLib L0) hs none (idealLib_finds L0 none) (mercedes ℝ) (by norm_num) two_pos
    (mercedes_nonzero ℝ) (fairShares_of_fix (by norm_num) two_pos (mercedes_nonzero ℝ)
      mercedes_indecomposable PosDef.one (mercedes_fix ℝ)) "trace" (.inl rfl)

/-- Eight complex numbers that multiplication by `i` permutes. -/
noncomputable def wheel : Matrix (Fin 8) (Fin 1) ℂ :=
  !![⟨1, 0⟩; ⟨0, 1⟩; ⟨-1, 0⟩; ⟨0, -1⟩; ⟨1, 1⟩; ⟨-1, 1⟩; ⟨-1, -1⟩; ⟨1, -1⟩]

theorem wheel_real : realForm wheel = !![1, 0; 0, 1; -1, 0; 0, -1; 1, 1; -1, 1; -1, -1; 1, -1] := by
  ext i j
  fin_cases i <;> fin_cases j <;> rfl

theorem wheel_nonzero : NonzeroSamples wheel := fun i h => by
  have h1 := congrArg Complex.re (congrFun h 0)
  have h2 := congrArg Complex.im (congrFun h 0)
  fin_cases i <;> simp [sample, wheel] at h1 h2

theorem wheel_indecomposable : Indecomposable (realForm wheel) := by
  intro P _ hP
  have hc : ∀ i, ∃ c : ℝ, (c = 0 ∨ c = 1) ∧ ∀ a, (P *ᵥ sample (realForm wheel) i) a =
      c * realForm wheel i a := fun i => by
    rcases hP i with h | h
    · exact ⟨1, .inr rfl, fun a => by rw [h, one_mul]; rfl⟩
    · exact ⟨0, .inl rfl, fun a => by rw [h, zero_mul]; rfl⟩
  choose c hc01 hc using hc
  rw [wheel_real] at hc
  have h0 := hc 0
  have h1 := hc 1
  have h4 := hc 4
  simp only [Nat.reduceAdd, Fin.forall_fin_two, mulVec, dotProduct, sample, Fin.sum_univ_two]
    at h0 h1 h4
  simp at h0 h1 h4
  obtain ⟨a0, b0⟩ := h0
  obtain ⟨a1, b1⟩ := h1
  obtain ⟨a4, b4⟩ := h4
  have e1 : c 1 = c 0 := by linarith
  have hPc : P = c 0 • 1 := by
    ext i j
    fin_cases i <;> fin_cases j <;> simp <;> linarith
  rcases hc01 0 with h | h
  · left; rw [hPc, h, zero_smul]
  · right; rw [hPc, h, one_smul]

theorem wheel_fix : mStep (wTyler (1 + 1)) (realForm wheel) 1 = 1 := by
  have hq : ∀ i, qf (1 : Matrix (Fin (1 + 1)) (Fin (1 + 1)) ℝ) (sample (realForm wheel) i) =
      ![1, 1, 1, 1, 2, 2, 2, 2] i := fun i => by
    rw [qf_one, wheel_real]
    simp only [Nat.reduceAdd, Fin.sum_univ_two]
    fin_cases i <;> simp [sample] <;> norm_num
  ext a b
  unfold mStep
  rw [scatter_apply]
  simp only [hq, wTyler]
  rw [wheel_real]
  simp only [Fin.sum_univ_eight]
  fin_cases a <;> fin_cases b <;> simp <;> norm_num

/-- `C105_circular_partial` applies to the wheel. -/
example (L0 : Lib) (hs : (L0.envR 8 (1 + 1)).eigh.Ok) (hs' : (L0.envC 8 1).eigh.Ok) :
    ∃ (R : Matrix (Fin 1) (Fin 1) ℂ) (v : CostVal),
      ngComplex (idealLib L0) wheel none "trace" = .ok (.fin R, v) ∧ R.PosDef ∧
      RunsTendTo (fun init tol iterMax =>
        complexTylerFixedPoint (L0.envC 8 1) wheel init tol iterMax "trace") R := by
  let π : Equiv.Perm (Fin 8) := ⟨![1, 2, 3, 0, 5, 6, 7, 4], ![3, 0, 1, 2, 7, 4, 5, 6],
    fun i => by fin_cases i <;> rfl, fun i => by fin_cases i <;> rfl⟩
  refine C105_circular_partial (idealLib L0) hs hs' none (idealLib_finds L0 none) wheel
    (by norm_num) one_pos wheel_nonzero (fairShares_of_fix (by norm_num) (by norm_num)
      (realForm_nonzero wheel_nonzero) wheel_indecomposable PosDef.one wheel_fix) π ?_ "trace"
    (.inl rfl)
  intro i j
  fin_cases i <;> fin_cases j <;> apply Complex.ext <;> simp [π, wheel]

end
end RS
