import Verif.Lemmas.DataCont
import Verif.Props.Rate

/-
The Tyler and Student-t estimates depend continuously on the data (C144).
-/
set_option autoImplicit false

namespace RS
open Matrix ComplexOrder Filter Topology

section
variable {N p : ℕ}

/-! ## Specification -/

/-- `S` is the estimate that `call` computes from `X`: from every starting point, a call with a small
enough tolerance and a large enough `iter_max` stops by itself, without warning, as close to `S` as
wanted. -/
def EstimateOf {𝕜 : Type} [RCLike 𝕜]
    (call : Matrix (Fin N) (Fin p) 𝕜 → Option (Matrix (Fin p) (Fin p) 𝕜) → ℝ → ℤ → Py (FPOut p 𝕜))
    (X : Matrix (Fin N) (Fin p) 𝕜) (S : Matrix (Fin p) (Fin p) 𝕜) : Prop :=
  ∀ init : Option (Matrix (Fin p) (Fin p) 𝕜), (∀ A ∈ init, A.PosDef) →
    ∀ η : ℝ, 0 < η → ∃ t : ℝ, 0 < t ∧ ∀ tol : ℝ, 0 < tol → tol ≤ t → ∃ n : ℕ, ∀ iterMax : ℤ,
      n < iterMax → ∃ result d iteration,
        call X init tol iterMax = .ok ⟨.fin result, .fin d, iteration, false⟩ ∧ d ≤ tol ∧
        frobDist result S < η

/-- The estimate exists at `X`, exists for all data close enough to `X` (entry by entry), and tends
to the estimate at `X` as the data do. -/
def WellPosedAt {𝕜 : Type} [RCLike 𝕜]
    (call : Matrix (Fin N) (Fin p) 𝕜 → Option (Matrix (Fin p) (Fin p) 𝕜) → ℝ → ℤ → Py (FPOut p 𝕜))
    (X : Matrix (Fin N) (Fin p) 𝕜) : Prop :=
  ∃ S, EstimateOf call X S ∧ ∀ ε : ℝ, 0 < ε → ∃ δ : ℝ, 0 < δ ∧ ∀ Y : Matrix (Fin N) (Fin p) 𝕜,
    (∀ i j, ‖Y i j - X i j‖ < δ) → ∃ T, EstimateOf call Y T ∧ frobDist T S < ε

/-- The estimate is determined by the calls. -/
theorem EstimateOf.unique {𝕜 : Type} [RCLike 𝕜]
    {call : Matrix (Fin N) (Fin p) 𝕜 → Option (Matrix (Fin p) (Fin p) 𝕜) → ℝ → ℤ → Py (FPOut p 𝕜)}
    {X : Matrix (Fin N) (Fin p) 𝕜} {S T : Matrix (Fin p) (Fin p) 𝕜} (hS : EstimateOf call X S)
    (hT : EstimateOf call X T) : S = T := by
  have key : ∀ η : ℝ, 0 < η → frob (S - T) ≤ 2 * η := by
    intro η hη
    obtain ⟨t, ht, h1⟩ := hS none (by simp) η hη
    obtain ⟨t', ht', h2⟩ := hT none (by simp) η hη
    obtain ⟨n, h3⟩ := h1 (min t t') (lt_min ht ht') (min_le_left _ _)
    obtain ⟨n', h4⟩ := h2 (min t t') (lt_min ht ht') (min_le_right _ _)
    obtain ⟨A, d, k, a1, -, a2⟩ := h3 (n + n' + 1) (by omega)
    obtain ⟨B, d', k', b1, -, b2⟩ := h4 (n + n' + 1) (by omega)
    have e := a1.symm.trans b1
    simp only [Except.ok.injEq, FPOut.mk.injEq, FMat.fin.injEq] at e
    obtain ⟨rfl, -⟩ := e
    rw [frobDist_eq, frob_sub_comm] at a2
    rw [frobDist_eq] at b2
    have h5 : frob (S - T) ≤ frob (S - A) + frob (A - T) := by
      have := frob_add_le (S - A) (A - T)
      rwa [sub_add_sub_cancel] at this
    linarith
  have h0 : frob (S - T) ≤ 0 := le_of_forall_pos_le_add fun η hη => by
    have := key (η / 2) (by linarith)
    linarith
  exact sub_eq_zero.1 ((frob_eq_zero _).1 (le_antisymm h0 (frob_nonneg _)))

/-! ## From the rate of the calls -/

private def noChi2w : Chi2 := ⟨fun q _ => q, fun _ _ => 0⟩
private theorem noChi2w_ok : noChi2w.Ok :=
  ⟨fun _ => rfl, fun _ _ h _ _ => h, fun _ _ => le_rfl⟩

theorem estimateOf_calls {𝕜 : Type} [RCLike 𝕜] {call : ℝ → ℤ → Py (FPOut p 𝕜)}
    {S : Matrix (Fin p) (Fin p) 𝕜} (h1 : LogCalls call) (h2 : AccurateCalls call S) {η : ℝ}
    (hη : 0 < η) :
    ∃ t : ℝ, 0 < t ∧ ∀ tol : ℝ, 0 < tol → tol ≤ t → ∃ n : ℕ, ∀ iterMax : ℤ,
      n < iterMax → ∃ result d iteration,
        call tol iterMax = .ok ⟨.fin result, .fin d, iteration, false⟩ ∧ d ≤ tol ∧
        frobDist result S < η := by
  obtain ⟨K, hK⟩ := h1
  obtain ⟨C, hC, h2⟩ := h2
  have hC1 : 0 < C + 1 := by linarith
  refine ⟨min 1 (η / (C + 1)), lt_min one_pos (div_pos hη hC1), fun tol h0 ht => ?_⟩
  obtain ⟨n, hn⟩ := exists_nat_gt (K * (1 + Real.log (1 / tol)))
  refine ⟨n, fun iterMax hm => ?_⟩
  have hm' : (n : ℝ) < (iterMax : ℝ) := by exact_mod_cast hm
  obtain ⟨result, d, iteration, a1, a2, -⟩ := hK tol iterMax h0 (ht.trans (min_le_left _ _))
    (hn.trans hm')
  obtain ⟨result', d', iteration', w', b1, b2⟩ := h2 tol iterMax (by omega)
  have e := a1.symm.trans b1
  simp only [Except.ok.injEq, FPOut.mk.injEq, FMat.fin.injEq, Delta.fin.injEq] at e
  obtain ⟨rfl, rfl, -, -⟩ := e
  refine ⟨result, d, iteration, a1, a2, b2.trans_lt ?_⟩
  have h3 : tol * (C + 1) ≤ η := (le_div_iff₀ hC1).1 (ht.trans (min_le_right _ _))
  calc C * d ≤ C * tol := mul_le_mul_of_nonneg_left a2 hC
    _ < tol * (C + 1) := by linarith
    _ ≤ η := h3

/-! ## C144 -/

theorem estimateOf_student_real (env : NumEnv N p ℝ) (hs : env.eigh.Ok) (X : Matrix (Fin N) (Fin p) ℝ)
    (hp : 0 < p) (df : ℝ) (hdf : 0 < df) (hsp : Spans X) {S : Matrix (Fin p) (Fin p) ℝ}
    (hS : S.PosDef) (hfix : mStep (wStudent (df / 2) p) X S = S) :
    EstimateOf (fun X init tol iterMax => studentFixedPoint env X df init tol iterMax) X S := by
  intro init hi η hη
  obtain ⟨⟨-, h1⟩, h2⟩ := student_calls hp (half_pos hdf) hsp hS hfix (getD_posDef hsp hi)
    (fun tol iterMax => studentFixedPoint env X df init tol iterMax) fun tol iterMax => by
      obtain ⟨sigma, result, delta, iteration, h1, h2, h3, -⟩ :=
        C34_real (.student df) env hs noChi2w noChi2w_ok X hp hsp hdf init hi tol iterMax
      exact ⟨sigma, result, delta, iteration, h1, h2, h3⟩
  exact estimateOf_calls h1 h2 hη

/-- The Student-t estimator on real data that have an estimate (the condition of `C102_real`). -/
theorem C144_student_real (env : NumEnv N p ℝ) (hs : env.eigh.Ok) (X : Matrix (Fin N) (Fin p) ℝ)
    (hp : 0 < p) (df : ℝ) (hdf : 0 < df)
    (H : ∀ V : Submodule ℝ (Fin p → ℝ), V ≠ ⊤ →
      (df / 2 + p) * samplesIn X V < N * (df / 2 + Module.finrank ℝ V)) :
    WellPosedAt (fun X init tol iterMax => studentFixedPoint env X df init tol iterMax) X := by
  obtain ⟨S, hS, hfix⟩ := student_exists (half_pos hdf) hp X H
  refine ⟨S, estimateOf_student_real env hs X hp df hdf (student_spans X H) hS hfix, fun ε hε => ?_⟩
  obtain ⟨δ, hδ, h⟩ := student_well_posed (half_pos hdf) hp H hS hfix hε
  refine ⟨δ, hδ, fun Y hY => ?_⟩
  obtain ⟨H', Q, hQ, hQf, hd⟩ := h Y hY
  exact ⟨Q, estimateOf_student_real env hs Y hp df hdf (student_spans Y H') hQ hQf, hd⟩

theorem estimateOf_student_complex (env : NumEnv N p ℂ) (hs : env.eigh.Ok) (X : Matrix (Fin N) (Fin p) ℂ)
    (hp : 0 < p) (df : ℝ) (hdf : 0 < df) (hsp : Spans X) {S : Matrix (Fin p) (Fin p) ℂ}
    (hS : S.PosDef) (hfix : mStep (wStudent (df) p) X S = S) :
    EstimateOf (fun X init tol iterMax => complexStudentFixedPoint env X df init tol iterMax) X S := by
  intro init hi η hη
  obtain ⟨⟨-, h1⟩, h2⟩ := student_calls hp hdf hsp hS hfix (getD_posDef hsp hi)
    (fun tol iterMax => complexStudentFixedPoint env X df init tol iterMax) fun tol iterMax => by
      obtain ⟨sigma, result, delta, iteration, h1, h2, h3, -⟩ :=
        C34_complex (.student df) env hs noChi2w noChi2w_ok X hp hsp hdf init hi tol iterMax
      exact ⟨sigma, result, delta, iteration, h1, h2, h3⟩
  exact estimateOf_calls h1 h2 hη

/-- Complex data (the condition of `C102_complex`). -/
theorem C144_student_complex (env : NumEnv N p ℂ) (hs : env.eigh.Ok) (X : Matrix (Fin N) (Fin p) ℂ)
    (hp : 0 < p) (df : ℝ) (hdf : 0 < df)
    (H : ∀ V : Submodule ℂ (Fin p → ℂ), V ≠ ⊤ →
      (df + p) * samplesIn X V < N * (df + Module.finrank ℂ V)) :
    WellPosedAt (fun X init tol iterMax => complexStudentFixedPoint env X df init tol iterMax) X := by
  obtain ⟨S, hS, hfix⟩ := student_exists hdf hp X H
  refine ⟨S, estimateOf_student_complex env hs X hp df hdf (student_spans X H) hS hfix, fun ε hε => ?_⟩
  obtain ⟨δ, hδ, h⟩ := student_well_posed hdf hp H hS hfix hε
  refine ⟨δ, hδ, fun Y hY => ?_⟩
  obtain ⟨H', Q, hQ, hQf, hd⟩ := h Y hY
  exact ⟨Q, estimateOf_student_complex env hs Y hp df hdf (student_spans Y H') hQ hQf, hd⟩

theorem estimateOf_tyler_real (env : NumEnv N p ℝ) (hs : env.eigh.Ok) (X : Matrix (Fin N) (Fin p) ℝ)
    (hN : 0 < N) (hp : 0 < p) (hn : NonzeroSamples X)
    (H : ∀ V : Submodule ℝ (Fin p → ℝ), V ≠ ⊥ → V ≠ ⊤ →
      p * samplesIn X V < N * Module.finrank ℝ V) (name : String)
    (hname : name = "trace" ∨ name = "determinant" ∨ name = "element")
    {S S' : Matrix (Fin p) (Fin p) ℝ} (hS : S.PosDef) (hfix : mStep (wTyler p) X S = S)
    (hS' : FMat.normalise name (.fin S) = .fin S') :
    EstimateOf (fun X init tol iterMax => tylerFixedPoint env X init tol iterMax name) X S' := by
  intro init hi η hη
  have hsp := tyler_spans hN X hn H
  obtain ⟨c, hc, hcalls⟩ := tyler_calls hN hp hn H hS hfix (getD_posDef hsp hi)
  obtain ⟨⟨-, h1⟩, h2⟩ := hcalls name S' ((C31_scale_free name hname hp S hS c hc).trans hS')
    (fun tol iterMax => tylerFixedPoint env X init tol iterMax name) fun tol iterMax => by
      obtain ⟨sigma, result, delta, iteration, h1, h2, h3, -⟩ :=
        C34_real (.tyler name) env hs noChi2w noChi2w_ok X hp hsp hn init hi tol iterMax
      exact ⟨sigma, result, delta, iteration, h1, h2, h3⟩
  exact estimateOf_calls h1 h2 hη

/-- Tyler's estimator with one of the three normalisations, on real data whose estimate is unique up to a
factor (the condition of `C101_real`). -/
theorem C144_tyler_real (env : NumEnv N p ℝ) (hs : env.eigh.Ok) (X : Matrix (Fin N) (Fin p) ℝ)
    (hN : 0 < N) (hp : 0 < p) (hn : NonzeroSamples X)
    (H : ∀ V : Submodule ℝ (Fin p → ℝ), V ≠ ⊥ → V ≠ ⊤ →
      p * samplesIn X V < N * Module.finrank ℝ V) (name : String)
    (hname : name = "trace" ∨ name = "determinant" ∨ name = "element") :
    WellPosedAt (fun X init tol iterMax => tylerFixedPoint env X init tol iterMax name) X := by
  obtain ⟨S, hS, hfix⟩ := tyler_exists hp hN X hn H
  obtain ⟨S', hS', -⟩ := C31_posDef name hp S hS
  refine ⟨S', estimateOf_tyler_real env hs X hN hp hn H name hname hS hfix hS', fun ε hε => ?_⟩
  obtain ⟨e, D, he, hlip⟩ := normalise_lip name hp hS hS'
  have hD1 : 0 < |D| + 1 := by positivity
  obtain ⟨δ, hδ, h⟩ := tyler_well_posed hN hp hn H hS hfix (lt_min he (div_pos hε hD1))
  refine ⟨δ, hδ, fun Y hY => ?_⟩
  obtain ⟨hnY, H', Q, c, hQ, hQf, hc, hd⟩ := h Y hY
  have hcQ : ((c : ℝ) • Q).PosDef := hQ.smul (by simpa using hc)
  obtain ⟨T, hT, -⟩ := C31_posDef name hp _ hcQ
  refine ⟨T, estimateOf_tyler_real env hs Y hN hp hnY H' name hname hQ hQf
    ((C31_scale_free name hname hp Q hQ c hc).symm.trans hT), ?_⟩
  have h1 := hlip _ T hcQ hT (hd.trans_le (min_le_left _ _)).le
  have h2 := hd.trans_le (min_le_right _ _)
  rw [frobDist_eq]
  calc frob (T - S') ≤ D * frob ((c : ℝ) • Q - S) := h1
    _ ≤ |D| * frob ((c : ℝ) • Q - S) :=
      mul_le_mul_of_nonneg_right (le_abs_self D) (frob_nonneg _)
    _ ≤ (|D| + 1) * frob ((c : ℝ) • Q - S) :=
      mul_le_mul_of_nonneg_right (by linarith) (frob_nonneg _)
    _ < ε := by rw [mul_comm]; exact (lt_div_iff₀ hD1).1 h2

theorem estimateOf_tyler_complex (env : NumEnv N p ℂ) (hs : env.eigh.Ok) (X : Matrix (Fin N) (Fin p) ℂ)
    (hN : 0 < N) (hp : 0 < p) (hn : NonzeroSamples X)
    (H : ∀ V : Submodule ℂ (Fin p → ℂ), V ≠ ⊥ → V ≠ ⊤ →
      p * samplesIn X V < N * Module.finrank ℂ V) (name : String)
    (hname : name = "trace" ∨ name = "determinant" ∨ name = "element")
    {S S' : Matrix (Fin p) (Fin p) ℂ} (hS : S.PosDef) (hfix : mStep (wTyler p) X S = S)
    (hS' : FMat.normalise name (.fin S) = .fin S') :
    EstimateOf (fun X init tol iterMax => complexTylerFixedPoint env X init tol iterMax name) X S' := by
  intro init hi η hη
  have hsp := tyler_spans hN X hn H
  obtain ⟨c, hc, hcalls⟩ := tyler_calls hN hp hn H hS hfix (getD_posDef hsp hi)
  obtain ⟨⟨-, h1⟩, h2⟩ := hcalls name S' ((C31_scale_free name hname hp S hS c hc).trans hS')
    (fun tol iterMax => complexTylerFixedPoint env X init tol iterMax name) fun tol iterMax => by
      obtain ⟨sigma, result, delta, iteration, h1, h2, h3, -⟩ :=
        C34_complex (.tyler name) env hs noChi2w noChi2w_ok X hp hsp hn init hi tol iterMax
      exact ⟨sigma, result, delta, iteration, h1, h2, h3⟩
  exact estimateOf_calls h1 h2 hη

/-- Complex data (the condition of `C101_complex`). -/
theorem C144_tyler_complex (env : NumEnv N p ℂ) (hs : env.eigh.Ok) (X : Matrix (Fin N) (Fin p) ℂ)
    (hN : 0 < N) (hp : 0 < p) (hn : NonzeroSamples X)
    (H : ∀ V : Submodule ℂ (Fin p → ℂ), V ≠ ⊥ → V ≠ ⊤ →
      p * samplesIn X V < N * Module.finrank ℂ V) (name : String)
    (hname : name = "trace" ∨ name = "determinant" ∨ name = "element") :
    WellPosedAt (fun X init tol iterMax => complexTylerFixedPoint env X init tol iterMax name) X := by
  obtain ⟨S, hS, hfix⟩ := tyler_exists hp hN X hn H
  obtain ⟨S', hS', -⟩ := C31_posDef name hp S hS
  refine ⟨S', estimateOf_tyler_complex env hs X hN hp hn H name hname hS hfix hS', fun ε hε => ?_⟩
  obtain ⟨e, D, he, hlip⟩ := normalise_lip name hp hS hS'
  have hD1 : 0 < |D| + 1 := by positivity
  obtain ⟨δ, hδ, h⟩ := tyler_well_posed hN hp hn H hS hfix (lt_min he (div_pos hε hD1))
  refine ⟨δ, hδ, fun Y hY => ?_⟩
  obtain ⟨hnY, H', Q, c, hQ, hQf, hc, hd⟩ := h Y hY
  have hcQ : ((c : ℂ) • Q).PosDef := hQ.smul (by simpa using hc)
  obtain ⟨T, hT, -⟩ := C31_posDef name hp _ hcQ
  refine ⟨T, estimateOf_tyler_complex env hs Y hN hp hnY H' name hname hQ hQf
    ((C31_scale_free name hname hp Q hQ c hc).symm.trans hT), ?_⟩
  have h1 := hlip _ T hcQ hT (hd.trans_le (min_le_left _ _)).le
  have h2 := hd.trans_le (min_le_right _ _)
  rw [frobDist_eq]
  calc frob (T - S') ≤ D * frob ((c : ℂ) • Q - S) := h1
    _ ≤ |D| * frob ((c : ℂ) • Q - S) :=
      mul_le_mul_of_nonneg_right (le_abs_self D) (frob_nonneg _)
    _ ≤ (|D| + 1) * frob ((c : ℂ) • Q - S) :=
      mul_le_mul_of_nonneg_right (by linarith) (frob_nonneg _)
    _ < ε := by rw [mul_comm]; exact (lt_div_iff₀ hD1).1 h2

/-- The three directions of `mercedes` meet the hypotheses, for Tyler's estimator and for the
Student-t estimator with `df = 3`. -/
example (env : NumEnv 3 2 ℝ) (hs : env.eigh.Ok) :
    WellPosedAt (fun X init tol iterMax => tylerFixedPoint env X init tol iterMax "trace")
      (mercedes ℝ) ∧
    WellPosedAt (fun X init tol iterMax => studentFixedPoint env X 3 init tol iterMax)
      (mercedes ℝ) :=
  ⟨C144_tyler_real env hs _ (by norm_num) two_pos
    (generalPosition_nonzero mercedes_generalPosition two_pos)
    (generalPosition_tyler mercedes_generalPosition (by norm_num)) "trace" (Or.inl rfl),
  C144_student_real env hs _ two_pos 3 (by norm_num)
    (generalPosition_student mercedes_generalPosition (by norm_num) (by norm_num))⟩

end
end RS
