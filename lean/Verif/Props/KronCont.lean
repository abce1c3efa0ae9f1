import Verif.Lemmas.KronCont
import Verif.Props.KronConsist

/-
The Kronecker estimate depends continuously on the data (C153).
-/
set_option autoImplicit false

namespace RS
open Matrix ComplexOrder Filter Topology

/-! ## Specification -/

/-- If `tol` is small and `iter_max` large enough, the call returns matrices which, divided by their
traces, are within `ε` of `A` and `B` divided by theirs, and the same holds for the Kronecker
products. -/
def KronWithin {𝕜 : Type} [RCLike 𝕜] {a b : ℕ} (run : ℝ → ℤ → Py (Option (KronOut a b 𝕜)))
    (A : Matrix (Fin a) (Fin a) 𝕜) (B : Matrix (Fin b) (Fin b) 𝕜) (ε : ℝ) : Prop :=
  ∃ (tol₀ : ℝ) (K : ℕ), 0 < tol₀ ∧
    ∀ (tol : ℝ) (iterMax : ℤ), tol ≤ tol₀ → K ≤ iterMax → ∃ o, run tol iterMax = .ok (some o) ∧
      frobDist (unitTrace o.A) (unitTrace A) < ε ∧ frobDist (unitTrace o.B) (unitTrace B) < ε ∧
      frobDist (unitTrace (kron o.A o.B)) (unitTrace (kron A B)) < ε

/-- For every positive tolerance the call stops by itself, without warning, once `iter_max` is large
enough. -/
def KronStops {𝕜 : Type} [RCLike 𝕜] {a b : ℕ} (run : ℝ → ℤ → Py (Option (KronOut a b 𝕜))) : Prop :=
  ∀ tol : ℝ, 0 < tol → ∃ K : ℕ, ∀ iterMax : ℤ, K < iterMax → ∃ o,
    run tol iterMax = .ok (some o) ∧ o.warned = false ∧ o.iteration ≤ K

section
variable {𝕜 : Type} [RCLike 𝕜] {N a b : ℕ}

/-- From the limit of the calls to their shapes. -/
theorem kronWithin_of_limit {run : ℝ → ℤ → Py (Option (KronOut a b 𝕜))} (ha : 0 < a) (hb : 0 < b)
    {A A' : Matrix (Fin a) (Fin a) 𝕜} {B B' : Matrix (Fin b) (Fin b) 𝕜} (hA' : A'.PosDef)
    (hB' : B'.PosDef) {ε : ℝ}
    (hcalls : ∀ ε : ℝ, 0 < ε → ∃ (tol₀ : ℝ) (K : ℕ), 0 < tol₀ ∧
        ∀ (tol : ℝ) (iterMax : ℤ), tol ≤ tol₀ → K ≤ iterMax → ∃ o,
          run tol iterMax = .ok (some o) ∧ frobDist o.A A' < ε ∧ frobDist o.B B' < ε)
    (e1 : frob (unitTrace A' - unitTrace A) < ε) (e2 : frob (unitTrace B' - unitTrace B) < ε)
    (e3 : frob (unitTrace (kron A' B') - unitTrace (kron A B)) < ε) : KronWithin run A B ε := by
  have hfr : ∀ {n : ℕ} (S : Matrix (Fin n) (Fin n) 𝕜), Continuous fun M : Matrix (Fin n) (Fin n) 𝕜 =>
      frob (M - S) :=
    fun S => by unfold frob; fun_prop
  have cA : ContinuousAt (fun z : Matrix (Fin a) (Fin a) 𝕜 × Matrix (Fin b) (Fin b) 𝕜 =>
      unitTrace z.1) (A', B') :=
    ContinuousAt.comp (g := unitTrace) (f := Prod.fst)
      (unitTrace_continuousAt (trace_ne_zero_of_posDef hA' ha)) continuousAt_fst
  have cB : ContinuousAt (fun z : Matrix (Fin a) (Fin a) 𝕜 × Matrix (Fin b) (Fin b) 𝕜 =>
      unitTrace z.2) (A', B') :=
    ContinuousAt.comp (g := unitTrace) (f := Prod.snd)
      (unitTrace_continuousAt (trace_ne_zero_of_posDef hB' hb)) continuousAt_snd
  have cK : ContinuousAt (fun z : Matrix (Fin a) (Fin a) 𝕜 × Matrix (Fin b) (Fin b) 𝕜 =>
      unitTrace (kron z.1 z.2)) (A', B') := by
    simp only [unitTrace_kron]
    exact tendsto_kron cA cB
  obtain ⟨δ, hδ, hclose⟩ := close_pair (((((hfr (unitTrace A)).continuousAt.comp cA).eventually
    (gt_mem_nhds e1))).and ((((hfr (unitTrace B)).continuousAt.comp cB).eventually
    (gt_mem_nhds e2)).and (((hfr (unitTrace (kron A B))).continuousAt.comp cK).eventually
    (gt_mem_nhds e3))))
  obtain ⟨tol₀, K, h1, h2⟩ := hcalls δ hδ
  refine ⟨tol₀, K, h1, fun tol iterMax htol hK => ?_⟩
  obtain ⟨o, h3, h4, h5⟩ := h2 tol iterMax htol hK
  exact ⟨o, h3, hclose _ _ h4 h5⟩

/-! ## C153 -/

/-- Real or complex samples that are spread out (the condition of `C145_iff`): there are positive
definite `A`, `B` such that the estimates of all data close enough to `X` exist, are reached by the
calls, and have shapes close to those of `A`, `B`. -/
theorem C153_continuous (sq : Sqrtm 𝕜) (hsq : SqrtmPD sq) (X : Matrix (Fin N) (Fin (a * b)) 𝕜)
    (hN : 0 < N) (ha : 0 < a) (hb : 0 < b) (h0 : ∀ i, X i ≠ 0)
    (hS : KronSpread fun i => (unstack (X i) : Matrix (Fin b) (Fin a) 𝕜)) :
    ∃ (A : Matrix (Fin a) (Fin a) 𝕜) (B : Matrix (Fin b) (Fin b) 𝕜), A.PosDef ∧ B.PosDef ∧
      (∀ ε : ℝ, 0 < ε → KronWithin (kroneckerMM sq X a b) A B ε) ∧
      ∀ ε : ℝ, 0 < ε → ∃ δ : ℝ, 0 < δ ∧ ∀ Y : Matrix (Fin N) (Fin (a * b)) 𝕜,
        (∀ i j, ‖Y i j - X i j‖ < δ) →
        KronStops (kroneckerMM sq Y a b) ∧ KronWithin (kroneckerMM sq Y a b) A B ε := by
  obtain ⟨A, B, hfix, -⟩ := C145_converges sq hsq X hN ha hb h0 hS
  have main : ∀ ε : ℝ, 0 < ε → ∃ δ : ℝ, 0 < δ ∧ ∀ Y : Matrix (Fin N) (Fin (a * b)) 𝕜,
        (∀ i j, ‖Y i j - X i j‖ < δ) →
        KronStops (kroneckerMM sq Y a b) ∧ KronWithin (kroneckerMM sq Y a b) A B ε := by
    intro ε hε
    obtain ⟨η, hη, hk⟩ := close_pair (frob_eventually (tendsto_kron
      (continuousAt_fst (p := (unitTrace A, unitTrace B))) continuousAt_snd) hε)
    obtain ⟨δ, hδ, h⟩ := nhds_entries
      (kron_data_near X hN ha hb h0 hS hfix (lt_min hε hη))
    refine ⟨δ, hδ, fun Y hY => ?_⟩
    obtain ⟨n0, nS, hclose⟩ := h Y hY
    obtain ⟨A', B', hf, hcalls, hstop⟩ := C145_converges sq hsq Y hN ha hb n0 nS
    obtain ⟨e1, e2⟩ := hclose A' B' hf
    refine ⟨hstop, kronWithin_of_limit ha hb hf.posA hf.posB hcalls (e1.trans_le (min_le_left _ _))
      (e2.trans_le (min_le_left _ _)) ?_⟩
    rw [unitTrace_kron, unitTrace_kron]
    have f1 : frobDist (unitTrace A') (unitTrace A) < η := by
      rw [frobDist_eq]; exact e1.trans_le (min_le_right _ _)
    have f2 : frobDist (unitTrace B') (unitTrace B) < η := by
      rw [frobDist_eq]; exact e2.trans_le (min_le_right _ _)
    exact hk _ _ f1 f2
  refine ⟨A, B, hfix.posA, hfix.posB, fun ε hε => ?_, main⟩
  obtain ⟨δ, hδ, h⟩ := main ε hε
  exact (h X fun i j => by simpa using hδ).2

/-- `fit` of `KroneckerEllipticalMM` on complex data: the stored covariance, up to its scale, depends
continuously on the data. -/
theorem C153_fit (sq : Sqrtm ℂ) (hsq : SqrtmPD sq) (X : Matrix (Fin N) (Fin (a * b)) ℂ)
    (hN : 0 < N) (ha : 0 < a) (hb : 0 < b) (h0 : ∀ i, X i ≠ 0)
    (hS : KronSpread fun i => (unstack (X i) : Matrix (Fin b) (Fin a) ℂ)) :
    ∃ S : Matrix (Fin (a * b)) (Fin (a * b)) ℂ, S.PosDef ∧
      ∀ ε : ℝ, 0 < ε → ∃ δ : ℝ, 0 < δ ∧ ∀ Y : Matrix (Fin N) (Fin (a * b)) ℂ,
        (∀ i j, ‖Y i j - X i j‖ < δ) → ∃ (tol₀ : ℝ) (K : ℕ), 0 < tol₀ ∧
          ∀ (tol : ℝ) (iterMax : ℤ), tol ≤ tol₀ → K ≤ iterMax → ∃ f C,
            kronMMFit sq ⟨a, b, tol, iterMax⟩ (.cplx (.d2 N (a * b) Y)) = .ok f ∧
            f.covariance = .cplx (.d2 (a * b) (a * b) C) ∧
            frobDist (unitTrace C) (unitTrace S) < ε := by
  have hab : 0 < a * b := Nat.mul_pos ha hb
  obtain ⟨A, B, hA, hB, -, h⟩ := C153_continuous sq hsq X hN ha hb h0 hS
  refine ⟨kron A B, kron_posDef hA hB, fun ε hε => ?_⟩
  obtain ⟨δ, hδ, h1⟩ := h ε hε
  refine ⟨δ, hδ, fun Y hY => ?_⟩
  obtain ⟨-, tol₀, K, h2, h3⟩ := h1 Y hY
  refine ⟨tol₀, K, h2, fun tol iterMax htol hK => ?_⟩
  obtain ⟨o, h4, -, -, h5⟩ := h3 tol iterMax htol hK
  refine ⟨⟨o.A, o.B, .cplx (.d2 (a * b) (a * b) (kron o.A o.B))⟩, kron o.A o.B, ?_, rfl, h5⟩
  simp only [kronMMFit, arraytoreal_check_complex N (a * b) hN hab _, Bind.bind, Except.bind,
    h4, npKron_eq, setCovariance_complex (a * b) hab, pure, Except.pure]

end

/-- The hypotheses can be met in all dimensions, -/
example (a b : ℕ) (ha : 0 < a) (hb : 0 < b) :
    KronSpread fun i => (unstack (powerData ℂ (a * b + 1) (a * b) i) : Matrix (Fin b) (Fin a) ℂ) :=
  C145_general_position _ ha hb (Nat.lt_succ_self _) (powerData_generalPosition ℂ _ _)

/-- and with fewer samples, around which the estimate is continuous too. -/
example (sq : Sqrtm ℝ) (hsq : SqrtmPD sq) :
    ∃ A B : Matrix (Fin 2) (Fin 2) ℝ, A.PosDef ∧ B.PosDef ∧
      (∀ ε : ℝ, 0 < ε → KronWithin (kroneckerMM sq pauliData 2 2) A B ε) ∧
      ∀ ε : ℝ, 0 < ε → ∃ δ : ℝ, 0 < δ ∧ ∀ Y : Matrix (Fin 4) (Fin (2 * 2)) ℝ,
        (∀ i j, ‖Y i j - pauliData i j‖ < δ) →
        KronStops (kroneckerMM sq Y 2 2) ∧ KronWithin (kroneckerMM sq Y 2 2) A B ε := by
  have h0 : ∀ i, pauliData i ≠ 0 := fun i h => pauli_data.1.nonzero i (by
    rw [h]; ext r c; simp [unstack])
  exact C153_continuous sq hsq pauliData (by norm_num) (by norm_num) (by norm_num) h0
    ((C145_iff pauliData (by norm_num) (by norm_num) (by norm_num) h0).1
    ⟨1, 1, pauli_data.2.1, fun A' B' h => C111_unique pauliData pauli_data.1 (by norm_num)
      (by norm_num) pauli_data.2.2 _ _ _ _ pauli_data.2.1 h⟩)

end RS
