import Verif.Lemmas.Affine
import Verif.Props.DataCont
import Verif.Props.HuberFix
import Verif.Props.KronCont

/-
The estimates in other coordinates (C155), and the Kronecker estimate (C156).
-/
set_option autoImplicit false

namespace RS
open Matrix ComplexOrder

section
variable {N p : ℕ}

/-! ## Specification -/

/-- The matrix meets the normalisation: trace `p`, determinant 1, or first entry 1. -/
def IsNormalised {𝕜 : Type} [RCLike 𝕜] (name : String) (S : Matrix (Fin p) (Fin p) 𝕜) : Prop :=
  (name = "trace" ∧ S.trace = p) ∨ (name = "determinant" ∧ S.det = 1) ∨
  (name = "element" ∧ ∀ h : 0 < p, S ⟨0, h⟩ ⟨0, h⟩ = 1)

/-- The samples `d i * T x i`. -/
def moved {𝕜 : Type} [RCLike 𝕜] (d : Fin N → 𝕜) (T : Matrix (Fin p) (Fin p) 𝕜)
    (X : Matrix (Fin N) (Fin p) 𝕜) : Matrix (Fin N) (Fin p) 𝕜 :=
  of fun i j => d i * ∑ k, T j k * X i k

/-! ## C155 -/

/-- The Student-t estimator on real data that have an estimate `S` (the condition of `C102_real`): the
data `X T^T`, whose samples are `T x`, have the estimate `T S T^T`, for every invertible `T`. -/
theorem C155_student_real (env : NumEnv N p ℝ) (hs : env.eigh.Ok) (X : Matrix (Fin N) (Fin p) ℝ)
    (hp : 0 < p) (df : ℝ) (hdf : 0 < df)
    (H : ∀ V : Submodule ℝ (Fin p → ℝ), V ≠ ⊤ →
      (df / 2 + p) * samplesIn X V < N * (df / 2 + Module.finrank ℝ V)) :
    ∃ S : Matrix (Fin p) (Fin p) ℝ, S.PosDef ∧
      EstimateOf (fun X init tol iterMax => studentFixedPoint env X df init tol iterMax) X S ∧
      ∀ T : Matrix (Fin p) (Fin p) ℝ, IsUnit T →
        EstimateOf (fun X init tol iterMax => studentFixedPoint env X df init tol iterMax) (X * Tᵀ)
          (T * S * Tᵀ) := by
  obtain ⟨S, hS, hfix⟩ := student_exists (half_pos hdf) hp X H
  refine ⟨S, hS, estimateOf_student_real env hs X hp df hdf (student_spans X H) hS hfix,
    fun T hT => ?_⟩
  rw [← conjTranspose_eq_transpose_of_trivial T]
  refine estimateOf_student_real env hs _ hp df hdf ?_ (posDef_congr hT hS) ?_
  · simpa using spans_mul X (student_spans X H) T hT
  · have := mStep_equivariant (wStudent (df / 2) p) X T hT S
    rw [hfix] at this
    simpa using this

/-- Complex data: the estimate of the samples `T x` is `T S T^H`. -/
theorem C155_student_complex (env : NumEnv N p ℂ) (hs : env.eigh.Ok) (X : Matrix (Fin N) (Fin p) ℂ)
    (hp : 0 < p) (df : ℝ) (hdf : 0 < df)
    (H : ∀ V : Submodule ℂ (Fin p → ℂ), V ≠ ⊤ →
      (df + p) * samplesIn X V < N * (df + Module.finrank ℂ V)) :
    ∃ S : Matrix (Fin p) (Fin p) ℂ, S.PosDef ∧
      EstimateOf (fun X init tol iterMax => complexStudentFixedPoint env X df init tol iterMax) X S ∧
      ∀ T : Matrix (Fin p) (Fin p) ℂ, IsUnit T →
        EstimateOf (fun X init tol iterMax => complexStudentFixedPoint env X df init tol iterMax)
          (X * Tᵀ) (T * S * Tᴴ) := by
  obtain ⟨S, hS, hfix⟩ := student_exists hdf hp X H
  refine ⟨S, hS, estimateOf_student_complex env hs X hp df hdf (student_spans X H) hS hfix,
    fun T hT => estimateOf_student_complex env hs _ hp df hdf (spans_mul X (student_spans X H) T hT)
      (posDef_congr hT hS) ?_⟩
  have := mStep_equivariant (wStudent df p) X T hT S
  rwa [hfix] at this

theorem normalised_exists {𝕜 : Type} [RCLike 𝕜] (name : String)
    (hname : name = "trace" ∨ name = "determinant" ∨ name = "element") (hp : 0 < p)
    {S : Matrix (Fin p) (Fin p) 𝕜} (hS : S.PosDef) :
    ∃ c : ℝ, 0 < c ∧ FMat.normalise name (.fin S) = .fin ((c : 𝕜) • S) ∧
      IsNormalised name ((c : 𝕜) • S) := by
  rcases hname with rfl | rfl | rfl
  · obtain ⟨c, hc, h1, h2⟩ := C30_trace hp S hS
    exact ⟨c, hc, h1, Or.inl ⟨rfl, h2⟩⟩
  · obtain ⟨c, hc, h1, h2⟩ := C30_determinant hp S hS
    exact ⟨c, hc, h1, Or.inr (Or.inl ⟨rfl, h2⟩)⟩
  · obtain ⟨c, hc, h1, h2⟩ := C30_element hp S hS
    exact ⟨c, hc, h1, Or.inr (Or.inr ⟨rfl, fun _ => h2⟩)⟩

/-- The conditions and the fixed point of Tyler's estimator for the moved samples. -/
theorem tyler_moved {𝕜 : Type} [RCLike 𝕜] (X : Matrix (Fin N) (Fin p) 𝕜) (hn : NonzeroSamples X)
    (H : ∀ V : Submodule 𝕜 (Fin p → 𝕜), V ≠ ⊥ → V ≠ ⊤ →
      p * samplesIn X V < N * Module.finrank 𝕜 V) {S : Matrix (Fin p) (Fin p) 𝕜}
    (hfix : mStep (wTyler p) X S = S) (d : Fin N → 𝕜) (hd : ∀ i, d i ≠ 0)
    (T : Matrix (Fin p) (Fin p) 𝕜) (hT : IsUnit T) :
    NonzeroSamples (moved d T X) ∧
    (∀ V : Submodule 𝕜 (Fin p → 𝕜), V ≠ ⊥ → V ≠ ⊤ →
      p * samplesIn (moved d T X) V < N * Module.finrank 𝕜 V) ∧
    mStep (wTyler p) (moved d T X) (T * S * Tᴴ) = T * S * Tᴴ := by
  have e : moved d T X = of fun i j => d i * (X * Tᵀ) i j := by
    ext i j
    simp [moved, mul_apply, mul_comm]
  have es : ∀ i, sample (moved d T X) i = d i • sample (X * Tᵀ) i := fun i => by rw [e]; rfl
  refine ⟨fun i h => nonzero_mul X hn T hT i ?_, fun V h1 h2 => ?_, ?_⟩
  · rw [es] at h
    exact (smul_eq_zero.1 h).resolve_left (hd i)
  · have : samplesIn (moved d T X) V = samplesIn (X * Tᵀ) V := by
      unfold samplesIn
      simp only [es, Submodule.smul_mem_iff _ (hd _)]
    rw [this]
    exact tyler_condition_mul X H T hT V h1 h2
  · rw [e, mStep_tyler_scale _ d hd, mStep_equivariant _ X T hT, hfix]

/-- Tyler's estimator with one of its normalisations on real data (the condition of `C101_real`):
the estimate of the samples `d i * T x i` is the normalised `T S T^T`, `S` being the estimate of the
samples `x i`, for every invertible `T` and all nonzero `d i`. -/
theorem C155_tyler_real (env : NumEnv N p ℝ) (hs : env.eigh.Ok) (X : Matrix (Fin N) (Fin p) ℝ)
    (hN : 0 < N) (hp : 0 < p) (hn : NonzeroSamples X)
    (H : ∀ V : Submodule ℝ (Fin p → ℝ), V ≠ ⊥ → V ≠ ⊤ →
      p * samplesIn X V < N * Module.finrank ℝ V) (name : String)
    (hname : name = "trace" ∨ name = "determinant" ∨ name = "element") :
    ∃ S : Matrix (Fin p) (Fin p) ℝ, S.PosDef ∧
      EstimateOf (fun X init tol iterMax => tylerFixedPoint env X init tol iterMax name) X S ∧
      ∀ (d : Fin N → ℝ) (T : Matrix (Fin p) (Fin p) ℝ), (∀ i, d i ≠ 0) → IsUnit T →
        ∃ c : ℝ, 0 < c ∧ IsNormalised name (c • (T * S * Tᵀ)) ∧
        EstimateOf (fun X init tol iterMax => tylerFixedPoint env X init tol iterMax name)
          (moved d T X) (c • (T * S * Tᵀ)) := by
  obtain ⟨S, hS, hfix⟩ := tyler_exists hp hN X hn H
  obtain ⟨r, hr, hr1, -⟩ := normalised_exists name hname hp hS
  refine ⟨_, hS.smul (by simpa using hr), estimateOf_tyler_real env hs X hN hp hn H name hname hS
    hfix hr1, fun d T hd hT => ?_⟩
  obtain ⟨h1, h2, h3⟩ := tyler_moved X hn H hfix d hd T hT
  obtain ⟨c, hc, hc1, hc2⟩ := normalised_exists name hname hp (posDef_congr hT hS)
  have e : (c / r) • (T * ((r : ℝ) • S) * Tᵀ) = c • (T * S * Tᵀ) := by
    rw [Matrix.mul_smul, Matrix.smul_mul, smul_smul, div_mul_cancel₀ _ hr.ne']
  refine ⟨c / r, div_pos hc hr, ?_, ?_⟩
  · exact Eq.mpr (congrArg (IsNormalised name) e) hc2
  · exact estimateOf_tyler_real env hs _ hN hp h1 h2 name hname (posDef_congr hT hS) h3
      (hc1.trans (congrArg FMat.fin e.symm))

/-- Complex data: the estimate of the samples `d i * T x i` is the normalised `T S T^H`. -/
theorem C155_tyler_complex (env : NumEnv N p ℂ) (hs : env.eigh.Ok) (X : Matrix (Fin N) (Fin p) ℂ)
    (hN : 0 < N) (hp : 0 < p) (hn : NonzeroSamples X)
    (H : ∀ V : Submodule ℂ (Fin p → ℂ), V ≠ ⊥ → V ≠ ⊤ →
      p * samplesIn X V < N * Module.finrank ℂ V) (name : String)
    (hname : name = "trace" ∨ name = "determinant" ∨ name = "element") :
    ∃ S : Matrix (Fin p) (Fin p) ℂ, S.PosDef ∧
      EstimateOf (fun X init tol iterMax => complexTylerFixedPoint env X init tol iterMax name) X S ∧
      ∀ (d : Fin N → ℂ) (T : Matrix (Fin p) (Fin p) ℂ), (∀ i, d i ≠ 0) → IsUnit T →
        ∃ c : ℝ, 0 < c ∧ IsNormalised name ((c : ℂ) • (T * S * Tᴴ)) ∧
        EstimateOf (fun X init tol iterMax => complexTylerFixedPoint env X init tol iterMax name)
          (moved d T X) ((c : ℂ) • (T * S * Tᴴ)) := by
  obtain ⟨S, hS, hfix⟩ := tyler_exists hp hN X hn H
  obtain ⟨r, hr, hr1, -⟩ := normalised_exists name hname hp hS
  refine ⟨_, hS.smul (by simpa using hr), estimateOf_tyler_complex env hs X hN hp hn H name hname hS
    hfix hr1, fun d T hd hT => ?_⟩
  obtain ⟨h1, h2, h3⟩ := tyler_moved X hn H hfix d hd T hT
  obtain ⟨c, hc, hc1, hc2⟩ := normalised_exists name hname hp (posDef_congr hT hS)
  have hr0 : (r : ℂ) ≠ 0 := by exact_mod_cast hr.ne'
  have e : ((c / r : ℝ) : ℂ) • (T * (((r : ℝ) : ℂ) • S) * Tᴴ) = (c : ℂ) • (T * S * Tᴴ) := by
    rw [Matrix.mul_smul, Matrix.smul_mul, smul_smul, Complex.ofReal_div, div_mul_cancel₀ _ hr0]
  refine ⟨c / r, div_pos hc hr, ?_, ?_⟩
  · exact Eq.mpr (congrArg (IsNormalised name) e) hc2
  · exact estimateOf_tyler_complex env hs _ hN hp h1 h2 name hname (posDef_congr hT hS) h3
      (hc1.trans (congrArg FMat.fin e.symm))

/-- Huber's estimator on real data that span the space, the condition of `C103_real`: the only
matrix the calls leave in place on the samples `T x` is `T S T^T`, `S` being the only one for the
samples `x`. -/
theorem C155_huber_real (env : NumEnv N p ℝ) (hs : env.eigh.Ok) (c : Chi2) (hc : c.Ok)
    (X : Matrix (Fin N) (Fin p) ℝ) (hp : 0 < p) (hX : Spans X) (q : ℝ) (hq0 : 0 < q) (hq1 : q < 1)
    (tol : ℝ) :
    ∃ S : Matrix (Fin p) (Fin p) ℝ, S.PosDef ∧
      ∀ T : Matrix (Fin p) (Fin p) ℝ, IsUnit T → ∀ S' : Matrix (Fin p) (Fin p) ℝ, S'.PosDef →
        (Returns (huberFixedPoint env c (X * Tᵀ) q (some S') tol 1) S' ↔ S' = T * S * Tᵀ) := by
  obtain ⟨hl, hb⟩ := huber_beta_pos hc ⟨hq0, hq1⟩ hp
  obtain ⟨S, hS, hfix, -⟩ := (huber_exists_unique_iff hl hb hp X).2 hX
  refine ⟨S, hS, fun T hT S' hS' => ?_⟩
  obtain ⟨S₀, hS₀, hfix₀, huniq⟩ := (huber_exists_unique_iff hl hb hp (X * Tᵀ)).2 (spans_mul X hX T hT)
  have e : T * S * Tᴴ = S₀ := huniq _ (posDef_congr hT hS) (by
    rw [mStep_equivariant _ X T hT, hfix])
  refine (run_one_real_eq (.huber q) hs hc hp ⟨hq0, hq1⟩ rfl hS' tol S').trans ?_
  rw [← conjTranspose_eq_transpose_of_trivial T] at *
  rw [e]
  exact ⟨huniq _ hS', fun h => h ▸ hfix₀⟩

/-- Complex data. -/
theorem C155_huber_complex (env : NumEnv N p ℂ) (hs : env.eigh.Ok) (c : Chi2) (hc : c.Ok)
    (X : Matrix (Fin N) (Fin p) ℂ) (hp : 0 < p) (hX : Spans X) (q : ℝ) (hq0 : 0 < q) (hq1 : q < 1)
    (tol : ℝ) :
    ∃ S : Matrix (Fin p) (Fin p) ℂ, S.PosDef ∧
      ∀ T : Matrix (Fin p) (Fin p) ℂ, IsUnit T → ∀ S' : Matrix (Fin p) (Fin p) ℂ, S'.PosDef →
        (Returns (complexHuberFixedPoint env c (X * Tᵀ) q (some S') tol 1) S' ↔
          S' = T * S * Tᴴ) := by
  obtain ⟨hl, hb⟩ := complexHuber_beta_pos hc ⟨hq0, hq1⟩ hp
  obtain ⟨S, hS, hfix, -⟩ := (huber_exists_unique_iff hl hb hp X).2 hX
  refine ⟨S, hS, fun T hT S' hS' => ?_⟩
  obtain ⟨S₀, hS₀, hfix₀, huniq⟩ := (huber_exists_unique_iff hl hb hp (X * Tᵀ)).2 (spans_mul X hX T hT)
  have e : T * S * Tᴴ = S₀ := huniq _ (posDef_congr hT hS) (by
    rw [mStep_equivariant _ X T hT, hfix])
  refine (run_one_complex_eq (.huber q) hs hc hp ⟨hq0, hq1⟩ rfl hS' tol S').trans ?_
  rw [e]
  exact ⟨huniq _ hS', fun h => h ▸ hfix₀⟩

/-- The hypotheses can be met: three directions in the plane, in the coordinates `(x + y, 2 y)`. -/
example (env : NumEnv 3 2 ℝ) (hs : env.eigh.Ok) :
    ∃ T S : Matrix (Fin 2) (Fin 2) ℝ, T = !![1, 1; 0, 2] ∧ IsUnit T ∧ S.PosDef ∧
      EstimateOf (fun X init tol iterMax => studentFixedPoint env X 3 init tol iterMax)
        (mercedes ℝ * Tᵀ) (T * S * Tᵀ) := by
  have hu : IsUnit (!![1, 1; 0, 2] : Matrix (Fin 2) (Fin 2) ℝ) := by
    rw [Matrix.isUnit_iff_isUnit_det, det_fin_two_of]; norm_num
  obtain ⟨S, hS, -, h⟩ := C155_student_real env hs (mercedes ℝ) two_pos 3 (by norm_num)
    (generalPosition_student mercedes_generalPosition (by norm_num) (by norm_num))
  exact ⟨_, S, rfl, hu, hS, h _ hu⟩

end

/-! ## C156 -/

section
variable {𝕜 : Type} [RCLike 𝕜] {N a b : ℕ}

/-- The limits of the shapes are determined by the calls. -/
theorem KronWithin.unique {run : ℝ → ℤ → Py (Option (KronOut a b 𝕜))}
    {A A' : Matrix (Fin a) (Fin a) 𝕜} {B B' : Matrix (Fin b) (Fin b) 𝕜}
    (h : ∀ ε : ℝ, 0 < ε → KronWithin run A B ε) (h' : ∀ ε : ℝ, 0 < ε → KronWithin run A' B' ε) :
    unitTrace A = unitTrace A' ∧ unitTrace B = unitTrace B' := by
  have key : ∀ {n : ℕ} (f : KronOut a b 𝕜 → Matrix (Fin n) (Fin n) 𝕜) (S T : Matrix (Fin n) (Fin n) 𝕜),
      (∀ ε : ℝ, 0 < ε → ∃ o, frobDist (f o) S < ε ∧ frobDist (f o) T < ε) → S = T := by
    intro n f S T hST
    have h0 : frob (S - T) ≤ 0 := le_of_forall_pos_le_add fun η hη => by
      obtain ⟨o, h1, h2⟩ := hST (η / 2) (by linarith)
      rw [frobDist_eq, frob_sub_comm] at h1
      rw [frobDist_eq] at h2
      have := frob_add_le (S - f o) (f o - T)
      rw [sub_add_sub_cancel] at this
      linarith
    exact sub_eq_zero.1 ((frob_eq_zero _).1 (le_antisymm h0 (frob_nonneg _)))
  have both : ∀ ε : ℝ, 0 < ε → ∃ o : KronOut a b 𝕜, (frobDist (unitTrace o.A) (unitTrace A) < ε ∧
      frobDist (unitTrace o.A) (unitTrace A') < ε) ∧ frobDist (unitTrace o.B) (unitTrace B) < ε ∧
      frobDist (unitTrace o.B) (unitTrace B') < ε := by
    intro ε hε
    obtain ⟨t, K, ht, h1⟩ := h ε hε
    obtain ⟨t', K', ht', h2⟩ := h' ε hε
    obtain ⟨o, e1, a1, b1, -⟩ := h1 (min t t') (max K K') (min_le_left _ _) (by simp)
    obtain ⟨o', e2, a2, b2, -⟩ := h2 (min t t') (max K K') (min_le_right _ _) (by simp)
    have e := e1.symm.trans e2
    simp only [Except.ok.injEq, Option.some.injEq] at e
    subst e
    exact ⟨o, ⟨a1, a2⟩, b1, b2⟩
  exact ⟨key (fun o => unitTrace o.A) _ _ fun ε hε => (both ε hε).imp fun _ h => h.1,
    key (fun o => unitTrace o.B) _ _ fun ε hε => (both ε hε).imp fun _ h => h.2⟩

theorem unitTrace_congr {n : ℕ} (hn : 0 < n) {A A' : Matrix (Fin n) (Fin n) 𝕜} (hA : A.PosDef)
    (hA' : A'.PosDef) (h : unitTrace A = unitTrace A') (P Q : Matrix (Fin n) (Fin n) 𝕜) :
    unitTrace (P * A * Q) = unitTrace (P * A' * Q) := by
  have t := trace_ne_zero_of_posDef hA hn
  have t' := trace_ne_zero_of_posDef hA' hn
  have e : A = (trace A * (trace A')⁻¹) • A' := by
    have := congrArg (fun M => trace A • M) h
    simpa only [unitTrace, smul_smul, mul_inv_cancel₀ t, one_smul] using this
  rw [e, Matrix.mul_smul, Matrix.smul_mul]
  have c0 : trace A * (trace A')⁻¹ ≠ 0 := mul_ne_zero t (inv_ne_zero t')
  generalize trace A * (trace A')⁻¹ = c at c0
  unfold unitTrace
  rw [trace_smul, smul_eq_mul, mul_inv, smul_smul, mul_assoc, mul_comm _ c, ← mul_assoc,
    inv_mul_cancel₀ c0, one_mul]

/-- Real or complex samples that are spread out (the condition of `C145_iff`), with estimates `A`, `B`:
for invertible `V`, `U` the samples `(V ⊗ U) x` have the estimates `conj(V) A V^T`, `U B U^H`. -/
theorem C156_law (sq : Sqrtm 𝕜) (hsq : SqrtmPD sq) (X : Matrix (Fin N) (Fin (a * b)) 𝕜)
    (hN : 0 < N) (ha : 0 < a) (hb : 0 < b) (h0 : ∀ i, X i ≠ 0)
    (hS : KronSpread fun i => (unstack (X i) : Matrix (Fin b) (Fin a) 𝕜)) :
    ∃ (A : Matrix (Fin a) (Fin a) 𝕜) (B : Matrix (Fin b) (Fin b) 𝕜), A.PosDef ∧ B.PosDef ∧
      (∀ ε : ℝ, 0 < ε → KronWithin (kroneckerMM sq X a b) A B ε) ∧
      ∀ (V : Matrix (Fin a) (Fin a) 𝕜) (U : Matrix (Fin b) (Fin b) 𝕜), IsUnit V → IsUnit U →
        KronStops (kroneckerMM sq (X * (kron V U)ᵀ) a b) ∧
        ∀ ε : ℝ, 0 < ε →
          KronWithin (kroneckerMM sq (X * (kron V U)ᵀ) a b) (Vᵀᴴ * A * Vᵀ) (U * B * Uᴴ) ε := by
  have z : ∀ {n : ℕ} (S : Matrix (Fin n) (Fin n) 𝕜), frob (S - S) = 0 := fun S => by
    rw [sub_self]; exact (frob_eq_zero _).2 rfl
  obtain ⟨A, B, hfix, hcalls, -⟩ := C145_converges sq hsq X hN ha hb h0 hS
  refine ⟨A, B, hfix.posA, hfix.posB, fun ε hε => kronWithin_of_limit ha hb hfix.posA hfix.posB
    hcalls (by rw [z]; exact hε) (by rw [z]; exact hε) (by rw [z]; exact hε), fun V U hV hU => ?_⟩
  have hVt : IsUnit Vᵀ := (Matrix.isUnit_transpose V).2 hV
  have eY : (fun i => (unstack ((X * (kron V U)ᵀ) i) : Matrix (Fin b) (Fin a) 𝕜)) =
      fun i => U * unstack (X i) * Vᵀ := funext fun i => unstack_kron_mul X V U i
  have hSY : KronSpread fun i => (unstack ((X * (kron V U)ᵀ) i) : Matrix (Fin b) (Fin a) 𝕜) := by
    rw [eY]; exact kronSpread_mul hS hVt hU
  have hfY : KronFixed (fun i => (unstack ((X * (kron V U)ᵀ) i) : Matrix (Fin b) (Fin a) 𝕜))
      (Vᵀᴴ * A * Vᵀ) (U * B * Uᴴ) := by
    rw [eY]; exact kronFixed_mul hfix hVt hU
  have h0Y : ∀ i, (X * (kron V U)ᵀ) i ≠ 0 := fun i h => unstack_ne_zero (h0 i) (by
    have h1 := congrFun eY i
    simp only [h] at h1
    have h2 : (0 : Matrix (Fin b) (Fin a) 𝕜) = U * unstack (X i) * Vᵀ := by
      rw [← h1]; ext r c; simp [unstack]
    have dU := (Matrix.isUnit_iff_isUnit_det U).1 hU
    have dV := (Matrix.isUnit_iff_isUnit_det Vᵀ).1 hVt
    have h3 : U⁻¹ * (U * unstack (X i) * Vᵀ) * (Vᵀ)⁻¹ = 0 := by rw [← h2]; simp
    simpa only [Matrix.mul_assoc, Matrix.mul_nonsing_inv _ dV, Matrix.mul_one,
      Matrix.nonsing_inv_mul_cancel_left _ _ dU] using h3)
  obtain ⟨A₁, B₁, hf1, hc1, hst⟩ := C145_converges sq hsq _ hN ha hb h0Y hSY
  obtain ⟨A₂, B₂, -, hu⟩ := (C145_iff _ hN ha hb h0Y).2 hSY
  obtain ⟨s, t, e1, e2⟩ := hu _ _ hf1
  obtain ⟨s', t', e1', e2'⟩ := hu _ _ hfY
  have nz : ∀ {n : ℕ} (_ : 0 < n) {S T : Matrix (Fin n) (Fin n) 𝕜} {s : ℝ}, S.PosDef →
      S = (s : 𝕜) • T → (s : 𝕜) ≠ 0 := by
    intro n hn S T s hS e h
    rw [h, zero_smul] at e
    exact trace_ne_zero_of_posDef hS hn (by rw [e, trace_zero])
  have uA : unitTrace A₁ = unitTrace (Vᵀᴴ * A * Vᵀ) := by
    rw [e1', unitTrace_smul _ (nz ha hfY.posA e1'), e1, unitTrace_smul _ (nz ha hf1.posA e1)]
  have uB : unitTrace B₁ = unitTrace (U * B * Uᴴ) := by
    rw [e2', unitTrace_smul _ (nz hb hfY.posB e2'), e2, unitTrace_smul _ (nz hb hf1.posB e2)]
  refine ⟨hst, fun ε hε => kronWithin_of_limit ha hb hf1.posA hf1.posB hc1 ?_ ?_ ?_⟩
  · rw [uA, z]; exact hε
  · rw [uB, z]; exact hε
  · rw [unitTrace_kron, unitTrace_kron, uA, uB, z]; exact hε

/-- What the users expect: the estimate `A ⊗ B` of the samples `x` becomes `T (A ⊗ B) T^H` for the
samples `T x`, `T = V ⊗ U`. It holds up to scale for real data, and for complex data if the entries
of `V` are real. -/
theorem C156_partial (sq : Sqrtm 𝕜) (hsq : SqrtmPD sq) (X : Matrix (Fin N) (Fin (a * b)) 𝕜)
    (hN : 0 < N) (ha : 0 < a) (hb : 0 < b) (h0 : ∀ i, X i ≠ 0)
    (hS : KronSpread fun i => (unstack (X i) : Matrix (Fin b) (Fin a) 𝕜)) :
    ∃ (A : Matrix (Fin a) (Fin a) 𝕜) (B : Matrix (Fin b) (Fin b) 𝕜), A.PosDef ∧ B.PosDef ∧
      (∀ ε : ℝ, 0 < ε → KronWithin (kroneckerMM sq X a b) A B ε) ∧
      ∀ (V : Matrix (Fin a) (Fin a) 𝕜) (U : Matrix (Fin b) (Fin b) 𝕜), IsUnit V → IsUnit U →
        (∀ j k, star (V j k) = V j k) →
        kron (V * A * Vᴴ) (U * B * Uᴴ) = kron V U * kron A B * (kron V U)ᴴ ∧
        ∀ ε : ℝ, 0 < ε →
          KronWithin (kroneckerMM sq (X * (kron V U)ᵀ) a b) (V * A * Vᴴ) (U * B * Uᴴ) ε := by
  obtain ⟨A, B, hA, hB, h1, h2⟩ := C156_law sq hsq X hN ha hb h0 hS
  refine ⟨A, B, hA, hB, h1, fun V U hV hU hr => ⟨?_, fun ε hε => ?_⟩⟩
  · rw [kron_conjTranspose, kron_mul, kron_mul]
  · have e : Vᵀᴴ = V := by ext j k; simpa using hr j k
    have e' : Vᵀ = Vᴴ := by ext j k; simpa using (hr k j).symm
    have := (h2 V U hV hU).2 ε hε
    rwa [e, e'] at this

end

/-- Complex `V`: for all spread-out data with `a ≥ 2` there is a change of coordinates for which the
limit is not the expected one. -/
theorem C156_violated {N a b : ℕ} (sq : Sqrtm ℂ) (hsq : SqrtmPD sq)
    (X : Matrix (Fin N) (Fin (a * b)) ℂ) (hN : 0 < N) (ha : 2 ≤ a) (hb : 0 < b) (h0 : ∀ i, X i ≠ 0)
    (hS : KronSpread fun i => (unstack (X i) : Matrix (Fin b) (Fin a) ℂ))
    (A : Matrix (Fin a) (Fin a) ℂ) (B : Matrix (Fin b) (Fin b) ℂ) (hA : A.PosDef)
    (h : ∀ ε : ℝ, 0 < ε → KronWithin (kroneckerMM sq X a b) A B ε) :
    ∃ V : Matrix (Fin a) (Fin a) ℂ, IsUnit V ∧
      ¬ ∀ ε : ℝ, 0 < ε → KronWithin (kroneckerMM sq (X * (kron V 1)ᵀ) a b) (V * A * Vᴴ) B ε := by
  have ha0 : 0 < a := by omega
  obtain ⟨A₀, B₀, hA₀, hB₀, h1, h2⟩ := C156_law sq hsq X hN ha0 hb h0 hS
  have hu := (KronWithin.unique h h1).1
  let i : Fin a := ⟨0, ha0⟩
  let j : Fin a := ⟨1, by omega⟩
  have hij : i ≠ j := by simp [i, j, Fin.ext_iff]
  have hV : IsUnit (transvection i j Complex.I) := by
    rw [Matrix.isUnit_iff_isUnit_det, det_transvection_of_ne _ _ hij]
    exact isUnit_one
  refine ⟨transvection i j Complex.I, hV, fun hc => ?_⟩
  have h3 := (KronWithin.unique hc (h2 _ 1 hV isUnit_one).2).1
  rw [← unitTrace_congr ha0 hA hA₀ hu] at h3
  have p1 := posDef_congr hV hA
  have d : A j j ≠ 0 := (hA.diag_pos (i := j)).ne'
  have hji : ¬ j = i := fun e => hij e.symm
  have Pij : (transvection i j Complex.I * A * (transvection i j Complex.I)ᴴ) i j =
      A i j + Complex.I * A j j := by
    simp [transvection, Matrix.add_mul, Matrix.mul_add, conjTranspose_single, hij, hji,
      Matrix.mul_single_apply_of_ne]
  have Pjj : (transvection i j Complex.I * A * (transvection i j Complex.I)ᴴ) j j = A j j := by
    simp [transvection, Matrix.add_mul, Matrix.mul_add, conjTranspose_single, hij, hji]
  have Qij : ((transvection i j Complex.I)ᵀᴴ * A * (transvection i j Complex.I)ᵀ) i j =
      A i j - Complex.I * A j j := by
    simp [transvection, Matrix.add_mul, Matrix.mul_add, conjTranspose_single, transpose_single, hij, hji,
      sub_eq_add_neg, Matrix.mul_single_apply_of_ne]
  have Qjj : ((transvection i j Complex.I)ᵀᴴ * A * (transvection i j Complex.I)ᵀ) j j = A j j := by
    simp [transvection, Matrix.add_mul, Matrix.mul_add, conjTranspose_single, transpose_single, hij,
      hji]
  have t := trace_ne_zero_of_posDef p1 ha0
  have e1 := congrFun (congrFun h3 j) j
  have e2 := congrFun (congrFun h3 i) j
  simp only [unitTrace, Matrix.smul_apply, smul_eq_mul] at e1 e2
  rw [Pjj, Qjj] at e1
  rw [← mul_right_cancel₀ d e1, Pij, Qij] at e2
  have e3 := mul_left_cancel₀ (inv_ne_zero t) e2
  have e4 : 2 * Complex.I * A j j = 0 := by linear_combination e3
  simp [d] at e4

/-- The hypotheses can be met in all dimensions. -/
example (sq : Sqrtm ℂ) (hsq : SqrtmPD sq) (a b : ℕ) (ha : 2 ≤ a) (hb : 0 < b) :
    ∃ (A : Matrix (Fin a) (Fin a) ℂ) (B : Matrix (Fin b) (Fin b) ℂ) (V : Matrix (Fin a) (Fin a) ℂ),
      IsUnit V ∧ (∀ ε : ℝ, 0 < ε →
        KronWithin (kroneckerMM sq (powerData ℂ (a * b + 1) (a * b)) a b) A B ε) ∧
      ¬ ∀ ε : ℝ, 0 < ε → KronWithin
        (kroneckerMM sq (powerData ℂ (a * b + 1) (a * b) * (kron V 1)ᵀ) a b) (V * A * Vᴴ) B ε := by
  have hab : 0 < a * b := Nat.mul_pos (by omega) hb
  have hg := powerData_generalPosition ℂ (a * b + 1) (a * b)
  have hn := generalPosition_nonzero hg hab
  have h0 : ∀ i, powerData ℂ (a * b + 1) (a * b) i ≠ 0 := fun i h => hn i (by
    ext j; simp [sample, h])
  have hS := C145_general_position _ (by omega) hb (Nat.lt_succ_self _) hg
  obtain ⟨A, B, hA, -, h1, -⟩ := C156_law sq hsq _ (Nat.succ_pos _) (by omega) hb h0 hS
  obtain ⟨V, hV, h2⟩ := C156_violated sq hsq _ (Nat.succ_pos _) ha hb h0 hS A B hA h1
  exact ⟨A, B, V, hV, h1, h2⟩

end RS
