import Verif.Lemmas.Demo
import Verif.Lemmas.RealEmbed
import Verif.Props.CovLoop

/-
Properties of the fixed-point estimators, part 2: positivity, invariance, equivariance
(C34-C37, C47).
-/
set_option autoImplicit false

namespace RS
open Matrix ComplexOrder

section
variable {N p : ℕ}

/-! ## C34 -/

/-- Real data: the call succeeds, all iterates are positive definite and so is the result; the
whole output is that of an M-estimation run with the estimator's weight. -/
theorem C34_real (e : RealEst) (env : NumEnv N p ℝ) (hs : env.eigh.Ok) (c : Chi2) (hc : c.Ok)
    (X : Matrix (Fin N) (Fin p) ℝ) (hp : 0 < p) (hX : Spans X) (hv : e.Valid X)
    (init : Option (Matrix (Fin p) (Fin p) ℝ)) (hi : ∀ S ∈ init, S.PosDef) (tol : ℝ)
    (iterMax : ℤ) :
    ∃ sigma result delta iteration,
      e.run env c X init tol iterMax =
        .ok ⟨.fin result, delta, iteration, (iteration : ℤ) == iterMax⟩ ∧
      IsMRun (e.weight c p) X tol iterMax (init.getD (secondMoment X)) sigma delta iteration ∧
      FMat.normalise e.normalisation (.fin sigma) = .fin result ∧ result.PosDef := by
  obtain ⟨h1, h2⟩ := e.isMStep hs hc hp hv
  obtain ⟨sigma, delta, iteration, hr, hm⟩ :=
    runLoop_isMRun hp h1 hX h2 tol iterMax (getD_posDef hX hi)
  have hsP : sigma.PosDef := by rw [hm.result]; exact hm.posDef _ le_rfl
  obtain ⟨S', h3, h4⟩ := C31_posDef e.normalisation hp sigma hsP
  refine ⟨sigma, S', delta, iteration, ?_, hm, h3, h4⟩
  rw [e.run_eq env c X hv, hr, ← h3]
  rfl

theorem C34_complex (e : ComplexEst) (env : NumEnv N p ℂ) (hs : env.eigh.Ok) (c : Chi2) (hc : c.Ok)
    (X : Matrix (Fin N) (Fin p) ℂ) (hp : 0 < p) (hX : Spans X) (hv : e.Valid X)
    (init : Option (Matrix (Fin p) (Fin p) ℂ)) (hi : ∀ S ∈ init, S.PosDef) (tol : ℝ)
    (iterMax : ℤ) :
    ∃ sigma result delta iteration,
      e.run env c X init tol iterMax =
        .ok ⟨.fin result, delta, iteration, (iteration : ℤ) == iterMax⟩ ∧
      IsMRun (e.weight c p) X tol iterMax (init.getD (secondMoment X)) sigma delta iteration ∧
      FMat.normalise e.normalisation (.fin sigma) = .fin result ∧ result.PosDef := by
  obtain ⟨h1, h2⟩ := e.isMStep hs hc hp hv
  obtain ⟨sigma, delta, iteration, hr, hm⟩ :=
    runLoop_isMRun hp h1 hX h2 tol iterMax (getD_posDef hX hi)
  have hsP : sigma.PosDef := by rw [hm.result]; exact hm.posDef _ le_rfl
  obtain ⟨S', h3, h4⟩ := C31_posDef e.normalisation hp sigma hsP
  refine ⟨sigma, S', delta, iteration, ?_, hm, h3, h4⟩
  rw [e.run_eq env c X hv, hr, ← h3]
  rfl

/-- The hypotheses of C34-C38 are met: three samples in the plane, no zero sample, spanning. -/
example : ∃ (env : NumEnv 3 2 ℝ) (c : Chi2) (X : Matrix (Fin 3) (Fin 2) ℝ), env.eigh.Ok ∧ c.Ok ∧
    Spans X ∧ (RealEst.tyler "trace").Valid X ∧ (RealEst.student 3).Valid X ∧
    (RealEst.huber (9 / 10)).Valid X := by
  obtain ⟨s, hs⟩ := eigh_exists (ι := Fin 2) (𝕜 := ℝ)
  refine ⟨⟨s, fun _ _ => .nan⟩, ⟨fun q _ => q, fun _ _ => 0⟩, !![1, 0; 0, 1; 1, 2], hs,
    ⟨fun _ => rfl, fun q k h _ _ => h, fun _ _ => le_rfl⟩, ?_, ?_, ?_, ?_⟩
  · intro v hv
    have h0 := hv 0
    have h1 := hv 1
    simp [sample, dotProduct, Fin.sum_univ_two] at h0 h1
    funext j
    fin_cases j <;> simp [h0, h1]
  · intro i h
    have h0 := congrFun h 0
    have h1 := congrFun h 1
    fin_cases i <;> simp [sample] at h0 h1
  · norm_num [RealEst.Valid]
  · norm_num [RealEst.Valid]

/-! ## C35 -/

theorem mStep_tyler_scale {𝕜 : Type} [RCLike 𝕜] (X : Matrix (Fin N) (Fin p) 𝕜) (d : Fin N → 𝕜)
    (hd : ∀ i, d i ≠ 0) (S : Matrix (Fin p) (Fin p) 𝕜) :
    mStep (wTyler p) (of fun i j => d i * X i j) S = mStep (wTyler p) X S := by
  have hsm : ∀ i, sample (of fun i j => d i * X i j) i = d i • sample X i := fun i => rfl
  ext a b
  unfold mStep
  rw [scatter_apply, scatter_apply]
  congr 1
  apply Finset.sum_congr rfl
  intro i _
  have hn : ((‖d i‖ ^ 2 : ℝ) : 𝕜) = d i * star (d i) := by
    rw [RCLike.star_def, RCLike.mul_conj]; simp
  have hq : qf S (sample (of fun i j => d i * X i j) i) = ‖d i‖ ^ 2 * qf S (sample X i) := by
    rw [hsm]
    unfold qf
    rw [star_smul, mulVec_smul, smul_dotProduct, dotProduct_smul, smul_smul, mul_comm, ← hn,
      smul_eq_mul, RCLike.re_ofReal_mul]
  have hnd : (‖d i‖ ^ 2 : ℝ) ≠ 0 := pow_ne_zero 2 (norm_ne_zero_iff.2 (hd i))
  rw [hq]
  simp only [of_apply, star_mul', wTyler]
  have e : (p : ℝ) / (‖d i‖ ^ 2 * qf S (sample X i)) =
      (‖d i‖ ^ 2)⁻¹ * (p / qf S (sample X i)) := by
    rw [div_mul_eq_div_div_swap, div_eq_inv_mul]
  rw [e, RCLike.ofReal_mul, RCLike.ofReal_inv, hn]
  have hs0 : star (d i) ≠ 0 := star_ne_zero.2 (hd i)
  have h0 := hd i
  field_simp

/-- Real data: the whole output is unchanged. -/
theorem C35_real (env : NumEnv N p ℝ) (hs : env.eigh.Ok) (X : Matrix (Fin N) (Fin p) ℝ)
    (hX : Spans X) (hn : NonzeroSamples X) (d : Fin N → ℝ) (hd : ∀ i, d i ≠ 0)
    (init : Matrix (Fin p) (Fin p) ℝ) (hi : init.PosDef) (tol : ℝ) (iterMax : ℤ) (name : String) :
    tylerFixedPoint env (of fun i j => d i * X i j) (some init) tol iterMax name =
      tylerFixedPoint env X (some init) tol iterMax name := by
  have hn' : NonzeroSamples (of fun i j => d i * X i j) := fun i h => hn i (by
    funext j
    have := congrFun h j
    simpa [sample, hd i] using this)
  obtain ⟨s, dl, it, wn, -, h1, h2⟩ := runLoop_transfer (tylerStep_isMStep hs hn) hX
    (fun S hS i => wTyler_pos hn hS i) (tylerStep_isMStep hs hn') id (fun S hS => hS)
    (fun S _ => mStep_tyler_scale X d hd S) (fun a b => rfl) tol iterMax hi
  unfold tylerFixedPoint
  simp only [Option.getD_some]
  simp only [id] at h2
  rw [h1, h2]

/-- Complex data: the whole output is unchanged, for complex scale factors. -/
theorem C35_complex (env : NumEnv N p ℂ) (hs : env.eigh.Ok) (X : Matrix (Fin N) (Fin p) ℂ)
    (hX : Spans X) (hn : NonzeroSamples X) (d : Fin N → ℂ) (hd : ∀ i, d i ≠ 0)
    (init : Matrix (Fin p) (Fin p) ℂ) (hi : init.PosDef) (tol : ℝ) (iterMax : ℤ) (name : String) :
    complexTylerFixedPoint env (of fun i j => d i * X i j) (some init) tol iterMax name =
      complexTylerFixedPoint env X (some init) tol iterMax name := by
  have hn' : NonzeroSamples (of fun i j => d i * X i j) := fun i h => hn i (by
    funext j
    have := congrFun h j
    simpa [sample, hd i] using this)
  obtain ⟨s, dl, it, wn, -, h1, h2⟩ := runLoop_transfer (complexTylerStep_isMStep hs hn) hX
    (fun S hS i => wTyler_pos hn hS i) (complexTylerStep_isMStep hs hn') id (fun S hS => hS)
    (fun S _ => mStep_tyler_scale X d hd S) (fun a b => rfl) tol iterMax hi
  unfold complexTylerFixedPoint
  simp only [Option.getD_some]
  simp only [id] at h2
  rw [h1, h2]

/-! ## C36 -/

theorem unitary_isUnit {𝕜 : Type} [RCLike 𝕜] {U : Matrix (Fin p) (Fin p) 𝕜} (hU : Uᴴ * U = 1) :
    IsUnit U :=
  ⟨⟨U, Uᴴ, mul_eq_one_comm.1 hU, hU⟩, rfl⟩

theorem posDef_congr {𝕜 : Type} [RCLike 𝕜] {T S : Matrix (Fin p) (Fin p) 𝕜} (hT : IsUnit T)
    (hS : S.PosDef) : (T * S * Tᴴ).PosDef :=
  hS.mul_mul_conjTranspose_same (Matrix.vecMul_injective_of_isUnit hT)

theorem normalise_unitary {𝕜 : Type} [RCLike 𝕜] (name : String) (hne : name ≠ "element")
    {U : Matrix (Fin p) (Fin p) 𝕜} (hU : Uᴴ * U = 1) (S S' : Matrix (Fin p) (Fin p) 𝕜)
    (h : FMat.normalise name (.fin S) = .fin S') :
    FMat.normalise name (.fin (U * S * Uᴴ)) = .fin (U * S' * Uᴴ) := by
  have htr : (U * S * Uᴴ).trace = S.trace := by
    rw [trace_mul_comm, ← Matrix.mul_assoc, hU, Matrix.one_mul]
  have hdet : (U * S * Uᴴ).det = S.det := by
    rw [det_mul, det_mul, mul_comm, ← mul_assoc, ← det_mul, hU, det_one, one_mul]
  have hf : normFn name (U * S * Uᴴ) = normFn name S := by
    unfold normFn
    rw [htr, hdet, if_neg hne, if_neg hne]
  simp only [FMat.normalise] at h ⊢
  rw [hf]
  cases hs : normFn name S with
  | none => rw [hs] at h; cases h
  | some s =>
    rw [hs] at h
    simp only at h ⊢
    split_ifs at h ⊢ with h0
    cases h
    rw [Matrix.mul_smul, Matrix.smul_mul]

/-- Real data: rotating the data (and the given initial point) rotates the estimate. -/
theorem C36_real (e : RealEst) (hne : e.normalisation ≠ "element") (env : NumEnv N p ℝ)
    (hs : env.eigh.Ok) (c : Chi2) (hc : c.Ok) (X : Matrix (Fin N) (Fin p) ℝ) (hp : 0 < p)
    (hX : Spans X) (hv : e.Valid X) (U : Matrix (Fin p) (Fin p) ℝ) (hU : Uᵀ * U = 1)
    (init : Option (Matrix (Fin p) (Fin p) ℝ)) (hi : ∀ S ∈ init, S.PosDef) (tol : ℝ)
    (iterMax : ℤ) :
    ∃ S delta iteration warned,
      e.run env c X init tol iterMax = .ok ⟨.fin S, delta, iteration, warned⟩ ∧
      e.run env c (X * Uᵀ) (init.map fun S => U * S * Uᵀ) tol iterMax =
        .ok ⟨.fin (U * S * Uᵀ), delta, iteration, warned⟩ := by
  simp only [← conjTranspose_eq_transpose_of_trivial] at hU ⊢
  have hu := unitary_isUnit hU
  have hv' : e.Valid (X * Uᴴ) := by
    cases e with
    | tyler _ => exact nonzero_mul X hv U hu
    | student _ => exact hv
    | huber _ => exact hv
  obtain ⟨h1, h2⟩ := e.isMStep hs hc hp hv
  obtain ⟨h1', -⟩ := e.isMStep (X := X * Uᴴ) hs hc hp hv'
  obtain ⟨s, dl, it, wn, hsP, hr1, hr2⟩ := runLoop_transfer h1 hX h2 h1' (fun S => U * S * Uᴴ)
    (fun S hS => posDef_congr hu hS) (fun S _ => mStep_equivariant _ X U hu S)
    (fun a b => relErr_unitary U b a hU) tol iterMax (getD_posDef hX hi)
  obtain ⟨S', h3, h4⟩ := C31_posDef e.normalisation hp s hsP
  have hin : (init.map fun S => U * S * Uᴴ).getD (secondMoment (X * Uᴴ)) =
      U * init.getD (secondMoment X) * Uᴴ := by
    cases init with
    | none =>
      simp only [Option.map_none, Option.getD_none, secondMoment_eq]
      exact scatter_mul _ X U
    | some S => rfl
  refine ⟨S', dl, it, wn, ?_, ?_⟩
  · rw [e.run_eq env c X hv, hr1, ← h3]; rfl
  · rw [e.run_eq env c _ hv', hin, hr2, ← normalise_unitary e.normalisation hne hU s S' h3]; rfl

theorem C36_complex (e : ComplexEst) (hne : e.normalisation ≠ "element") (env : NumEnv N p ℂ)
    (hs : env.eigh.Ok) (c : Chi2) (hc : c.Ok) (X : Matrix (Fin N) (Fin p) ℂ) (hp : 0 < p)
    (hX : Spans X) (hv : e.Valid X) (U : Matrix (Fin p) (Fin p) ℂ) (hU : Uᴴ * U = 1)
    (init : Option (Matrix (Fin p) (Fin p) ℂ)) (hi : ∀ S ∈ init, S.PosDef) (tol : ℝ)
    (iterMax : ℤ) :
    ∃ S delta iteration warned,
      e.run env c X init tol iterMax = .ok ⟨.fin S, delta, iteration, warned⟩ ∧
      e.run env c (X * Uᵀ) (init.map fun S => U * S * Uᴴ) tol iterMax =
        .ok ⟨.fin (U * S * Uᴴ), delta, iteration, warned⟩ := by
  have hu := unitary_isUnit hU
  have hv' : e.Valid (X * Uᵀ) := by
    cases e with
    | tyler _ => exact nonzero_mul X hv U hu
    | student _ => exact hv
    | huber _ => exact hv
  obtain ⟨h1, h2⟩ := e.isMStep hs hc hp hv
  obtain ⟨h1', -⟩ := e.isMStep (X := X * Uᵀ) hs hc hp hv'
  obtain ⟨s, dl, it, wn, hsP, hr1, hr2⟩ := runLoop_transfer h1 hX h2 h1' (fun S => U * S * Uᴴ)
    (fun S hS => posDef_congr hu hS) (fun S _ => mStep_equivariant _ X U hu S)
    (fun a b => relErr_unitary U b a hU) tol iterMax (getD_posDef hX hi)
  obtain ⟨S', h3, h4⟩ := C31_posDef e.normalisation hp s hsP
  have hin : (init.map fun S => U * S * Uᴴ).getD (secondMoment (X * Uᵀ)) =
      U * init.getD (secondMoment X) * Uᴴ := by
    cases init with
    | none =>
      simp only [Option.map_none, Option.getD_none, secondMoment_eq]
      exact scatter_mul _ X U
    | some S => rfl
  refine ⟨S', dl, it, wn, ?_, ?_⟩
  · rw [e.run_eq env c X hv, hr1, ← h3]; rfl
  · rw [e.run_eq env c _ hv', hin, hr2, ← normalise_unitary e.normalisation hne hU s S' h3]; rfl

/-- One iteration (`iter_max = 1`, no normalisation) is equivariant under every invertible linear
map of the features. -/
theorem C36_single_step_real (e : RealEst) (hne : e.normalisation = "None") (env : NumEnv N p ℝ)
    (hs : env.eigh.Ok) (c : Chi2) (hc : c.Ok) (X : Matrix (Fin N) (Fin p) ℝ) (hp : 0 < p)
    (hv : e.Valid X) (T : Matrix (Fin p) (Fin p) ℝ) (hT : IsUnit T)
    (init : Matrix (Fin p) (Fin p) ℝ) (hi : init.PosDef) (tol : ℝ) :
    ∃ S d d', e.run env c X (some init) tol 1 = .ok ⟨.fin S, d, 1, true⟩ ∧
      e.run env c (X * Tᵀ) (some (T * init * Tᵀ)) tol 1 = .ok ⟨.fin (T * S * Tᵀ), d', 1, true⟩ := by
  have one : ∀ (Y : Matrix (Fin N) (Fin p) ℝ) (J : Matrix (Fin p) (Fin p) ℝ), e.Valid Y → J.PosDef →
      ∃ d, e.run env c Y (some J) tol 1 = .ok ⟨.fin (mStep (e.weight c p) Y J), d, 1, true⟩ := by
    intro Y J hY hJ
    have hst := (e.isMStep (X := Y) hs hc hp hY).1 J hJ
    have hl : fpLoop (e.step env c Y) tol 1 ⟨.fin J, .inf, 0⟩ =
        .ok ⟨.fin (mStep (e.weight c p) Y J), relErr (.fin (mStep (e.weight c p) Y J)) (.fin J), 1⟩ := by
      rw [fpLoop, if_pos ⟨trivial, by simp⟩]
      simp only [stepSig, hst]
      rw [fpLoop, if_neg (by simp)]
    refine ⟨relErr (.fin (mStep (e.weight c p) Y J)) (.fin J), ?_⟩
    rw [e.run_eq env c Y hY, Option.getD_some]
    unfold runLoop
    rw [hl, hne]
    change Except.ok _ = Except.ok _
    simp only [C30_none "None" (by decide +kernel)]
    rfl
  have hv' : e.Valid (X * Tᵀ) := by
    cases e with
    | tyler _ => exact nonzero_mul X hv T hT
    | student _ => exact hv
    | huber _ => exact hv
  have hJ := posDef_congr hT hi
  have heq := mStep_equivariant (e.weight c p) X T hT init
  simp only [conjTranspose_eq_transpose_of_trivial] at hJ heq
  obtain ⟨d, h1⟩ := one X init hv hi
  obtain ⟨d', h2⟩ := one (X * Tᵀ) (T * init * Tᵀ) hv' hJ
  rw [heq] at h2
  exact ⟨_, d, d', h1, h2⟩

theorem C36_single_step_complex (e : ComplexEst) (hne : e.normalisation = "None")
    (env : NumEnv N p ℂ) (hs : env.eigh.Ok) (c : Chi2) (hc : c.Ok) (X : Matrix (Fin N) (Fin p) ℂ)
    (hp : 0 < p) (hv : e.Valid X) (T : Matrix (Fin p) (Fin p) ℂ) (hT : IsUnit T)
    (init : Matrix (Fin p) (Fin p) ℂ) (hi : init.PosDef) (tol : ℝ) :
    ∃ S d d', e.run env c X (some init) tol 1 = .ok ⟨.fin S, d, 1, true⟩ ∧
      e.run env c (X * Tᵀ) (some (T * init * Tᴴ)) tol 1 = .ok ⟨.fin (T * S * Tᴴ), d', 1, true⟩ := by
  have one : ∀ (Y : Matrix (Fin N) (Fin p) ℂ) (J : Matrix (Fin p) (Fin p) ℂ), e.Valid Y → J.PosDef →
      ∃ d, e.run env c Y (some J) tol 1 = .ok ⟨.fin (mStep (e.weight c p) Y J), d, 1, true⟩ := by
    intro Y J hY hJ
    have hst := (e.isMStep (X := Y) hs hc hp hY).1 J hJ
    have hl : fpLoop (e.step env c Y) tol 1 ⟨.fin J, .inf, 0⟩ =
        .ok ⟨.fin (mStep (e.weight c p) Y J), relErr (.fin (mStep (e.weight c p) Y J)) (.fin J), 1⟩ := by
      rw [fpLoop, if_pos ⟨trivial, by simp⟩]
      simp only [stepSig, hst]
      rw [fpLoop, if_neg (by simp)]
    refine ⟨relErr (.fin (mStep (e.weight c p) Y J)) (.fin J), ?_⟩
    rw [e.run_eq env c Y hY, Option.getD_some]
    unfold runLoop
    rw [hl, hne]
    change Except.ok _ = Except.ok _
    simp only [C30_none "None" (by decide +kernel)]
    rfl
  have hv' : e.Valid (X * Tᵀ) := by
    cases e with
    | tyler _ => exact nonzero_mul X hv T hT
    | student _ => exact hv
    | huber _ => exact hv
  have hJ := posDef_congr hT hi
  have heq := mStep_equivariant (e.weight c p) X T hT init
  obtain ⟨d, h1⟩ := one X init hv hi
  obtain ⟨d', h2⟩ := one (X * Tᵀ) (T * init * Tᴴ) hv' hJ
  rw [heq] at h2
  exact ⟨_, d, d', h1, h2⟩

/-- 'element' normalisation depends on the basis: with `iter_max = 0`, initial point
`diag(1, 2)` and the swap of the two features, the outputs are not rotations of each other. -/
theorem C36_element_depends_on_basis (env : NumEnv 2 2 ℝ) (X : Matrix (Fin 2) (Fin 2) ℝ) :
    let U : Matrix (Fin 2) (Fin 2) ℝ := !![0, 1; 1, 0]
    Uᵀ * U = 1 ∧
    tylerFixedPoint env X (some !![1, 0; 0, 2]) 1 0 "element" =
      .ok ⟨.fin !![1, 0; 0, 2], .inf, 0, true⟩ ∧
    tylerFixedPoint env (X * Uᵀ) (some (U * !![1, 0; 0, 2] * Uᵀ)) 1 0 "element" =
      .ok ⟨.fin !![1, 0; 0, 1 / 2], .inf, 0, true⟩ ∧
    (!![1, 0; 0, 1 / 2] : Matrix (Fin 2) (Fin 2) ℝ) ≠ U * !![1, 0; 0, 2] * Uᵀ := by
  have e1 : ("element" = "trace") = False := by decide +kernel
  have e2 : ("element" = "determinant") = False := by decide +kernel
  have hU : (!![0, 1; 1, 0] : Matrix (Fin 2) (Fin 2) ℝ) * !![1, 0; 0, 2] *
      (!![0, 1; 1, 0] : Matrix (Fin 2) (Fin 2) ℝ)ᵀ = !![2, 0; 0, 1] := by
    ext i j; fin_cases i <;> fin_cases j <;> simp [Matrix.mul_apply, Fin.sum_univ_two]
  have hl : ∀ (Y : Matrix (Fin 2) (Fin 2) ℝ) (J : Matrix (Fin 2) (Fin 2) ℝ),
      runLoop (fun s => .ok (tylerStep env Y s)) 1 0 J = .ok ⟨.fin J, .inf, 0, true⟩ := by
    intro Y J
    unfold runLoop
    rw [fpLoop, if_neg (by simp)]
    rfl
  refine ⟨?_, ?_, ?_, ?_⟩
  · ext i j; fin_cases i <;> fin_cases j <;> simp [Matrix.mul_apply, Fin.sum_univ_two]
  · unfold tylerFixedPoint
    simp only [Option.getD_some, hl]
    change Except.ok _ = Except.ok _
    simp [FMat.normalise, normFn, e1, e2]
  · rw [hU]
    unfold tylerFixedPoint
    simp only [Option.getD_some, hl]
    change Except.ok _ = Except.ok _
    simp only [FMat.normalise, normFn, e1, e2]
    simp
  · rw [hU]
    intro h
    have := congrFun (congrFun h 0) 0
    simp at this

/-! ## C37 -/

theorem spans_perm {𝕜 : Type} [RCLike 𝕜] {X : Matrix (Fin N) (Fin p) 𝕜} (π : Equiv.Perm (Fin N)) :
    secondMoment (X.submatrix π id) = secondMoment X := by
  unfold secondMoment
  congr 1
  exact Equiv.sum_comp π (fun i => vecMulVec (sample X i) (star (sample X i)))

theorem C37_real (e : RealEst) (env : NumEnv N p ℝ) (hs : env.eigh.Ok) (c : Chi2) (hc : c.Ok)
    (X : Matrix (Fin N) (Fin p) ℝ) (hp : 0 < p) (hX : Spans X) (hv : e.Valid X)
    (π : Equiv.Perm (Fin N)) (init : Option (Matrix (Fin p) (Fin p) ℝ))
    (hi : ∀ S ∈ init, S.PosDef) (tol : ℝ) (iterMax : ℤ) :
    e.run env c (of fun i j => X (π i) j) init tol iterMax = e.run env c X init tol iterMax := by
  change e.run env c (X.submatrix π id) init tol iterMax = _
  have hv' : e.Valid (X.submatrix π id) := by
    cases e with
    | tyler _ => exact fun i => hv (π i)
    | student _ => exact hv
    | huber _ => exact hv
  obtain ⟨h1, h2⟩ := e.isMStep hs hc hp hv
  obtain ⟨h1', -⟩ := e.isMStep (X := X.submatrix π id) hs hc hp hv'
  obtain ⟨s, dl, it, wn, hsP, hr1, hr2⟩ := runLoop_transfer h1 hX h2 h1' id
    (fun S hS => hS) (fun S _ => mStep_perm _ X π S) (fun a b => rfl) tol iterMax
    (getD_posDef hX hi)
  simp only [id] at hr2
  rw [e.run_eq env c X hv, e.run_eq env c _ hv', spans_perm, hr1, hr2]

theorem C37_complex (e : ComplexEst) (env : NumEnv N p ℂ) (hs : env.eigh.Ok) (c : Chi2) (hc : c.Ok)
    (X : Matrix (Fin N) (Fin p) ℂ) (hp : 0 < p) (hX : Spans X) (hv : e.Valid X)
    (π : Equiv.Perm (Fin N)) (init : Option (Matrix (Fin p) (Fin p) ℂ))
    (hi : ∀ S ∈ init, S.PosDef) (tol : ℝ) (iterMax : ℤ) :
    e.run env c (of fun i j => X (π i) j) init tol iterMax = e.run env c X init tol iterMax := by
  change e.run env c (X.submatrix π id) init tol iterMax = _
  have hv' : e.Valid (X.submatrix π id) := by
    cases e with
    | tyler _ => exact fun i => hv (π i)
    | student _ => exact hv
    | huber _ => exact hv
  obtain ⟨h1, h2⟩ := e.isMStep hs hc hp hv
  obtain ⟨h1', -⟩ := e.isMStep (X := X.submatrix π id) hs hc hp hv'
  obtain ⟨s, dl, it, wn, hsP, hr1, hr2⟩ := runLoop_transfer h1 hX h2 h1' id
    (fun S hS => hS) (fun S _ => mStep_perm _ X π S) (fun a b => rfl) tol iterMax
    (getD_posDef hX hi)
  simp only [id] at hr2
  rw [e.run_eq env c X hv, e.run_eq env c _ hv', spans_perm, hr1, hr2]

/-! ## C47 -/

/-- A result for real data seen as a result for complex data. -/
noncomputable def FPOut.toC (o : FPOut p ℝ) : FPOut p ℂ :=
  ⟨o.sigma.toC, o.delta, o.iteration, o.warned⟩

/-- Tyler: on real data the complex function returns what the real one returns. -/
theorem C47_tyler (env : NumEnv N p ℝ) (hs : env.eigh.Ok) (env' : NumEnv N p ℂ)
    (hs' : env'.eigh.Ok) (X : Matrix (Fin N) (Fin p) ℝ) (hp : 0 < p) (hX : Spans X)
    (hn : NonzeroSamples X) (init : Option (Matrix (Fin p) (Fin p) ℝ))
    (hi : ∀ S ∈ init, S.PosDef) (tol : ℝ) (iterMax : ℤ) (name : String) :
    complexTylerFixedPoint env' (X.map Complex.ofReal) (init.map (·.map Complex.ofReal)) tol
      iterMax name = (tylerFixedPoint env X init tol iterMax name).map FPOut.toC := by
  obtain ⟨s, dl, it, wn, hsP, hr1, hr2⟩ := runLoop_transfer (tylerStep_isMStep hs hn) hX
    (fun S hS i => wTyler_pos hn hS i) (complexTylerStep_isMStep hs' (nonzero_toC hn)) toC
    (fun S hS => toC_posDef hS) (fun S hS => mStep_toC _ X hS) relErr_toC tol iterMax
    (getD_posDef hX hi)
  have hin : (init.map (·.map Complex.ofReal)).getD (complexEmpiricalCovariance (toC X) true) =
      toC (init.getD (secondMoment X)) := by
    cases init with
    | none => rw [complexEmpiricalCovariance_eq, ← secondMoment_eq, secondMoment_toC]; rfl
    | some S => rfl
  unfold complexTylerFixedPoint tylerFixedPoint
  rw [empiricalCovariance_eq, ← secondMoment_eq, hin]
  simp only [hr1, hr2]
  change Except.ok _ = Except.ok _
  rw [normalise_toC name hp]
  rfl

/-- Student: the complex function with `df` does what the real one does with `2*df`. -/
theorem C47_student (env : NumEnv N p ℝ) (hs : env.eigh.Ok) (env' : NumEnv N p ℂ)
    (hs' : env'.eigh.Ok) (X : Matrix (Fin N) (Fin p) ℝ) (hX : Spans X)
    (df : ℝ) (hdf : 0 < df) (init : Option (Matrix (Fin p) (Fin p) ℝ))
    (hi : ∀ S ∈ init, S.PosDef) (tol : ℝ) (iterMax : ℤ) :
    complexStudentFixedPoint env' (X.map Complex.ofReal) df (init.map (·.map Complex.ofReal)) tol
      iterMax = (studentFixedPoint env X (2 * df) init tol iterMax).map FPOut.toC := by
  have h2 : 0 < 2 * df := by linarith
  have hst := studentStep_isMStep hs h2 X
  rw [show 2 * df / 2 = df by ring] at hst
  obtain ⟨s, dl, it, wn, hsP, hr1, hr2⟩ := runLoop_transfer hst hX
    (fun S hS i => wStudent_pos X hdf hS i) (complexStudentStep_isMStep hs' hdf (toC X)) toC
    (fun S hS => toC_posDef hS) (fun S hS => mStep_toC _ X hS) relErr_toC tol iterMax
    (getD_posDef hX hi)
  have hin : (init.map (·.map Complex.ofReal)).getD (complexEmpiricalCovariance (toC X) true) =
      toC (init.getD (secondMoment X)) := by
    cases init with
    | none => rw [complexEmpiricalCovariance_eq, ← secondMoment_eq, secondMoment_toC]; rfl
    | some S => rfl
  unfold complexStudentFixedPoint studentFixedPoint
  rw [if_neg (not_le.2 hdf), if_neg (not_le.2 h2), empiricalCovariance_eq, ← secondMoment_eq, hin]
  simp only [hr1, hr2]
  rfl

/-- Huber: with the same threshold and tuning parameter the loop bodies agree (the two functions
derive these from `q` with different chi-square laws). -/
theorem C47_huber_step (env : NumEnv N p ℝ) (hs : env.eigh.Ok) (env' : NumEnv N p ℂ)
    (hs' : env'.eigh.Ok) (X : Matrix (Fin N) (Fin p) ℝ) (lbda beta : ℝ) (hl : 0 < lbda)
    (hb : 0 < beta) (S : Matrix (Fin p) (Fin p) ℝ) (hS : S.PosDef) :
    ∃ M, huberStep env (.fin lbda beta) X S = .ok (.fin M) ∧
      complexHuberStep env' (.fin lbda beta) (X.map Complex.ofReal) (S.map Complex.ofReal) =
        .ok (.fin (M.map Complex.ofReal)) := by
  refine ⟨_, huberStep_isMStep hs hl hb X S hS, ?_⟩
  rw [complexHuberStep_isMStep hs' hl hb (toC X) (toC S) (toC_posDef hS), mStep_toC _ X hS]

/-! ## The hypotheses can be met -/

/-- C35: four samples, one of them reversed and three rescaled. -/
example (env : NumEnv 4 2 ℝ) (hs : env.eigh.Ok) (tol : ℝ) (iterMax : ℤ) :
    tylerFixedPoint env (of fun i j => ![-1, 2, 3, 1 / 2] i * demoX ℝ i j) (some (demoS ℝ)) tol
      iterMax "trace" = tylerFixedPoint env (demoX ℝ) (some (demoS ℝ)) tol iterMax "trace" :=
  C35_real env hs _ demoX_spans demoX_nonzero ![-1, 2, 3, 1 / 2]
    (by intro i; fin_cases i <;> norm_num) _ demoS_posDef tol iterMax "trace"

/-- C36: a quarter turn of the plane. -/
example (env : NumEnv 4 2 ℝ) (hs : env.eigh.Ok) (c : Chi2) (hc : c.Ok) (tol : ℝ) (iterMax : ℤ) :
    ∃ S delta iteration warned,
      (RealEst.student 3).run env c (demoX ℝ) (some (demoS ℝ)) tol iterMax =
        .ok ⟨.fin S, delta, iteration, warned⟩ ∧
      (RealEst.student 3).run env c (demoX ℝ * (demoU ℝ)ᵀ)
        (some (demoU ℝ * demoS ℝ * (demoU ℝ)ᵀ)) tol iterMax =
        .ok ⟨.fin (demoU ℝ * S * (demoU ℝ)ᵀ), delta, iteration, warned⟩ :=
  C36_real (.student 3) (by decide +kernel) env hs c hc _ two_pos demoX_spans
    (by norm_num [RealEst.Valid]) _ demoU_orthogonal (some (demoS ℝ))
    (by rintro S ⟨⟩; exact demoS_posDef) tol iterMax

/-- C37: the first two samples exchanged. -/
example (env : NumEnv 4 2 ℂ) (hs : env.eigh.Ok) (c : Chi2) (hc : c.Ok) (tol : ℝ) (iterMax : ℤ) :
    (ComplexEst.huber (9 / 10)).run env c (of fun i j => demoX ℂ (Equiv.swap 0 1 i) j) none tol
      iterMax = (ComplexEst.huber (9 / 10)).run env c (demoX ℂ) none tol iterMax :=
  C37_complex (.huber (9 / 10)) env hs c hc _ two_pos demoX_spans
    (by norm_num [ComplexEst.Valid]) (Equiv.swap 0 1) none (by simp) tol iterMax

/-- C47: real samples given to the complex estimators. -/
example (env : NumEnv 4 2 ℝ) (hs : env.eigh.Ok) (env' : NumEnv 4 2 ℂ) (hs' : env'.eigh.Ok)
    (tol : ℝ) (iterMax : ℤ) :
    complexStudentFixedPoint env' ((demoX ℝ).map Complex.ofReal) 2
      (some ((demoS ℝ).map Complex.ofReal)) tol iterMax =
      (studentFixedPoint env (demoX ℝ) (2 * 2) (some (demoS ℝ)) tol iterMax).map FPOut.toC :=
  C47_student env hs env' hs' _ demoX_spans 2 two_pos (some (demoS ℝ))
    (by rintro S ⟨⟩; exact demoS_posDef) tol iterMax

end
end RS
