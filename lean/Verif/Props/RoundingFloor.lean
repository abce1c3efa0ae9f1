import Verif.Props.Rounding

/-
What rounding errors forbid (C159).
-/
set_option autoImplicit false

namespace RS
open Matrix ComplexOrder

section
variable {N p : ℕ}

/-! ## Specification -/

/-- Some rounding errors within `u`, in the stored matrices only, keep the calls from ever reaching a
tolerance below `u / 2`: they use up all their iterations and warn. -/
def HasFloor {𝕜 : Type} [RCLike 𝕜] (call : Rounding p 𝕜 → ℝ → ℤ → Py (FPOut p 𝕜)) (u : ℝ) : Prop :=
  ∃ fl : Rounding p 𝕜, fl.Within u ∧ fl.err = (fun _ d => d) ∧ ∀ (tol : ℝ) (iterMax : ℤ),
    tol < u / 2 → 0 ≤ iterMax → ∃ result delta iteration,
      call fl tol iterMax = .ok ⟨.fin result, delta, iteration, true⟩ ∧ result.PosDef ∧
      (iteration : ℤ) = iterMax ∧ ∀ d, delta = .fin d → u / 2 ≤ d

/-! ## C159 -/

/-- One of the two matrices `(1 ± u) F` is at a distance of at least `u / 2` from `A`, relative to
`A`. -/
theorem exists_far {𝕜 : Type} [RCLike 𝕜] (A F : Matrix (Fin p) (Fin p) 𝕜) {u : ℝ} (hu : 0 ≤ u)
    (hu1 : u ≤ 1 / 2) :
    ∃ s : ℝ, (s = u ∨ s = -u) ∧ u / 2 * frob A ≤ frob (((1 + s : ℝ) : 𝕜) • F - A) := by
  by_contra hcon
  push Not at hcon
  have h1 := hcon u (Or.inl rfl)
  have h2 := hcon (-u) (Or.inr rfl)
  have e1 : ((2 * u : ℝ) : 𝕜) • F =
      (((1 + u : ℝ) : 𝕜) • F - A) - (((1 + -u : ℝ) : 𝕜) • F - A) := by
    rw [sub_sub_sub_cancel_right, ← sub_smul, ← RCLike.ofReal_sub]
    congr 2
    ring
  have e2 : ((2 : ℝ) : 𝕜) • A =
      ((2 : ℝ) : 𝕜) • F - ((((1 + u : ℝ) : 𝕜) • F - A) + (((1 + -u : ℝ) : 𝕜) • F - A)) := by
    have : ((2 : ℝ) : 𝕜) • F = ((1 + u : ℝ) : 𝕜) • F + ((1 + -u : ℝ) : 𝕜) • F := by
      rw [← add_smul, ← RCLike.ofReal_add]
      congr 2
      ring
    rw [this, show ((2 : ℝ) : 𝕜) • A = A + A by
      rw [← two_smul 𝕜 A]
      congr 1
      exact RCLike.ofReal_ofNat 2]
    abel
  have h3 : 2 * u * frob F ≤ frob (((1 + u : ℝ) : 𝕜) • F - A) + frob (((1 + -u : ℝ) : 𝕜) • F - A) := by
    have := frob_smul (𝕜 := 𝕜) (2 * u) F
    rw [abs_of_nonneg (by linarith)] at this
    rw [← this, e1]
    exact frob_sub_le _ _
  have h4 : 2 * frob A ≤ frob (((2 : ℝ) : 𝕜) • F) + (frob (((1 + u : ℝ) : 𝕜) • F - A) +
      frob (((1 + -u : ℝ) : 𝕜) • F - A)) := by
    have := frob_smul (𝕜 := 𝕜) 2 A
    rw [abs_of_nonneg (by norm_num)] at this
    rw [← this, e2]
    exact (frob_sub_le _ _).trans (add_le_add le_rfl (frob_add_le _ _))
  have h5 : frob (((2 : ℝ) : 𝕜) • F) = 2 * frob F := by
    rw [frob_smul, abs_of_nonneg (by norm_num)]
  rw [h5] at h4
  have hA := frob_nonneg A
  have hF := frob_nonneg F
  rcases hu.eq_or_lt with rfl | hu0
  · rw [zero_div, zero_mul] at h1
    exact absurd h1 (not_lt.2 (frob_nonneg _))
  · have h6 : 2 * frob F < frob A := by
      have : u * (2 * frob F) < u * frob A := by linarith
      exact lt_of_mul_lt_mul_left this hu
    nlinarith

theorem mStep_floor {𝕜 : Type} [RCLike 𝕜] {w : ℝ → ℝ} (hp : 0 < p)
    {X : Matrix (Fin N) (Fin p) 𝕜} (hX : Spans X) (hw : PosWeights w X)
    {init : Option (Matrix (Fin p) (Fin p) 𝕜)} (hi : ∀ A ∈ init, A.PosDef)
    {step : Matrix (Fin p) (Fin p) 𝕜 → Py (FMat p 𝕜)} (hstep : IsMStep step w X)
    {call : Rounding p 𝕜 → ℝ → ℤ → Py (FPOut p 𝕜)} {post : FMat p 𝕜 → FMat p 𝕜}
    (hpost : ∀ A : Matrix (Fin p) (Fin p) 𝕜, A.PosDef → ∃ T, post (.fin A) = .fin T ∧ T.PosDef)
    (hcall : ∀ fl tol iterMax out,
      flRunLoop fl step tol iterMax (init.getD (fl.start (secondMoment X))) = .ok out →
        call fl tol iterMax = .ok { out with sigma := post out.sigma })
    {u : ℝ} (hu : 0 ≤ u) (hu1 : u ≤ 1 / 2) : HasFloor call u := by
  choose s hs hfar using fun A : Matrix (Fin p) (Fin p) 𝕜 => exists_far A (mStep w X A) hu hu1
  obtain ⟨A, hA0, hAs⟩ : ∃ A : ℕ → Matrix (Fin p) (Fin p) 𝕜,
      A 0 = init.getD (secondMoment X) ∧
      ∀ k, A (k + 1) = ((1 + s (A k) : ℝ) : 𝕜) • mStep w X (A k) :=
    ⟨Nat.rec (init.getD (secondMoment X))
      (fun _ M => ((1 + s M : ℝ) : 𝕜) • mStep w X M), rfl, fun _ => rfl⟩
  have hs1 : ∀ M, 0 < 1 + s M := fun M => by
    rcases hs M with h | h <;> rw [h] <;> linarith
  have hP : ∀ k, (A k).PosDef := by
    intro k
    induction k with
    | zero => rw [hA0]; exact getD_posDef hX hi
    | succ k ih =>
      rw [hAs]
      exact (mStep_posDef w X hX _ (hw _ ih)).smul (by exact_mod_cast hs1 _)
  have hpos : ∀ k, 0 < frob (A k) := fun k => frob_pos hp (hP k)
  obtain ⟨fl, hfl⟩ : ∃ fl : Rounding p 𝕜,
      fl = ⟨id, fun n M => ((1 + s (A n) : ℝ) : 𝕜) • M, fun _ d => d⟩ := ⟨_, rfl⟩
  refine ⟨fl, ⟨fun M h => ?_, fun M _ => ?_, fun n M h => ?_, fun n M _ => ?_, fun n d h => ?_,
    fun n d h => ?_⟩, by rw [hfl], fun tol iterMax ht hm => ?_⟩
  · rw [hfl]; exact h
  · rw [hfl, frobDist_eq, frobDist_eq]
    simp only [id, sub_self]
    rw [(frob_eq_zero _).2 rfl]
    exact mul_nonneg hu (frob_nonneg _)
  · rw [hfl]
    exact h.smul (RCLike.conj_ofReal _)
  · rw [hfl, frobDist_eq, frobDist_eq, sub_zero]
    have e : ((1 + s (A n) : ℝ) : 𝕜) • M - M = ((s (A n) : ℝ) : 𝕜) • M := by
      rw [RCLike.ofReal_add, RCLike.ofReal_one, add_smul, one_smul, add_sub_cancel_left]
    show frob (((1 + s (A n) : ℝ) : 𝕜) • M - M) ≤ _
    rw [e, frob_smul]
    refine le_of_eq ?_
    rcases hs (A n) with h | h <;> rw [h]
    · rw [abs_of_nonneg hu]
    · rw [abs_neg, abs_of_nonneg hu]
  · rw [hfl]; exact h
  · rw [hfl]
    simp only [sub_self, abs_zero]
    exact mul_nonneg hu (by linarith)
  · obtain ⟨d, hd⟩ : ∃ d : ℕ → ℝ, d = fun k => frob (A (k + 1) - A k) / frob (A k) := ⟨_, rfl⟩
    have hdu : ∀ k, u / 2 ≤ d k := fun k => by
      rw [hd]
      simp only
      rw [le_div_iff₀ (hpos k), hAs]
      exact hfar (A k)
    obtain ⟨k, k1, -, k3, k4⟩ := flRunLoop_run (fl := fl) (step := step) (A := A) (d := d)
      (fun k => ⟨_, hstep _ (hP k), by rw [hfl, hAs]⟩)
      (fun k => by rw [hfl, hd]; simp only [relErr, if_neg (hpos k).ne', Rounding.delta]) tol iterMax
    have hgt : (seqDelta d k).gt tol := by
      cases k with
      | zero => trivial
      | succ j => exact ht.trans_le (hdu j)
    have hk : (k : ℤ) = iterMax := by
      rcases Nat.eq_zero_or_pos k with h0 | h0
      · by_contra hcon
        exact k3 (by omega) hgt
      · have := k4 h0
        by_contra hcon
        exact k3 (by omega) hgt
    obtain ⟨T, hT, hTP⟩ := hpost (A k) (hP k)
    have := hcall fl tol iterMax _ (by
      have e : init.getD (fl.start (secondMoment X)) = A 0 := by rw [hA0, hfl]; rfl
      rw [e]; exact k1)
    rw [decide_eq_true hk] at this
    simp only [hT] at this
    refine ⟨T, _, k, this, hTP, hk, fun x hx => ?_⟩
    cases k with
    | zero => simp only [seqDelta] at hx; cases hx
    | succ j =>
      simp only [seqDelta, Delta.fin.injEq] at hx
      rw [← hx]; exact hdu j

/-- The Student-t estimator on real data that span the space: whatever the size `u ≤ 1 / 2` of the rounding
errors, some keep it from reaching any tolerance below `u / 2`. -/
theorem C159_student_real (env : NumEnv N p ℝ) (hs : env.eigh.Ok) (X : Matrix (Fin N) (Fin p) ℝ)
    (hp : 0 < p) (hX : Spans X) (df : ℝ) (hdf : 0 < df)
    (init : Option (Matrix (Fin p) (Fin p) ℝ)) (hi : ∀ A ∈ init, A.PosDef) (u : ℝ) (hu : 0 ≤ u)
    (hu1 : u ≤ 1 / 2) :
    HasFloor (fun fl tol iterMax => studentFixedPointFl env fl X df init tol iterMax) u := by
  refine mStep_floor (post := id) hp hX (fun S hS i => wStudent_pos X (half_pos hdf) hS i) hi
    (studentStep_isMStep hs hdf X) (fun A hA => ⟨A, rfl, hA⟩) (fun fl tol iterMax out h => ?_) hu hu1
  rw [secondMoment_eq, ← empiricalCovariance_eq] at h
  simp only [studentFixedPointFl, if_neg (not_le.2 hdf)]
  exact h

/-- Complex data. -/
theorem C159_student_complex (env : NumEnv N p ℂ) (hs : env.eigh.Ok) (X : Matrix (Fin N) (Fin p) ℂ)
    (hp : 0 < p) (hX : Spans X) (df : ℝ) (hdf : 0 < df)
    (init : Option (Matrix (Fin p) (Fin p) ℂ)) (hi : ∀ A ∈ init, A.PosDef) (u : ℝ) (hu : 0 ≤ u)
    (hu1 : u ≤ 1 / 2) :
    HasFloor (fun fl tol iterMax => complexStudentFixedPointFl env fl X df init tol iterMax) u := by
  refine mStep_floor (post := id) hp hX (fun S hS i => wStudent_pos X hdf hS i) hi
    (complexStudentStep_isMStep hs hdf X) (fun A hA => ⟨A, rfl, hA⟩) (fun fl tol iterMax out h => ?_)
    hu hu1
  rw [secondMoment_eq, ← complexEmpiricalCovariance_eq] at h
  simp only [complexStudentFixedPointFl, if_neg (not_le.2 hdf)]
  exact h

/-- Tyler's estimator on real data, without a zero sample, that span the space, with any
normalisation. -/
theorem C159_tyler_real (env : NumEnv N p ℝ) (hs : env.eigh.Ok) (X : Matrix (Fin N) (Fin p) ℝ)
    (hp : 0 < p) (hX : Spans X) (hn : NonzeroSamples X) (name : String)
    (init : Option (Matrix (Fin p) (Fin p) ℝ)) (hi : ∀ A ∈ init, A.PosDef) (u : ℝ) (hu : 0 ≤ u)
    (hu1 : u ≤ 1 / 2) :
    HasFloor (fun fl tol iterMax => tylerFixedPointFl env fl X init tol iterMax name) u := by
  refine mStep_floor (post := FMat.normalise name) hp hX (fun S hS i => wTyler_pos hn hS i) hi
    (tylerStep_isMStep hs hn) (C31_posDef name hp) (fun fl tol iterMax out h => ?_) hu hu1
  rw [secondMoment_eq, ← empiricalCovariance_eq] at h
  simp only [tylerFixedPointFl, h]
  rfl

/-- Complex data. -/
theorem C159_tyler_complex (env : NumEnv N p ℂ) (hs : env.eigh.Ok) (X : Matrix (Fin N) (Fin p) ℂ)
    (hp : 0 < p) (hX : Spans X) (hn : NonzeroSamples X) (name : String)
    (init : Option (Matrix (Fin p) (Fin p) ℂ)) (hi : ∀ A ∈ init, A.PosDef) (u : ℝ) (hu : 0 ≤ u)
    (hu1 : u ≤ 1 / 2) :
    HasFloor (fun fl tol iterMax => complexTylerFixedPointFl env fl X init tol iterMax name) u := by
  refine mStep_floor (post := FMat.normalise name) hp hX (fun S hS i => wTyler_pos hn hS i) hi
    (complexTylerStep_isMStep hs hn) (C31_posDef name hp) (fun fl tol iterMax out h => ?_) hu hu1
  rw [secondMoment_eq, ← complexEmpiricalCovariance_eq] at h
  simp only [complexTylerFixedPointFl, h]
  rfl

/-! ## Example -/

/-- Three directions in the plane: with single precision, say errors of `1e-7`, the tolerance `1e-8` may
never be reached, although the exact iteration reaches every positive tolerance. -/
example (env : NumEnv 3 2 ℝ) (hs : env.eigh.Ok) :
    ∃ fl : Rounding 2 ℝ, fl.Within (1 / 10000000) ∧ ∀ iterMax : ℤ, 0 ≤ iterMax →
      ∃ result delta iteration,
        studentFixedPointFl env fl (mercedes ℝ) 3 none (1 / 100000000) iterMax =
          .ok ⟨.fin result, delta, iteration, true⟩ := by
  obtain ⟨fl, h1, -, h2⟩ := C159_student_real env hs (mercedes ℝ) two_pos
    (student_spans (nu := 3 / 2) (mercedes ℝ)
      (generalPosition_student mercedes_generalPosition (by norm_num) (by norm_num))) 3 (by norm_num) none (by simp) (1 / 10000000) (by norm_num) (by norm_num)
  refine ⟨fl, h1, fun iterMax hm => ?_⟩
  obtain ⟨result, delta, iteration, h, -⟩ := h2 (1 / 100000000) iterMax (by norm_num) hm
  exact ⟨result, delta, iteration, h⟩

end
end RS
