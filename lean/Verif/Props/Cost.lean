import Verif.Lemmas.Cost
import Verif.Lemmas.RealEmbed
import Verif.Model.Cost
import Verif.Props.CovRun

/-
Costs and likelihoods: monotone iterations (C38, C39), optimality of fixed points (C40),
identities of Tyler's cost (C49).
-/
set_option autoImplicit false

namespace RS
open Matrix ComplexOrder

section
variable {N p : ℕ}

/-! ## The cost functions compute the formula -/

theorem tylerCostReal_eq {eigh : Eigh (Fin p) ℝ} (hs : eigh.Ok) {X : Matrix (Fin N) (Fin p) ℝ}
    (hX : NonzeroSamples X) {S : Matrix (Fin p) (Fin p) ℝ} (hS : S.PosDef) :
    tylerCostReal eigh X S = .ok (.fin (tylerCost X S)) := by
  have hq : ∀ i, ∑ j, (invsqrtm eigh S * Xᵀ)ᵀ i j * (invsqrtm eigh S * Xᵀ) j i =
      qf S (sample X i) := fun i => tauReal_eq hs X hS i
  have hsub : Xᵀ.submatrix (Fin.cast (rfl : p = p)) id = Xᵀ := rfl
  simp only [tylerCostReal, ne_eq, not_true_eq_false, dite_false, hsub, hq]
  rw [if_pos ⟨fun i => (hs S hS.1).vals_pos hS i, fun i => qf_pos hS (hX i), hS.det_pos⟩]
  rfl

theorem tylerCostComplex_eq {eigh : Eigh (Fin p) ℂ} (hs : eigh.Ok) {X : Matrix (Fin N) (Fin p) ℂ}
    (hX : NonzeroSamples X) {S : Matrix (Fin p) (Fin p) ℂ} (hS : S.PosDef) :
    tylerCostComplex eigh X S = .ok (.fin (tylerCost X S)) := by
  have hq : ∀ i, (∑ j, (invsqrtm eigh S * Xᵀ)ᵀ.map star i j * (invsqrtm eigh S * Xᵀ) j i).re =
      qf S (sample X i) := fun i => tauComplex_eq hs X hS i
  have hsub : Xᵀ.submatrix (Fin.cast (rfl : p = p)) id = Xᵀ := rfl
  simp only [tylerCostComplex, ne_eq, not_true_eq_false, dite_false, hsub, hq]
  rw [if_pos ⟨fun i => (hs S hS.1).vals_pos hS i, fun i => qf_pos hS (hX i), (posDef_det_pos hS).1⟩]
  rfl

/-! ## C38 -/

section Mono
variable {𝕜 : Type} [RCLike 𝕜]

theorem nat_pos_of_spans {X : Matrix (Fin N) (Fin p) 𝕜} (hp : 0 < p) (hX : Spans X) : 0 < N := by
  by_contra h
  have h0 : N = 0 := by omega
  subst h0
  have := hX (fun _ => 1) (fun i => i.elim0)
  exact one_ne_zero (congrFun this ⟨0, hp⟩)

theorem mIter_posDef {w : ℝ → ℝ} {X : Matrix (Fin N) (Fin p) 𝕜} (hX : Spans X)
    (hw : PosWeights w X) {init : Matrix (Fin p) (Fin p) 𝕜} (hi : init.PosDef) (k : ℕ) :
    (mIter w X init k).PosDef := by
  induction k with
  | zero => exact hi
  | succ k ih => exact mStep_posDef w X hX _ (hw _ ih)

theorem tyler_mono {X : Matrix (Fin N) (Fin p) 𝕜} (hX : Spans X)
    (hn : NonzeroSamples X) {S : Matrix (Fin p) (Fin p) 𝕜} (hS : S.PosDef) :
    tylerCost X (mStep (wTyler p) X S) ≤ tylerCost X S := by
  have hS' : (mStep (wTyler p) X S).PosDef := mStep_posDef _ X hX S fun i => wTyler_pos hn hS i
  have := mm_step (fun t => p * Real.log t) (wTyler p) X S hS hS' (fun i => by
    have ha := qf_pos hS (hn i)
    have hb := qf_pos hS' (hn i)
    have h1 := mul_le_mul_of_nonneg_left (log_tangent ha hb) (Nat.cast_nonneg (α := ℝ) p)
    simp only [wTyler]
    calc _ ≤ _ := h1
      _ = _ := by ring)
  unfold tylerCost
  rw [Finset.mul_sum, Finset.mul_sum]
  exact this

theorem tyler_trace {X : Matrix (Fin N) (Fin p) 𝕜} (hp : 0 < p) (hX : Spans X)
    (hn : NonzeroSamples X) {S : Matrix (Fin p) (Fin p) 𝕜} (hS : S.PosDef) :
    RCLike.re (S⁻¹ * mStep (wTyler p) X S).trace = p := by
  have h := sum_weights_qf (fun i => wTyler p (qf S (sample X i))) X S
  have hN : (N : ℝ) ≠ 0 := by exact_mod_cast (nat_pos_of_spans hp hX).ne'
  have h2 : ∑ i, wTyler p (qf S (sample X i)) * qf S (sample X i) = N * p := by
    rw [Finset.sum_congr rfl (g := fun _ => (p : ℝ))]
    · simp
    · intro i _
      unfold wTyler
      exact div_mul_cancel₀ _ (qf_pos hS (hn i)).ne'
  rw [h2] at h
  exact (mul_left_cancel₀ hN h).symm

theorem tyler_det {X : Matrix (Fin N) (Fin p) 𝕜} (hp : 0 < p) (hX : Spans X)
    (hn : NonzeroSamples X) {S : Matrix (Fin p) (Fin p) 𝕜} (hS : S.PosDef) :
    RCLike.re (mStep (wTyler p) X S).det ≤ RCLike.re S.det := by
  have hS' : (mStep (wTyler p) X S).PosDef := mStep_posDef _ X hX S fun i => wTyler_pos hn hS i
  have h := log_det_le S _ hS hS'
  rw [tyler_trace hp hX hn hS, sub_self, add_zero] at h
  exact (Real.log_le_log_iff (posDef_det_pos hS').1 (posDef_det_pos hS).1).1 h

end Mono

/-- Real data, iterate by iterate: value of `Tyler_cost_real`, determinant, trace. -/
theorem C38_iterates_real (eigh : Eigh (Fin p) ℝ) (hs : eigh.Ok) (X : Matrix (Fin N) (Fin p) ℝ)
    (hp : 0 < p) (hX : Spans X) (hn : NonzeroSamples X) (init : Matrix (Fin p) (Fin p) ℝ)
    (hi : init.PosDef) (k : ℕ) :
    ∃ c c' : ℝ, tylerCostReal eigh X (mIter (wTyler p) X init k) = .ok (.fin c) ∧
      tylerCostReal eigh X (mIter (wTyler p) X init (k + 1)) = .ok (.fin c') ∧ c' ≤ c ∧
      (mIter (wTyler p) X init (k + 1)).det ≤ (mIter (wTyler p) X init k).det ∧
      ((mIter (wTyler p) X init k)⁻¹ * mIter (wTyler p) X init (k + 1)).trace = p := by
  have hk := mIter_posDef hX (fun S hS i => wTyler_pos hn hS i) hi k
  have hk1 := mIter_posDef hX (fun S hS i => wTyler_pos hn hS i) hi (k + 1)
  exact ⟨_, _, tylerCostReal_eq hs hn hk, tylerCostReal_eq hs hn hk1, tyler_mono hX hn hk,
    tyler_det hp hX hn hk, tyler_trace hp hX hn hk⟩

/-- Complex data. -/
theorem C38_iterates_complex (eigh : Eigh (Fin p) ℂ) (hs : eigh.Ok) (X : Matrix (Fin N) (Fin p) ℂ)
    (hp : 0 < p) (hX : Spans X) (hn : NonzeroSamples X) (init : Matrix (Fin p) (Fin p) ℂ)
    (hi : init.PosDef) (k : ℕ) :
    ∃ c c' : ℝ, tylerCostComplex eigh X (mIter (wTyler p) X init k) = .ok (.fin c) ∧
      tylerCostComplex eigh X (mIter (wTyler p) X init (k + 1)) = .ok (.fin c') ∧ c' ≤ c ∧
      (mIter (wTyler p) X init (k + 1)).det.re ≤ (mIter (wTyler p) X init k).det.re ∧
      ((mIter (wTyler p) X init k)⁻¹ * mIter (wTyler p) X init (k + 1)).trace.re = p := by
  have hk := mIter_posDef hX (fun S hS i => wTyler_pos hn hS i) hi k
  have hk1 := mIter_posDef hX (fun S hS i => wTyler_pos hn hS i) hi (k + 1)
  exact ⟨_, _, tylerCostComplex_eq hs hn hk, tylerCostComplex_eq hs hn hk1, tyler_mono hX hn hk,
    tyler_det hp hX hn hk, tyler_trace hp hX hn hk⟩

theorem tylerCost_smul {𝕜 : Type} [RCLike 𝕜] {X : Matrix (Fin N) (Fin p) 𝕜}
    (hn : NonzeroSamples X) {S : Matrix (Fin p) (Fin p) 𝕜} (hS : S.PosDef) {c : ℝ} (hc : 0 < c) :
    tylerCost X ((c : 𝕜) • S) = tylerCost X S := by
  have hc0 : (c : 𝕜) ≠ 0 := by rw [Ne, RCLike.ofReal_eq_zero]; exact hc.ne'
  have hu : IsUnit S.det := (Matrix.isUnit_iff_isUnit_det S).1 hS.isUnit
  have hinv : ((c : 𝕜) • S)⁻¹ = ((c⁻¹ : ℝ) : 𝕜) • S⁻¹ := by
    apply Matrix.inv_eq_right_inv
    rw [Matrix.smul_mul, Matrix.mul_smul, Matrix.mul_nonsing_inv S hu, smul_smul,
      RCLike.ofReal_inv, mul_inv_cancel₀ hc0, one_smul]
  have hq : ∀ i, qf ((c : 𝕜) • S) (sample X i) = c⁻¹ * qf S (sample X i) := fun i => by
    unfold qf
    rw [hinv, smul_mulVec, dotProduct_smul, smul_eq_mul, RCLike.re_ofReal_mul]
  have hd : RCLike.re ((c : 𝕜) • S).det = c ^ p * RCLike.re S.det := by
    rw [det_smul, Fintype.card_fin, ← RCLike.ofReal_pow, RCLike.re_ofReal_mul]
  unfold tylerCost
  rw [hd, Real.log_mul (pow_pos hc p).ne' (posDef_det_pos hS).1.ne', Real.log_pow]
  have : ∀ i, Real.log (qf ((c : 𝕜) • S) (sample X i)) =
      -Real.log c + Real.log (qf S (sample X i)) := fun i => by
    rw [hq, Real.log_mul (inv_pos.2 hc).ne' (qf_pos hS (hn i)).ne', Real.log_inv]
  simp only [this, Finset.sum_add_distrib, Finset.sum_const, Finset.card_univ, Fintype.card_fin,
    nsmul_eq_mul]
  ring

theorem tylerCost_mIter {𝕜 : Type} [RCLike 𝕜] {X : Matrix (Fin N) (Fin p) 𝕜} (hX : Spans X)
    (hn : NonzeroSamples X) {init : Matrix (Fin p) (Fin p) 𝕜} (hi : init.PosDef) (k : ℕ) :
    tylerCost X (mIter (wTyler p) X init k) ≤ tylerCost X init := by
  induction k with
  | zero => exact le_rfl
  | succ k ih =>
    exact (tyler_mono hX hn (mIter_posDef hX (fun S hS i => wTyler_pos hn hS i) hi k)).trans ih

/-- API level: the returned shape matrix, whatever the normalisation, has a cost not larger than
the starting point. -/
theorem C38_result_real (env : NumEnv N p ℝ) (hs : env.eigh.Ok) (X : Matrix (Fin N) (Fin p) ℝ)
    (hp : 0 < p) (hX : Spans X) (hn : NonzeroSamples X) (init : Matrix (Fin p) (Fin p) ℝ)
    (hi : init.PosDef) (tol : ℝ) (iterMax : ℤ) (name : String) :
    ∃ result delta iteration warned, ∃ c c' : ℝ,
      tylerFixedPoint env X (some init) tol iterMax name =
        .ok ⟨.fin result, delta, iteration, warned⟩ ∧
      tylerCostReal env.eigh X init = .ok (.fin c) ∧
      tylerCostReal env.eigh X result = .ok (.fin c') ∧ c' ≤ c := by
  obtain ⟨sigma, result, delta, iteration, h1, h2, h3, h4⟩ := C34_real (.tyler name) env hs
    ⟨fun q _ => q, fun _ _ => 0⟩ ⟨fun _ => rfl, fun q k h _ _ => h, fun _ _ => le_rfl⟩ X hp hX hn
    (some init) (by simpa using hi) tol iterMax
  have hsP : sigma.PosDef := by rw [h2.result]; exact h2.posDef _ le_rfl
  refine ⟨result, delta, iteration, _, _, _, h1, tylerCostReal_eq hs hn hi,
    tylerCostReal_eq hs hn h4, ?_⟩
  obtain ⟨r, hr, -, h5⟩ := normalise_pos name hp hsP
  have h6 : result = ((r⁻¹ : ℝ) : ℝ) • sigma := by
    have := h3.symm.trans h5
    exact FMat.fin.inj this
  rw [h6]
  refine (tylerCost_smul (𝕜 := ℝ) hn hsP (inv_pos.2 hr)).le.trans ?_
  rw [h2.result]
  exact tylerCost_mIter hX hn hi _

theorem C38_result_complex (env : NumEnv N p ℂ) (hs : env.eigh.Ok) (X : Matrix (Fin N) (Fin p) ℂ)
    (hp : 0 < p) (hX : Spans X) (hn : NonzeroSamples X) (init : Matrix (Fin p) (Fin p) ℂ)
    (hi : init.PosDef) (tol : ℝ) (iterMax : ℤ) (name : String) :
    ∃ result delta iteration warned, ∃ c c' : ℝ,
      complexTylerFixedPoint env X (some init) tol iterMax name =
        .ok ⟨.fin result, delta, iteration, warned⟩ ∧
      tylerCostComplex env.eigh X init = .ok (.fin c) ∧
      tylerCostComplex env.eigh X result = .ok (.fin c') ∧ c' ≤ c := by
  obtain ⟨sigma, result, delta, iteration, h1, h2, h3, h4⟩ := C34_complex (.tyler name) env hs
    ⟨fun q _ => q, fun _ _ => 0⟩ ⟨fun _ => rfl, fun q k h _ _ => h, fun _ _ => le_rfl⟩ X hp hX hn
    (some init) (by simpa using hi) tol iterMax
  have hsP : sigma.PosDef := by rw [h2.result]; exact h2.posDef _ le_rfl
  refine ⟨result, delta, iteration, _, _, _, h1, tylerCostComplex_eq hs hn hi,
    tylerCostComplex_eq hs hn h4, ?_⟩
  obtain ⟨r, hr, -, h5⟩ := normalise_pos name hp hsP
  have h6 : result = ((r⁻¹ : ℝ) : ℂ) • sigma := by
    have := h3.symm.trans h5
    exact FMat.fin.inj this
  rw [h6]
  refine (tylerCost_smul (𝕜 := ℂ) hn hsP (inv_pos.2 hr)).le.trans ?_
  rw [h2.result]
  exact tylerCost_mIter hX hn hi _

/-! ## C39 -/

theorem student_mono {𝕜 : Type} [RCLike 𝕜] {X : Matrix (Fin N) (Fin p) 𝕜} (hX : Spans X) {nu : ℝ}
    (hnu : 0 < nu) {S : Matrix (Fin p) (Fin p) 𝕜} (hS : S.PosDef) :
    studentCost nu X (mStep (wStudent nu p) X S) ≤ studentCost nu X S := by
  have hS' : (mStep (wStudent nu p) X S).PosDef :=
    mStep_posDef _ X hX S fun i => wStudent_pos X hnu hS i
  have := mm_step (fun t => (nu + p) * Real.log (nu + t)) (wStudent nu p) X S hS hS' (fun i => by
    have ha : 0 < nu + qf S (sample X i) := by linarith [qf_nonneg hS (sample X i)]
    have hb : 0 < nu + qf (mStep (wStudent nu p) X S) (sample X i) := by
      linarith [qf_nonneg hS' (sample X i)]
    have h1 := mul_le_mul_of_nonneg_left (log_tangent ha hb)
      (show (0 : ℝ) ≤ nu + p by positivity)
    simp only [wStudent]
    calc _ ≤ _ := h1
      _ = _ := by ring)
  unfold studentCost
  rw [Finset.mul_sum, Finset.mul_sum]
  exact this

/-- Real data: iterate by iterate, and the result against the starting point; `nu = df/2`. -/
theorem C39_real (env : NumEnv N p ℝ) (hs : env.eigh.Ok) (X : Matrix (Fin N) (Fin p) ℝ)
    (hp : 0 < p) (hX : Spans X) (df : ℝ) (hdf : 0 < df) (init : Matrix (Fin p) (Fin p) ℝ)
    (hi : init.PosDef) (tol : ℝ) (iterMax : ℤ) :
    ∃ result delta iteration warned,
      studentFixedPoint env X df (some init) tol iterMax =
        .ok ⟨.fin result, delta, iteration, warned⟩ ∧
      result = mIter (wStudent (df / 2) p) X init iteration ∧
      (∀ k, studentCost (df / 2) X (mIter (wStudent (df / 2) p) X init (k + 1)) ≤
        studentCost (df / 2) X (mIter (wStudent (df / 2) p) X init k)) ∧
      studentCost (df / 2) X result ≤ studentCost (df / 2) X init := by
  obtain ⟨sigma, result, delta, iteration, h1, h2, h3, h4⟩ := C34_real (.student df) env hs
    ⟨fun q _ => q, fun _ _ => 0⟩ ⟨fun _ => rfl, fun q k h _ _ => h, fun _ _ => le_rfl⟩ X hp hX hdf
    (some init) (by simpa using hi) tol iterMax
  have h5 : result = sigma := by
    have := h3.symm.trans (C30_none "None" (by decide +kernel) (.fin sigma))
    exact FMat.fin.inj this
  have hm : ∀ k, studentCost (df / 2) X (mIter (wStudent (df / 2) p) X init (k + 1)) ≤
      studentCost (df / 2) X (mIter (wStudent (df / 2) p) X init k) := fun k =>
    student_mono hX (half_pos hdf)
      (mIter_posDef hX (fun S hS i => wStudent_pos X (half_pos hdf) hS i) hi k)
  have hle : ∀ k, studentCost (df / 2) X (mIter (wStudent (df / 2) p) X init k) ≤
      studentCost (df / 2) X init := by
    intro k
    induction k with
    | zero => exact le_rfl
    | succ k ih => exact (hm k).trans ih
  have h6 : result = mIter (wStudent (df / 2) p) X init iteration := by
    rw [h5, h2.result]; rfl
  exact ⟨result, delta, iteration, _, h1, h6, hm, by rw [h6]; exact hle _⟩

/-- Complex data; `nu = df`. -/
theorem C39_complex (env : NumEnv N p ℂ) (hs : env.eigh.Ok) (X : Matrix (Fin N) (Fin p) ℂ)
    (hp : 0 < p) (hX : Spans X) (df : ℝ) (hdf : 0 < df) (init : Matrix (Fin p) (Fin p) ℂ)
    (hi : init.PosDef) (tol : ℝ) (iterMax : ℤ) :
    ∃ result delta iteration warned,
      complexStudentFixedPoint env X df (some init) tol iterMax =
        .ok ⟨.fin result, delta, iteration, warned⟩ ∧
      result = mIter (wStudent df p) X init iteration ∧
      (∀ k, studentCost df X (mIter (wStudent df p) X init (k + 1)) ≤
        studentCost df X (mIter (wStudent df p) X init k)) ∧
      studentCost df X result ≤ studentCost df X init := by
  obtain ⟨sigma, result, delta, iteration, h1, h2, h3, h4⟩ := C34_complex (.student df) env hs
    ⟨fun q _ => q, fun _ _ => 0⟩ ⟨fun _ => rfl, fun q k h _ _ => h, fun _ _ => le_rfl⟩ X hp hX hdf
    (some init) (by simpa using hi) tol iterMax
  have h5 : result = sigma := by
    have := h3.symm.trans (C30_none "None" (by decide +kernel) (.fin sigma))
    exact FMat.fin.inj this
  have hm : ∀ k, studentCost df X (mIter (wStudent df p) X init (k + 1)) ≤
      studentCost df X (mIter (wStudent df p) X init k) := fun k =>
    student_mono hX hdf (mIter_posDef hX (fun S hS i => wStudent_pos X hdf hS i) hi k)
  have hle : ∀ k, studentCost df X (mIter (wStudent df p) X init k) ≤ studentCost df X init := by
    intro k
    induction k with
    | zero => exact le_rfl
    | succ k ih => exact (hm k).trans ih
  have h6 : result = mIter (wStudent df p) X init iteration := by
    rw [h5, h2.result]; rfl
  exact ⟨result, delta, iteration, _, h1, h6, hm, by rw [h6]; exact hle _⟩

/-! ## C40 -/

theorem tLogLik_eq {df : ℝ} (hdf : 0 < df) (X : Matrix (Fin N) (Fin p) ℝ) :
    ∃ K : ℝ, ∀ S : Matrix (Fin p) (Fin p) ℝ, S.PosDef →
      tLogLik df X S = K - 1 / 2 * studentCost df X S := by
  refine ⟨N * (Real.log (Real.Gamma ((df + p) / 2)) - Real.log (Real.Gamma (df / 2))
    - p / 2 * Real.log (df * Real.pi) + (df + p) / 2 * Real.log df), fun S hS => ?_⟩
  have h : ∀ i, Real.log (1 + 1 / df * qf S (sample X i)) =
      Real.log (df + qf S (sample X i)) - Real.log df := fun i => by
    have hq := qf_nonneg hS (sample X i)
    rw [← Real.log_div (by linarith) hdf.ne']
    congr 1
    field_simp
  unfold tLogLik studentCost
  simp only [h, Finset.sum_sub_distrib, Finset.sum_const, Finset.card_univ, Fintype.card_fin,
    nsmul_eq_mul, ← Finset.mul_sum, RCLike.re_to_real]
  ring

theorem complexTLogLik_eq {df : ℝ} (hdf : 0 < df) (X : Matrix (Fin N) (Fin p) ℂ) :
    ∃ K : ℝ, ∀ S : Matrix (Fin p) (Fin p) ℂ, S.PosDef →
      complexTLogLik df X S = K - studentCost (df / 2) X S := by
  refine ⟨N * (Real.log (Real.Gamma ((df + 2 * p) / 2)) - Real.log (Real.Gamma (df / 2))
    - (2 * p) / 2 * Real.log (df * Real.pi) + 1 / 2 * Real.log (4 ^ p)
    + (df + 2 * p) / 2 * Real.log (df / 2)), fun S hS => ?_⟩
  have h : ∀ i, Real.log (1 + 1 / df * (2 * qf S (sample X i))) =
      Real.log (df / 2 + qf S (sample X i)) - Real.log (df / 2) := fun i => by
    have hq := qf_nonneg hS (sample X i)
    rw [← Real.log_div (by linarith) (by linarith)]
    congr 1
    field_simp
  have hd : 0 < S.det.re := (posDef_det_pos hS).1
  have h2 : Real.log (S.det.re ^ 2 / 4 ^ p) = 2 * Real.log (RCLike.re S.det) - Real.log (4 ^ p) := by
    rw [Real.log_div (pow_ne_zero 2 hd.ne') (by positivity), Real.log_pow]
    push_cast
    rfl
  unfold complexTLogLik studentCost
  simp only [h, h2, Finset.sum_sub_distrib, Finset.sum_const, Finset.card_univ, Fintype.card_fin,
    nsmul_eq_mul, ← Finset.mul_sum]
  ring

theorem run_one_real {e : RealEst} {env : NumEnv N p ℝ} (hs : env.eigh.Ok) {c : Chi2}
    (hc : c.Ok) {X : Matrix (Fin N) (Fin p) ℝ} (hp : 0 < p) (hv : e.Valid X)
    (hnone : e.normalisation = "None")
    {S S' : Matrix (Fin p) (Fin p) ℝ} (hS : S.PosDef) {tol : ℝ} {d : Delta} {i : ℕ} {b : Bool}
    (h : e.run env c X (some S) tol 1 = .ok ⟨.fin S', d, i, b⟩) : S' = mStep (e.weight c p) X S := by
  have hst := (e.isMStep (X := X) hs hc hp hv).1 S hS
  have hl : fpLoop (e.step env c X) tol 1 ⟨.fin S, .inf, 0⟩ =
      .ok ⟨.fin (mStep (e.weight c p) X S), relErr (.fin (mStep (e.weight c p) X S)) (.fin S), 1⟩ := by
    rw [fpLoop, if_pos ⟨trivial, by simp⟩]
    simp only [stepSig, hst]
    rw [fpLoop, if_neg (by simp)]
  rw [e.run_eq env c X hv, Option.getD_some] at h
  unfold runLoop at h
  rw [hl, hnone] at h
  change Except.ok _ = Except.ok _ at h
  simp only [C30_none "None" (by decide +kernel)] at h
  have := congrArg FPOut.sigma (Except.ok.inj h)
  exact (FMat.fin.inj this).symm

theorem run_one_complex {e : ComplexEst} {env : NumEnv N p ℂ} (hs : env.eigh.Ok) {c : Chi2}
    (hc : c.Ok) {X : Matrix (Fin N) (Fin p) ℂ} (hp : 0 < p) (hv : e.Valid X)
    (hnone : e.normalisation = "None")
    {S S' : Matrix (Fin p) (Fin p) ℂ} (hS : S.PosDef) {tol : ℝ} {d : Delta} {i : ℕ} {b : Bool}
    (h : e.run env c X (some S) tol 1 = .ok ⟨.fin S', d, i, b⟩) : S' = mStep (e.weight c p) X S := by
  have hst := (e.isMStep (X := X) hs hc hp hv).1 S hS
  have hl : fpLoop (e.step env c X) tol 1 ⟨.fin S, .inf, 0⟩ =
      .ok ⟨.fin (mStep (e.weight c p) X S), relErr (.fin (mStep (e.weight c p) X S)) (.fin S), 1⟩ := by
    rw [fpLoop, if_pos ⟨trivial, by simp⟩]
    simp only [stepSig, hst]
    rw [fpLoop, if_neg (by simp)]
  rw [e.run_eq env c X hv, Option.getD_some] at h
  unfold runLoop at h
  rw [hl, hnone] at h
  change Except.ok _ = Except.ok _ at h
  simp only [C30_none "None" (by decide +kernel)] at h
  have := congrArg FPOut.sigma (Except.ok.inj h)
  exact (FMat.fin.inj this).symm

/-- A dummy chi-square law, for estimators that do not use it. -/
private def noChi2 : Chi2 := ⟨fun q _ => q, fun _ _ => 0⟩
private theorem noChi2_ok : noChi2.Ok :=
  ⟨fun _ => rfl, fun _ _ h _ _ => h, fun _ _ => le_rfl⟩

/-- What holds for real data: a positive definite matrix that one more iteration of
`student_t_mle_fixed_point(X, df)` returns unchanged maximises the likelihood of the t law with
`df/2` degrees of freedom. -/
theorem C40_real_partial (env : NumEnv N p ℝ) (hs : env.eigh.Ok) (X : Matrix (Fin N) (Fin p) ℝ)
    (hp : 0 < p) (df : ℝ) (hdf : 0 < df) (S : Matrix (Fin p) (Fin p) ℝ) (hS : S.PosDef) (tol : ℝ)
    (d : Delta) (b : Bool)
    (hfix : studentFixedPoint env X df (some S) tol 1 = .ok ⟨.fin S, d, 1, b⟩)
    (S' : Matrix (Fin p) (Fin p) ℝ) (hS' : S'.PosDef) :
    tLogLik (df / 2) X S' ≤ tLogLik (df / 2) X S := by
  have h := run_one_real (e := .student df) hs noChi2_ok hp (show (0 : ℝ) < df from hdf) rfl hS hfix
  obtain ⟨K, hK⟩ := tLogLik_eq (half_pos hdf) X
  rw [hK S hS, hK S' hS']
  have := fixed_point_minimises (half_pos hdf).le X S S' hS hS'
    (fun i => by linarith [qf_nonneg hS (sample X i), half_pos hdf]) h.symm
  linarith

/-- What holds for complex data: the likelihood of the complex t law with `2*df` degrees of
freedom is maximised. -/
theorem C40_complex_partial (env : NumEnv N p ℂ) (hs : env.eigh.Ok) (X : Matrix (Fin N) (Fin p) ℂ)
    (hp : 0 < p) (df : ℝ) (hdf : 0 < df) (S : Matrix (Fin p) (Fin p) ℂ) (hS : S.PosDef) (tol : ℝ)
    (d : Delta) (b : Bool)
    (hfix : complexStudentFixedPoint env X df (some S) tol 1 = .ok ⟨.fin S, d, 1, b⟩)
    (S' : Matrix (Fin p) (Fin p) ℂ) (hS' : S'.PosDef) :
    complexTLogLik (2 * df) X S' ≤ complexTLogLik (2 * df) X S := by
  have h := run_one_complex (e := .student df) hs noChi2_ok hp (show (0 : ℝ) < df from hdf) rfl hS
    hfix
  obtain ⟨K, hK⟩ := complexTLogLik_eq (show (0 : ℝ) < 2 * df by linarith) X
  rw [hK S hS, hK S' hS', show 2 * df / 2 = df by ring]
  have := fixed_point_minimises hdf.le X S S' hS hS'
    (fun i => by linarith [qf_nonneg hS (sample X i)]) h.symm
  linarith

/-- The two samples `1/sqrt 3` and `sqrt 3` of one feature: squares `1/3` and `3`. -/
noncomputable def twoSamples (𝕜 : Type) [RCLike 𝕜] : Matrix (Fin 2) (Fin 1) 𝕜 :=
  of fun i _ => ((![Real.sqrt (1 / 3), Real.sqrt 3] i : ℝ) : 𝕜)

theorem twoSamples_qf {𝕜 : Type} [RCLike 𝕜] {s : ℝ} (hs : 0 < s) :
    qf (diagonal fun _ : Fin 1 => (s : 𝕜)) (sample (twoSamples 𝕜) 0) = 1 / (3 * s) ∧
    qf (diagonal fun _ : Fin 1 => (s : 𝕜)) (sample (twoSamples 𝕜) 1) = 3 / s := by
  constructor
  · rw [qf_diagonal (fun _ => s) (fun _ => hs)]
    simp only [Finset.univ_unique, Finset.sum_singleton, sample, twoSamples, of_apply,
      RCLike.norm_ofReal, sq_abs]
    rw [show (![Real.sqrt (1 / 3), Real.sqrt 3] 0 : ℝ) = Real.sqrt (1 / 3) from rfl,
      Real.sq_sqrt (by norm_num)]
    field_simp
  · rw [qf_diagonal (fun _ => s) (fun _ => hs)]
    simp only [Finset.univ_unique, Finset.sum_singleton, sample, twoSamples, of_apply,
      RCLike.norm_ofReal, sq_abs]
    rw [show (![Real.sqrt (1 / 3), Real.sqrt 3] 1 : ℝ) = Real.sqrt 3 from rfl,
      Real.sq_sqrt (by norm_num)]

theorem twoSamples_fix (𝕜 : Type) [RCLike 𝕜] :
    mStep (wStudent 1 1) (twoSamples 𝕜) (1 : Matrix (Fin 1) (Fin 1) 𝕜) = 1 := by
  have hq := twoSamples_qf (𝕜 := 𝕜) one_pos
  rw [show (diagonal fun _ : Fin 1 => ((1 : ℝ) : 𝕜)) = 1 by simp] at hq
  ext a b
  have ha : a = 0 := Subsingleton.elim _ _
  have hb : b = 0 := Subsingleton.elim _ _
  subst ha; subst hb
  have e0 : (twoSamples 𝕜) 0 0 * star ((twoSamples 𝕜) 0 0) = ((1 / 3 : ℝ) : 𝕜) := by
    simp only [twoSamples, of_apply, RCLike.star_def, RCLike.conj_ofReal, ← RCLike.ofReal_mul]
    rw [show (![Real.sqrt (1 / 3), Real.sqrt 3] 0 : ℝ) = Real.sqrt (1 / 3) from rfl,
      Real.mul_self_sqrt (by norm_num)]
  have e1 : (twoSamples 𝕜) 1 0 * star ((twoSamples 𝕜) 1 0) = ((3 : ℝ) : 𝕜) := by
    simp only [twoSamples, of_apply, RCLike.star_def, RCLike.conj_ofReal, ← RCLike.ofReal_mul]
    rw [show (![Real.sqrt (1 / 3), Real.sqrt 3] 1 : ℝ) = Real.sqrt 3 from rfl,
      Real.mul_self_sqrt (by norm_num)]
  rw [mStep, scatter_apply, Fin.sum_univ_two, hq.1, hq.2, e0, e1, Matrix.one_apply_eq, wStudent,
    wStudent, ← RCLike.ofReal_mul, ← RCLike.ofReal_mul, ← RCLike.ofReal_add, ← RCLike.ofReal_natCast,
    ← RCLike.ofReal_inv, ← RCLike.ofReal_mul]
  have : ((2 : ℕ) : ℝ)⁻¹ * ((1 + ((1 : ℕ) : ℝ)) / (1 + 1 / (3 * 1)) * (1 / 3) +
      (1 + ((1 : ℕ) : ℝ)) / (1 + 3 / 1) * 3) = 1 := by norm_num
  rw [this, RCLike.ofReal_one]

theorem twoSamples_cost {𝕜 : Type} [RCLike 𝕜] (nu : ℝ) {s : ℝ} (hs : 0 < s) :
    studentCost nu (twoSamples 𝕜) (diagonal fun _ : Fin 1 => (s : 𝕜)) =
      (nu + 1) * (Real.log (nu + 1 / (3 * s)) + Real.log (nu + 3 / s)) + 2 * Real.log s := by
  unfold studentCost
  rw [Fin.sum_univ_two, (twoSamples_qf hs).1, (twoSamples_qf hs).2, det_diagonal_re]
  simp

/-- Real data: `df = 2`, samples `1/sqrt 3` and `sqrt 3`. The estimator stays at `1`, but under
the t law with 2 degrees of freedom the shape `6/5` has a larger likelihood. -/
theorem C40_real_violated (env : NumEnv 2 1 ℝ) (hs : env.eigh.Ok) :
    (∃ d b, studentFixedPoint env (twoSamples ℝ) 2 (some 1) (1 / 10000) 1 = .ok ⟨.fin 1, d, 1, b⟩) ∧
    tLogLik 2 (twoSamples ℝ) 1 < tLogLik 2 (twoSamples ℝ) (diagonal fun _ => 6 / 5) := by
  constructor
  · have hst := studentStep_isMStep hs (show (0 : ℝ) < 2 by norm_num) (twoSamples ℝ) 1 PosDef.one
    rw [show (2 : ℝ) / 2 = 1 by norm_num, twoSamples_fix ℝ] at hst
    have hl : fpLoop (fun s => .ok (studentStep env 2 (twoSamples ℝ) s)) (1 / 10000) 1
        ⟨.fin (1 : Matrix (Fin 1) (Fin 1) ℝ), .inf, 0⟩ =
        .ok ⟨.fin 1, relErr (.fin (1 : Matrix (Fin 1) (Fin 1) ℝ)) (.fin 1), 1⟩ := by
      rw [fpLoop, if_pos ⟨trivial, by simp⟩]
      simp only [Except.ok.injEq] at hst
      simp only [stepSig, hst]
      rw [fpLoop, if_neg (by simp)]
    refine ⟨relErr (.fin (1 : Matrix (Fin 1) (Fin 1) ℝ)) (.fin 1), true, ?_⟩
    unfold studentFixedPoint
    rw [if_neg (by norm_num)]
    simp only [Option.getD_some, runLoop, hl]
    rfl
  · obtain ⟨K, hK⟩ := tLogLik_eq (show (0 : ℝ) < 2 by norm_num) (twoSamples ℝ)
    have hP : (diagonal fun _ : Fin 1 => (6 / 5 : ℝ)).PosDef := by
      rw [posDef_diagonal_iff]; intro i; norm_num
    rw [hK 1 PosDef.one, hK _ hP]
    have h1 := twoSamples_cost (𝕜 := ℝ) 2 one_pos
    have h2 := twoSamples_cost (𝕜 := ℝ) 2 (show (0 : ℝ) < 6 / 5 by norm_num)
    simp only [RCLike.ofReal_real_eq_id, id] at h1 h2
    rw [diagonal_one] at h1
    rw [h1, h2, ← Real.log_mul (by norm_num) (by norm_num), ← Real.log_mul (by norm_num) (by norm_num),
      Real.log_one]
    have key : 3 * Real.log ((2 + 1 / (3 * (6 / 5))) * (2 + 3 / (6 / 5))) + 2 * Real.log (6 / 5) <
        3 * Real.log ((2 + 1 / (3 * 1)) * (2 + 3 / 1)) := by
      rw [show (3 : ℝ) = ((3 : ℕ) : ℝ) by norm_num, show (2 : ℝ) * Real.log (6 / 5) =
        ((2 : ℕ) : ℝ) * Real.log (6 / 5) by norm_num, ← Real.log_pow, ← Real.log_pow,
        ← Real.log_pow, ← Real.log_mul (by norm_num) (by norm_num)]
      exact Real.log_lt_log (by norm_num) (by norm_num)
    linarith

/-- Complex data: `df = 1`, same samples. The estimator stays at `1`, but under the complex t law
with 1 degree of freedom the scatter `9/10` has a larger likelihood. -/
theorem C40_complex_violated (env : NumEnv 2 1 ℂ) (hs : env.eigh.Ok) :
    (∃ d b, complexStudentFixedPoint env (twoSamples ℂ) 1 (some 1) (1 / 10000) 1 =
      .ok ⟨.fin 1, d, 1, b⟩) ∧
    complexTLogLik 1 (twoSamples ℂ) 1 <
      complexTLogLik 1 (twoSamples ℂ) (diagonal fun _ => ((9 / 10 : ℝ) : ℂ)) := by
  constructor
  · have hst := complexStudentStep_isMStep hs (show (0 : ℝ) < 1 by norm_num) (twoSamples ℂ) 1
      PosDef.one
    rw [twoSamples_fix ℂ] at hst
    have hl : fpLoop (fun s => .ok (complexStudentStep env 1 (twoSamples ℂ) s)) (1 / 10000) 1
        ⟨.fin (1 : Matrix (Fin 1) (Fin 1) ℂ), .inf, 0⟩ =
        .ok ⟨.fin 1, relErr (.fin (1 : Matrix (Fin 1) (Fin 1) ℂ)) (.fin 1), 1⟩ := by
      rw [fpLoop, if_pos ⟨trivial, by simp⟩]
      simp only [Except.ok.injEq] at hst
      simp only [stepSig, hst]
      rw [fpLoop, if_neg (by simp)]
    refine ⟨relErr (.fin (1 : Matrix (Fin 1) (Fin 1) ℂ)) (.fin 1), true, ?_⟩
    unfold complexStudentFixedPoint
    rw [if_neg (by norm_num)]
    simp only [Option.getD_some, runLoop, hl]
    rfl
  · obtain ⟨K, hK⟩ := complexTLogLik_eq (show (0 : ℝ) < 1 by norm_num) (twoSamples ℂ)
    have hP : (diagonal fun _ : Fin 1 => ((9 / 10 : ℝ) : ℂ)).PosDef := by
      rw [posDef_diagonal_iff]; intro i; exact_mod_cast (by norm_num : (0 : ℝ) < 9 / 10)
    rw [hK 1 PosDef.one, hK _ hP]
    have h1 := twoSamples_cost (𝕜 := ℂ) (1 / 2) one_pos
    have h2 := twoSamples_cost (𝕜 := ℂ) (1 / 2) (show (0 : ℝ) < 9 / 10 by norm_num)
    rw [RCLike.ofReal_one, diagonal_one] at h1
    have h2' : studentCost (1 / 2) (twoSamples ℂ) (diagonal fun _ : Fin 1 => ((9 / 10 : ℝ) : ℂ)) = _ := h2
    rw [h1, h2', ← Real.log_mul (by norm_num) (by norm_num), ← Real.log_mul (by norm_num) (by norm_num),
      Real.log_one]
    have key : 3 * Real.log ((1 / 2 + 1 / (3 * (9 / 10))) * (1 / 2 + 3 / (9 / 10))) +
        4 * Real.log (9 / 10) < 3 * Real.log ((1 / 2 + 1 / (3 * 1)) * (1 / 2 + 3 / 1)) := by
      rw [show (3 : ℝ) * Real.log ((1 / 2 + 1 / (3 * (9 / 10))) * (1 / 2 + 3 / (9 / 10))) =
        ((3 : ℕ) : ℝ) * Real.log ((1 / 2 + 1 / (3 * (9 / 10))) * (1 / 2 + 3 / (9 / 10))) by norm_num,
        show (3 : ℝ) * Real.log ((1 / 2 + 1 / (3 * 1)) * (1 / 2 + 3 / 1)) =
        ((3 : ℕ) : ℝ) * Real.log ((1 / 2 + 1 / (3 * 1)) * (1 / 2 + 3 / 1)) by norm_num,
        show (4 : ℝ) * Real.log (9 / 10) = ((4 : ℕ) : ℝ) * Real.log (9 / 10) by norm_num,
        ← Real.log_pow, ← Real.log_pow, ← Real.log_pow, ← Real.log_mul (by norm_num) (by norm_num)]
      exact Real.log_lt_log (by norm_num) (by norm_num)
    linarith

/-! ## C49 -/

/-- Incompatible shapes raise `AttributeError`, compatible ones never raise. -/
theorem C49_shapes {m : ℕ} (eigh : Eigh (Fin m) ℝ) (eigh' : Eigh (Fin m) ℂ)
    (X : Matrix (Fin N) (Fin p) ℝ) (Q : Matrix (Fin m) (Fin m) ℝ) (X' : Matrix (Fin N) (Fin p) ℂ)
    (Q' : Matrix (Fin m) (Fin m) ℂ) :
    (p ≠ m → tylerCostReal eigh X Q = .error .attributeError ∧
      tylerCostComplex eigh' X' Q' = .error .attributeError) ∧
    (p = m → ∃ v v', tylerCostReal eigh X Q = .ok v ∧ tylerCostComplex eigh' X' Q' = .ok v') := by
  constructor
  · intro h
    simp only [tylerCostReal, tylerCostComplex, dif_pos h, and_self]
  · intro h
    subst h
    simp only [tylerCostReal, tylerCostComplex, ne_eq, not_true_eq_false, dite_false]
    split_ifs <;> exact ⟨_, _, rfl, rfl⟩

/-- Scale of the shape matrix. -/
theorem C49_scale_real (eigh : Eigh (Fin p) ℝ) (hs : eigh.Ok) (X : Matrix (Fin N) (Fin p) ℝ)
    (hn : NonzeroSamples X) (Q : Matrix (Fin p) (Fin p) ℝ) (hQ : Q.PosDef) (c : ℝ) (hc : 0 < c) :
    ∃ v, tylerCostReal eigh X Q = .ok (.fin v) ∧ tylerCostReal eigh X (c • Q) = .ok (.fin v) := by
  refine ⟨_, tylerCostReal_eq hs hn hQ, ?_⟩
  rw [tylerCostReal_eq hs hn (hQ.smul hc)]
  exact congrArg (fun v => Except.ok (CostVal.fin v)) (tylerCost_smul (𝕜 := ℝ) hn hQ hc)

theorem C49_scale_complex (eigh : Eigh (Fin p) ℂ) (hs : eigh.Ok) (X : Matrix (Fin N) (Fin p) ℂ)
    (hn : NonzeroSamples X) (Q : Matrix (Fin p) (Fin p) ℂ) (hQ : Q.PosDef) (c : ℝ) (hc : 0 < c) :
    ∃ v, tylerCostComplex eigh X Q = .ok (.fin v) ∧
      tylerCostComplex eigh X ((c : ℂ) • Q) = .ok (.fin v) := by
  refine ⟨_, tylerCostComplex_eq hs hn hQ, ?_⟩
  rw [tylerCostComplex_eq hs hn (hQ.smul (by exact_mod_cast hc))]
  exact congrArg (fun v => Except.ok (CostVal.fin v)) (tylerCost_smul (𝕜 := ℂ) hn hQ hc)

theorem tylerCost_sample_scale {𝕜 : Type} [RCLike 𝕜] {X : Matrix (Fin N) (Fin p) 𝕜}
    (hn : NonzeroSamples X) {S : Matrix (Fin p) (Fin p) 𝕜} (hS : S.PosDef) (d : Fin N → 𝕜)
    (hd : ∀ i, d i ≠ 0) :
    tylerCost (of fun i j => d i * X i j) S = tylerCost X S + p * ∑ i, Real.log (‖d i‖ ^ 2) := by
  have hq : ∀ i, qf S (sample (of fun i j => d i * X i j) i) = ‖d i‖ ^ 2 * qf S (sample X i) :=
    fun i => by
      rw [show sample (of fun i j => d i * X i j) i = d i • sample X i from rfl]
      have hn : ((‖d i‖ ^ 2 : ℝ) : 𝕜) = d i * star (d i) := by
        rw [RCLike.star_def, RCLike.mul_conj]; simp
      unfold qf
      rw [star_smul, mulVec_smul, smul_dotProduct, dotProduct_smul, smul_smul, mul_comm, ← hn,
        smul_eq_mul, RCLike.re_ofReal_mul]
  unfold tylerCost
  have : ∀ i, Real.log (qf S (sample (of fun i j => d i * X i j) i)) =
      Real.log (‖d i‖ ^ 2) + Real.log (qf S (sample X i)) := fun i => by
    rw [hq, Real.log_mul (pow_ne_zero 2 (norm_ne_zero_iff.2 (hd i))) (qf_pos hS (hn i)).ne']
  simp only [this, Finset.sum_add_distrib]
  ring

/-- Scale of the samples. -/
theorem C49_sample_scale_real (eigh : Eigh (Fin p) ℝ) (hs : eigh.Ok) (X : Matrix (Fin N) (Fin p) ℝ)
    (hn : NonzeroSamples X) (Q : Matrix (Fin p) (Fin p) ℝ) (hQ : Q.PosDef) (d : Fin N → ℝ)
    (hd : ∀ i, d i ≠ 0) :
    ∃ v, tylerCostReal eigh X Q = .ok (.fin v) ∧
      tylerCostReal eigh (of fun i j => d i * X i j) Q =
        .ok (.fin (v + p * ∑ i, Real.log (d i ^ 2))) := by
  have hn' : NonzeroSamples (of fun i j => d i * X i j) := fun i h => hn i (by
    funext j
    have := congrFun h j
    simpa [sample, hd i] using this)
  refine ⟨_, tylerCostReal_eq hs hn hQ, ?_⟩
  rw [tylerCostReal_eq hs hn' hQ, tylerCost_sample_scale hn hQ d hd]
  simp only [Real.norm_eq_abs, sq_abs]

theorem C49_sample_scale_complex (eigh : Eigh (Fin p) ℂ) (hs : eigh.Ok)
    (X : Matrix (Fin N) (Fin p) ℂ) (hn : NonzeroSamples X) (Q : Matrix (Fin p) (Fin p) ℂ)
    (hQ : Q.PosDef) (d : Fin N → ℂ) (hd : ∀ i, d i ≠ 0) :
    ∃ v, tylerCostComplex eigh X Q = .ok (.fin v) ∧
      tylerCostComplex eigh (of fun i j => d i * X i j) Q =
        .ok (.fin (v + p * ∑ i, Real.log (‖d i‖ ^ 2))) := by
  have hn' : NonzeroSamples (of fun i j => d i * X i j) := fun i h => hn i (by
    funext j
    have := congrFun h j
    simpa [sample, hd i] using this)
  refine ⟨_, tylerCostComplex_eq hs hn hQ, ?_⟩
  rw [tylerCostComplex_eq hs hn' hQ, tylerCost_sample_scale hn hQ d hd]

theorem tylerCost_congr {𝕜 : Type} [RCLike 𝕜] (X : Matrix (Fin N) (Fin p) 𝕜)
    {S : Matrix (Fin p) (Fin p) 𝕜} (hS : S.PosDef) {T : Matrix (Fin p) (Fin p) 𝕜} (hT : IsUnit T) :
    tylerCost (X * Tᵀ) (T * S * Tᴴ) = tylerCost X S + 2 * N * Real.log ‖T.det‖ := by
  unfold tylerCost
  rw [det_congr_re hT hS (posDef_congr hT hS) rfl]
  simp only [sample_mul, qf_congr T hT]
  ring

/-- Invertible linear maps of the features. -/
theorem C49_linear_real (eigh : Eigh (Fin p) ℝ) (hs : eigh.Ok) (X : Matrix (Fin N) (Fin p) ℝ)
    (hn : NonzeroSamples X) (Q : Matrix (Fin p) (Fin p) ℝ) (hQ : Q.PosDef)
    (T : Matrix (Fin p) (Fin p) ℝ) (hT : IsUnit T) :
    ∃ v, tylerCostReal eigh X Q = .ok (.fin v) ∧
      tylerCostReal eigh (X * Tᵀ) (T * Q * Tᵀ) = .ok (.fin (v + 2 * N * Real.log |T.det|)) := by
  refine ⟨_, tylerCostReal_eq hs hn hQ, ?_⟩
  have hP := posDef_congr hT hQ
  have hc := tylerCost_congr X hQ hT
  rw [conjTranspose_eq_transpose_of_trivial] at hP hc
  rw [tylerCostReal_eq hs (nonzero_mul X hn T hT) hP, hc, Real.norm_eq_abs]

theorem C49_linear_complex (eigh : Eigh (Fin p) ℂ) (hs : eigh.Ok) (X : Matrix (Fin N) (Fin p) ℂ)
    (hn : NonzeroSamples X) (Q : Matrix (Fin p) (Fin p) ℂ) (hQ : Q.PosDef)
    (T : Matrix (Fin p) (Fin p) ℂ) (hT : IsUnit T) :
    ∃ v, tylerCostComplex eigh X Q = .ok (.fin v) ∧
      tylerCostComplex eigh (X * Tᵀ) (T * Q * Tᴴ) = .ok (.fin (v + 2 * N * Real.log ‖T.det‖)) := by
  refine ⟨_, tylerCostComplex_eq hs hn hQ, ?_⟩
  rw [tylerCostComplex_eq hs (nonzero_mul X hn T hT) (posDef_congr hT hQ), tylerCost_congr X hQ hT]

/-- The complex cost of real data is the real cost. -/
theorem C49_real_data (eigh : Eigh (Fin p) ℝ) (hs : eigh.Ok) (eigh' : Eigh (Fin p) ℂ)
    (hs' : eigh'.Ok) (X : Matrix (Fin N) (Fin p) ℝ)
    (hn : NonzeroSamples X) (Q : Matrix (Fin p) (Fin p) ℝ) (hQ : Q.PosDef) :
    ∃ v, tylerCostReal eigh X Q = .ok (.fin v) ∧
      tylerCostComplex eigh' (X.map Complex.ofReal) (Q.map Complex.ofReal) = .ok (.fin v) := by
  refine ⟨_, tylerCostReal_eq hs hn hQ, ?_⟩
  rw [tylerCostComplex_eq hs' (nonzero_toC hn) (toC_posDef hQ)]
  have h : tylerCost (toC X) (toC Q) = tylerCost X Q := by
    unfold tylerCost
    rw [toC_det]
    simp only [RCLike.re_to_real, RCLike.re_to_complex, Complex.ofReal_re]
    congr 2
    apply Finset.sum_congr rfl
    intro i _
    rw [← qf_toC hQ]
    rfl
  rw [h]

/-- The cost formula itself, in terms of inverse and determinant. -/
theorem C49_value_real (eigh : Eigh (Fin p) ℝ) (hs : eigh.Ok) (X : Matrix (Fin N) (Fin p) ℝ)
    (hn : NonzeroSamples X) (Q : Matrix (Fin p) (Fin p) ℝ) (hQ : Q.PosDef) :
    tylerCostReal eigh X Q = .ok (.fin (tylerCost X Q)) := tylerCostReal_eq hs hn hQ

theorem C49_value_complex (eigh : Eigh (Fin p) ℂ) (hs : eigh.Ok) (X : Matrix (Fin N) (Fin p) ℂ)
    (hn : NonzeroSamples X) (Q : Matrix (Fin p) (Fin p) ℂ) (hQ : Q.PosDef) :
    tylerCostComplex eigh X Q = .ok (.fin (tylerCost X Q)) := tylerCostComplex_eq hs hn hQ

/-! ## The hypotheses can be met -/

/-- C38: a run from `diag(1,4)` on four samples does not increase the cost. -/
example (env : NumEnv 4 2 ℝ) (hs : env.eigh.Ok) :
    ∃ result delta iteration warned, ∃ c c' : ℝ,
      tylerFixedPoint env (demoX ℝ) (some (demoS ℝ)) (1 / 10000) 30 "trace" =
        .ok ⟨.fin result, delta, iteration, warned⟩ ∧
      tylerCostReal env.eigh (demoX ℝ) (demoS ℝ) = .ok (.fin c) ∧
      tylerCostReal env.eigh (demoX ℝ) result = .ok (.fin c') ∧ c' ≤ c :=
  C38_result_real env hs _ two_pos demoX_spans demoX_nonzero _ demoS_posDef _ _ _

/-- C39: the same for the Student-t estimator with three degrees of freedom. -/
example (env : NumEnv 4 2 ℝ) (hs : env.eigh.Ok) :
    ∃ result delta iteration warned,
      studentFixedPoint env (demoX ℝ) 3 (some (demoS ℝ)) (1 / 10000) 30 =
        .ok ⟨.fin result, delta, iteration, warned⟩ ∧
      studentCost (3 / 2) (demoX ℝ) result ≤ studentCost (3 / 2) (demoX ℝ) (demoS ℝ) := by
  obtain ⟨result, delta, iteration, warned, h1, -, -, h2⟩ :=
    C39_real env hs _ two_pos demoX_spans 3 three_pos _ demoS_posDef (1 / 10000) 30
  exact ⟨result, delta, iteration, warned, h1, h2⟩

/-- C40: the two samples of the counterexample meet the hypotheses of the part that holds. -/
example (env : NumEnv 2 1 ℝ) (hs : env.eigh.Ok) (S' : Matrix (Fin 1) (Fin 1) ℝ) (hS' : S'.PosDef) :
    tLogLik 1 (twoSamples ℝ) S' ≤ tLogLik 1 (twoSamples ℝ) 1 := by
  obtain ⟨⟨d, b, h⟩, -⟩ := C40_real_violated env hs
  have := C40_real_partial env hs _ one_pos 2 two_pos 1 PosDef.one _ d b h S' hS'
  rwa [show (2 : ℝ) / 2 = 1 by norm_num] at this

/-- C49: data and shape matrix transformed together by an invertible map. -/
example (eigh : Eigh (Fin 2) ℝ) (hs : eigh.Ok) :
    ∃ v, tylerCostReal eigh (demoX ℝ) (demoS ℝ) = .ok (.fin v) ∧
      tylerCostReal eigh (demoX ℝ * (demoT ℝ)ᵀ) (demoT ℝ * demoS ℝ * (demoT ℝ)ᵀ) =
        .ok (.fin (v + 2 * (4 : ℕ) * Real.log |(demoT ℝ).det|)) :=
  C49_linear_real eigh hs _ demoX_nonzero _ demoS_posDef _ demoT_isUnit

end
end RS
