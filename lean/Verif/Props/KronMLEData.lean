import Verif.Lemmas.KronMLECont
import Verif.Props.KronMLE

/-
How the estimate of `KroneckerStudent` depends on the data: changes of coordinates and order of the
samples (C169), small changes of the data (C170).
-/
set_option autoImplicit false

namespace RS
open Matrix ComplexOrder Filter Topology

section
variable (P : KronStudentParams) (solve : KronSolver P.a P.b)

/-- The samples `T z + c`, taken in another order. -/
def movedSamples {n p : ℕ} (T : Matrix (Fin p) (Fin p) ℂ) (c : Fin p → ℂ) (σ : Equiv.Perm (Fin n))
    (Z : Matrix (Fin n) (Fin p) ℂ) : Matrix (Fin n) (Fin p) ℂ := fun i => T *ᵥ Z (σ i) + c

theorem kronLocation_moved {n p : ℕ} (hn : 0 < n) (centered : Bool) (T : Matrix (Fin p) (Fin p) ℂ)
    (c : Fin p → ℂ) (hc : centered = true → c = 0) (σ : Equiv.Perm (Fin n))
    (Z : Matrix (Fin n) (Fin p) ℂ) :
    kronLocation centered (movedSamples T c σ Z) = T *ᵥ kronLocation centered Z + c := by
  cases centered with
  | true => simp [kronLocation, hc rfl]
  | false =>
    have hn' : (n : ℂ) ≠ 0 := by exact_mod_cast hn.ne'
    funext j
    simp only [kronLocation, Bool.false_eq_true, if_false, movedSamples, Pi.add_apply, mulVec,
      dotProduct, Finset.sum_add_distrib, Finset.sum_const, Finset.card_univ, Fintype.card_fin,
      nsmul_eq_mul]
    rw [mul_add, ← mul_assoc, inv_mul_cancel₀ hn', one_mul,
      Equiv.sum_comp σ fun i => ∑ x, T j x * Z i x, Finset.sum_comm, Finset.mul_sum]
    congr 1
    refine Finset.sum_congr rfl fun k _ => ?_
    rw [← Finset.mul_sum]
    ring

theorem centredSamples_moved {n p : ℕ} (hn : 0 < n) (centered : Bool) (T : Matrix (Fin p) (Fin p) ℂ)
    (c : Fin p → ℂ) (hc : centered = true → c = 0) (σ : Equiv.Perm (Fin n))
    (Z : Matrix (Fin n) (Fin p) ℂ) :
    centredSamples centered (movedSamples T c σ Z) =
      fun i => T *ᵥ centredSamples centered Z (σ i) := by
  funext i
  have e : centredSamples centered Z (σ i) = Z (σ i) - kronLocation centered Z := rfl
  have e' : centredSamples centered (movedSamples T c σ Z) i =
      T *ᵥ Z (σ i) + c - kronLocation centered (movedSamples T c σ Z) := rfl
  rw [e', e, kronLocation_moved hn centered T c hc, mulVec_sub]
  abel

/-- The log-density in other coordinates. -/
theorem ctLogDensity_moved (df : ℝ) {p : ℕ} {T : Matrix (Fin p) (Fin p) ℂ} (hT : IsUnit T)
    (c mu : Fin p → ℂ) {S : Matrix (Fin p) (Fin p) ℂ} (hS : S.PosDef) (z : Fin p → ℂ) :
    ctLogDensity df (T *ᵥ mu + c) (T * S * Tᴴ) (T *ᵥ z + c) =
      ctLogDensity df mu S z - Real.log (‖T.det‖ ^ 2) := by
  have hd0 : T.det ≠ 0 := ((Matrix.isUnit_iff_isUnit_det T).1 hT).ne_zero
  have e1 : T *ᵥ z + c - (T *ᵥ mu + c) = T *ᵥ (z - mu) := by rw [mulVec_sub]; abel
  have e2 : (star (T *ᵥ (z - mu)) ⬝ᵥ (T * S * Tᴴ)⁻¹ *ᵥ (T *ᵥ (z - mu))).re =
      (star (z - mu) ⬝ᵥ S⁻¹ *ᵥ (z - mu)).re := qf_congr T hT S (z - mu)
  have e3 : (T * S * Tᴴ).det.re = ‖T.det‖ ^ 2 * S.det.re := by
    rw [det_mul, det_mul, det_conjTranspose, mul_right_comm, RCLike.star_def, RCLike.mul_conj]
    have := Complex.re_ofReal_mul (‖T.det‖ ^ 2) S.det
    rw [Complex.ofReal_pow] at this
    exact this
  unfold ctLogDensity
  have hp : 0 < S.det.re := (posDef_det_pos hS).1
  rw [e1, e2, e3, Real.log_mul (by positivity) (ne_of_gt hp)]
  ring

/-- Maximum likelihood estimates in other coordinates. -/
theorem KronMLE.moved {n : ℕ} (hn : 0 < n) {V : Matrix (Fin P.a) (Fin P.a) ℂ}
    {U : Matrix (Fin P.b) (Fin P.b) ℂ} (hV : IsUnit V) (hU : IsUnit U) {c : Fin (P.a * P.b) → ℂ}
    (hc : P.assumeCentered = true → c = 0) (σ : Equiv.Perm (Fin n))
    {Z : Matrix (Fin n) (Fin (P.a * P.b)) ℂ} {S : Matrix (Fin (P.a * P.b)) (Fin (P.a * P.b)) ℂ}
    (h : KronMLE P Z S) :
    KronMLE P (movedSamples (kron V U) c σ Z) (kron V U * S * (kron V U)ᴴ) := by
  obtain ⟨⟨A, B, hA, hB, rfl⟩, hm⟩ := h
  have dV := (Matrix.isUnit_iff_isUnit_det V).1 hV
  have dU := (Matrix.isUnit_iff_isUnit_det U).1 hU
  have hT : IsUnit (kron V U) := by
    rw [Matrix.isUnit_iff_isUnit_det, det_kron]
    exact (dV.pow P.b).mul (dU.pow P.a)
  have tr : ∀ A B, kron V U * kron A B * (kron V U)ᴴ = kron (V * A * Vᴴ) (U * B * Uᴴ) :=
    fun A B => by rw [kron_conjTranspose, kron_mul, kron_mul]
  have val : ∀ A B, A.PosDef → B.PosDef →
      ∑ i, ctLogDensity P.df (kronLocation P.assumeCentered (movedSamples (kron V U) c σ Z))
        (kron V U * kron A B * (kron V U)ᴴ) (movedSamples (kron V U) c σ Z i) =
      ∑ i, ctLogDensity P.df (kronLocation P.assumeCentered Z) (kron A B) (Z i) -
        n * Real.log (‖(kron V U).det‖ ^ 2) := fun A B hA hB => by
    rw [kronLocation_moved hn _ _ c hc]
    simp only [movedSamples, ctLogDensity_moved P.df hT c _ (kron_posDef hA hB)]
    rw [Finset.sum_sub_distrib, Equiv.sum_comp σ fun i =>
      ctLogDensity P.df (kronLocation P.assumeCentered Z) (kron A B) (Z i)]
    simp
  have pd : ∀ {m : ℕ} {W A : Matrix (Fin m) (Fin m) ℂ}, IsUnit W → A.PosDef → (W * A * Wᴴ).PosDef :=
    fun hW hA => (IsUnit.posDef_star_right_conjugate_iff hW).2 hA
  refine ⟨⟨_, _, pd hV hA, pd hU hB, tr A B⟩, fun A' B' hA' hB' => ?_⟩
  have hV' : IsUnit V⁻¹ := Matrix.isUnit_nonsing_inv_iff.2 hV
  have hU' : IsUnit U⁻¹ := Matrix.isUnit_nonsing_inv_iff.2 hU
  have back : ∀ {m : ℕ} {W A : Matrix (Fin m) (Fin m) ℂ}, IsUnit W.det →
      W * (W⁻¹ * A * W⁻¹ᴴ) * Wᴴ = A := fun {m W A} hW => by
    have : W⁻¹ᴴ * Wᴴ = 1 := by rw [← conjTranspose_mul, mul_nonsing_inv _ hW, conjTranspose_one]
    rw [Matrix.mul_assoc, Matrix.mul_assoc, Matrix.mul_assoc, this, Matrix.mul_one,
      mul_nonsing_inv_cancel_left _ _ hW]
  have key := hm _ _ (pd hV' hA') (pd hU' hB')
  have v1 := val _ _ (pd hV' hA') (pd hU' hB')
  rw [tr, back dV, back dU] at v1
  rw [v1, val A B hA hB]
  linarith

/-- Samples `(V ⊗ U) z` (plus a constant when `assume_centered=False`), in any order: with an ideal
solver the covariance `S` becomes `(V ⊗ U) S (V ⊗ U)^H` and the location follows the samples. -/
theorem C169_coordinates (hs : KronMinimises solve) (hdf : 0 < P.df) {n : ℕ} (hn : 0 < n)
    (ha : 0 < P.a) (hb : 0 < P.b) (Z : Matrix (Fin n) (Fin (P.a * P.b)) ℂ)
    (H : ∀ V : Submodule ℂ (Fin (P.a * P.b) → ℂ), V ≠ ⊤ →
      (P.df / 2 + (P.a * P.b : ℕ)) * samplesIn (centredSamples P.assumeCentered Z) V <
        n * (P.df / 2 + Module.finrank ℂ V)) :
    ∃ (S : Matrix (Fin (P.a * P.b)) (Fin (P.a * P.b)) ℂ) (μ : Fin (P.a * P.b) → ℂ), KronMLE P Z S ∧
      ∀ (V : Matrix (Fin P.a) (Fin P.a) ℂ) (U : Matrix (Fin P.b) (Fin P.b) ℂ) (c : Fin (P.a * P.b) → ℂ)
        (σ : Equiv.Perm (Fin n))
        (init init' : Option (Matrix (Fin P.a) (Fin P.a) ℂ × Matrix (Fin P.b) (Fin P.b) ℂ)),
        IsUnit V → IsUnit U → (P.assumeCentered = true → c = 0) →
        (∀ A₀ B₀, init = some (A₀, B₀) → A₀.PosDef ∧ B₀.PosDef) →
        (∀ A₀ B₀, init' = some (A₀, B₀) → A₀.PosDef ∧ B₀.PosDef) →
        ∃ f f', kronStudentFit P solve (.cplx (.d2 n (P.a * P.b) Z)) init = .ok f ∧
          kronStudentFit P solve (.cplx (.d2 n (P.a * P.b) (movedSamples (kron V U) c σ Z))) init' =
            .ok f' ∧
          f.covariance = .cplx (.d2 _ _ S) ∧
          f'.covariance = .cplx (.d2 _ _ (kron V U * S * (kron V U)ᴴ)) ∧
          MeanIs (some f.location) μ ∧ MeanIs (some f'.location) (kron V U *ᵥ μ + c) := by
  obtain ⟨S, hS, hu, hfit⟩ := C150_mle P solve hs hdf hn ha hb Z H
  refine ⟨S, kronLocation P.assumeCentered Z, hS, fun V U c σ init init' hV hU hc hi hi' => ?_⟩
  have hT : IsUnit (kron V U) := by
    rw [Matrix.isUnit_iff_isUnit_det, det_kron]
    exact (((Matrix.isUnit_iff_isUnit_det V).1 hV).pow P.b).mul
      (((Matrix.isUnit_iff_isUnit_det U).1 hU).pow P.a)
  obtain ⟨S', -, hu', hfit'⟩ := C150_mle P solve hs hdf hn ha hb (movedSamples (kron V U) c σ Z) (by
    rw [centredSamples_moved hn _ _ c hc]
    exact student_condition_mul _ H _ hT σ)
  obtain ⟨f, h1, h2, h3⟩ := hfit init hi
  obtain ⟨f', h1', h2', h3'⟩ := hfit' init' hi'
  refine ⟨f, f', h1, h1', h3, ?_, h2, ?_⟩
  · rw [h3', hu' _ (hS.moved P hn hV hU hc σ)]
  · rw [← kronLocation_moved hn _ _ c hc σ]
    exact h2'

/-- The estimate is stable: if the entries of the data change little, so do the covariance and the
location stored by `fit` with an ideal solver, whatever `init`. -/
theorem C170_continuous (hs : KronMinimises solve) (hdf : 0 < P.df) {n : ℕ} (hn : 0 < n)
    (ha : 0 < P.a) (hb : 0 < P.b) (Z : Matrix (Fin n) (Fin (P.a * P.b)) ℂ)
    (H : ∀ V : Submodule ℂ (Fin (P.a * P.b) → ℂ), V ≠ ⊤ →
      (P.df / 2 + (P.a * P.b : ℕ)) * samplesIn (centredSamples P.assumeCentered Z) V <
        n * (P.df / 2 + Module.finrank ℂ V)) :
    ∃ (S : Matrix (Fin (P.a * P.b)) (Fin (P.a * P.b)) ℂ) (μ : Fin (P.a * P.b) → ℂ), KronMLE P Z S ∧
      ∀ ε : ℝ, 0 < ε → ∃ δ : ℝ, 0 < δ ∧ ∀ Y : Matrix (Fin n) (Fin (P.a * P.b)) ℂ,
        (∀ i j, ‖Y i j - Z i j‖ < δ) →
        ∀ init : Option (Matrix (Fin P.a) (Fin P.a) ℂ × Matrix (Fin P.b) (Fin P.b) ℂ),
          (∀ A₀ B₀, init = some (A₀, B₀) → A₀.PosDef ∧ B₀.PosDef) →
          ∃ f C m, kronStudentFit P solve (.cplx (.d2 n (P.a * P.b) Y)) init = .ok f ∧
            f.covariance = .cplx (.d2 _ _ C) ∧ frobDist C S < ε ∧
            MeanIs (some f.location) m ∧ ∀ j, ‖m j - μ j‖ < ε := by
  classical
  have hnu : 0 < P.df / 2 := half_pos hdf
  obtain ⟨S, hS, hu, hfit⟩ := C150_mle P solve hs hdf hn ha hb Z H
  refine ⟨S, kronLocation P.assumeCentered Z, hS, fun ε hε => ?_⟩
  have hcl : Continuous fun Y : Matrix (Fin n) (Fin (P.a * P.b)) ℂ =>
      kronLocation P.assumeCentered Y := by
    unfold kronLocation
    split_ifs
    · exact continuous_const
    · exact continuous_pi fun j => continuous_const.mul
        (continuous_finsetSum _ fun i _ => continuous_id.matrix_elem i j)
  have hcc : Continuous fun Y : Matrix (Fin n) (Fin (P.a * P.b)) ℂ =>
      centredSamples P.assumeCentered Y :=
    continuous_matrix fun i j => (continuous_id.matrix_elem i j).sub
      ((continuous_apply j).comp hcl)
  have hex : ∀ X : Matrix (Fin n) (Fin (P.a * P.b)) ℂ, ∃ Q : Matrix (Fin (P.a * P.b)) (Fin (P.a * P.b)) ℂ,
      (∀ V : Submodule ℂ (Fin (P.a * P.b) → ℂ), V ≠ ⊤ →
        (P.df / 2 + (P.a * P.b : ℕ)) * samplesIn X V < n * (P.df / 2 + Module.finrank ℂ V)) →
      (∃ (A : Matrix (Fin P.a) (Fin P.a) ℂ) (B : Matrix (Fin P.b) (Fin P.b) ℂ), A.PosDef ∧ B.PosDef ∧
        Q = kron A B) ∧ ∀ (C : Matrix (Fin P.a) (Fin P.a) ℂ) (D : Matrix (Fin P.b) (Fin P.b) ℂ),
          C.PosDef → D.PosDef → studentCost (P.df / 2) X Q ≤ studentCost (P.df / 2) X (kron C D) :=
    fun X => by
      by_cases h : ∀ V : Submodule ℂ (Fin (P.a * P.b) → ℂ), V ≠ ⊤ →
        (P.df / 2 + (P.a * P.b : ℕ)) * samplesIn X V < n * (P.df / 2 + Module.finrank ℂ V)
      · obtain ⟨A, B, hA, hB, hm⟩ := kron_student_min hnu hn ha hb X h
        exact ⟨kron A B, fun _ => ⟨⟨A, B, hA, hB, rfl⟩, hm⟩⟩
      · exact ⟨0, fun h' => absurd h' h⟩
  choose Q hQ using hex
  have ho := student_count_open H hnu
  obtain ⟨⟨A, B, hA, hB, rfl⟩, hm⟩ := hS
  have cost : ∀ (Y : Matrix (Fin n) (Fin (P.a * P.b)) ℂ) S, KronMLE P Y S →
      ∀ (C : Matrix (Fin P.a) (Fin P.a) ℂ) (D : Matrix (Fin P.b) (Fin P.b) ℂ), C.PosDef → D.PosDef →
        studentCost (P.df / 2) (centredSamples P.assumeCentered Y) S ≤
          studentCost (P.df / 2) (centredSamples P.assumeCentered Y) (kron C D) := by
    rintro Y _ ⟨⟨A, B, hA, hB, rfl⟩, hm⟩ C D hC hD
    obtain ⟨k, hk⟩ := ct_sum hdf P.assumeCentered Y
    have := hm C D hC hD
    rw [hk _ (kron_posDef hC hD), hk _ (kron_posDef hA hB)] at this
    linarith
  have hlim := kron_student_tendsto hnu (student_spans _ H) hA hB
    (cost Z _ ⟨⟨A, B, hA, hB, rfl⟩, hm⟩) Q (by
      filter_upwards [ho] with X hX
      obtain ⟨⟨C, D, hC, hD, h1⟩, h2⟩ := hQ X hX
      exact ⟨h2 A B hA hB, C, D, hC, hD, h1⟩)
  have hev := (hcc.tendsto Z).eventually (ho.and (frob_eventually hlim hε))
  have hevl : ∀ᶠ Y in 𝓝 Z, ∀ j, ‖kronLocation P.assumeCentered Y j -
      kronLocation P.assumeCentered Z j‖ < ε := by
    refine eventually_all.2 fun j => ?_
    have := (((continuous_apply j).comp hcl).tendsto Z).eventually (Metric.ball_mem_nhds _ hε)
    filter_upwards [this] with Y hY
    rw [← dist_eq_norm]; exact hY
  refine nhds_entries ?_
  filter_upwards [hev, hevl] with Y ⟨h1, h2⟩ h3 init hi
  obtain ⟨S', hS', -, hf⟩ := C150_mle P solve hs hdf hn ha hb Y h1
  obtain ⟨f, g1, g2, g3⟩ := hf init hi
  refine ⟨f, S', _, g1, g3, ?_, g2, h3⟩
  have e : S' = Q (centredSamples P.assumeCentered Y) := by
    obtain ⟨⟨C, D, hC, hD, hq⟩, hqm⟩ := hQ _ h1
    have hc' := cost Y S' hS'
    obtain ⟨⟨A', B', hA', hB', rfl⟩, -⟩ := hS'
    rw [hq] at hqm ⊢
    exact kron_student_unique hnu _ (student_spans _ h1) hC hD hA' hB' hqm hc'
  rw [e]
  exact h2

end

/-- An ideal solver, `df = 2`, the estimated location removed: three samples of one feature. -/
example : ∀ V : Submodule ℂ (Fin (1 * 1) → ℂ), V ≠ ⊤ →
    ((2 : ℝ) / 2 + (1 * 1 : ℕ)) * samplesIn (centredSamples false
      (fun i _ => (i : ℂ) : Matrix (Fin 3) (Fin (1 * 1)) ℂ)) V <
      (3 : ℕ) * ((2 : ℝ) / 2 + Module.finrank ℂ V) := by
  intro V hV
  have h0 : Module.finrank ℂ V = 0 := by
    have := Submodule.finrank_lt hV
    simp only [Module.finrank_fin_fun] at this
    omega
  have h1 : samplesIn (centredSamples false (fun i _ => (i : ℂ) : Matrix (Fin 3) (Fin (1 * 1)) ℂ)) V
      ≤ 1 := by
    rw [Submodule.finrank_eq_zero.1 h0]
    have key : ∀ i : Fin 3, sample (centredSamples false
        (fun i _ => (i : ℂ) : Matrix (Fin 3) (Fin (1 * 1)) ℂ)) i ∈
          (⊥ : Submodule ℂ (Fin (1 * 1) → ℂ)) → i = 1 := fun i hi => by
      have := congrFun ((Submodule.mem_bot ℂ).1 hi) 0
      simp only [sample, centredSamples, kronLocation, Bool.false_eq_true, if_false,
        Fin.sum_univ_three, Pi.zero_apply] at this
      norm_num at this
      fin_cases i <;> simp at this ⊢
      norm_num at this
    unfold samplesIn
    rw [Finite.card_le_one_iff_subsingleton]
    exact ⟨fun i j => Subtype.ext ((key _ i.2).trans (key _ j.2).symm)⟩
  have h2 : (samplesIn (centredSamples false
      (fun i _ => (i : ℂ) : Matrix (Fin 3) (Fin (1 * 1)) ℂ)) V : ℝ) ≤ 1 := by exact_mod_cast h1
  rw [h0]
  norm_num
  linarith

end RS
