import Verif.Lemmas.KronConsist
import Verif.Lemmas.HuberFix
import Verif.Lemmas.Breakdown

/-!
# The Student likelihood over Kronecker products: a maximum exists and is unique
-/
set_option autoImplicit false
namespace RS
open Matrix ComplexOrder Filter Topology

section
variable {𝕜 : Type} [RCLike 𝕜] {N p a b : ℕ}

/-- The middle of two matrices which do equally well does better, unless they are equal. -/
theorem student_midpoint {nu : ℝ} (hnu : 0 < nu) (X : Matrix (Fin N) (Fin p) 𝕜) (hX : Spans X)
    {K S₀ S₁ Sm : Matrix (Fin p) (Fin p) 𝕜} (hK : IsUnit K) {d : Fin p → ℝ} (hd : ∀ j, 0 < d j)
    (h₀ : S₀.PosDef) (h₁ : S₁.PosDef) (hm : Sm.PosDef)
    (k0 : K * S₀ * Kᴴ = 1) (k1 : K * S₁ * Kᴴ = diagonal fun j => (d j : 𝕜))
    (km : K * Sm * Kᴴ = diagonal fun j => ((Real.sqrt (d j) : ℝ) : 𝕜))
    (c0 : studentCost nu X S₀ ≤ studentCost nu X Sm)
    (c1 : studentCost nu X S₁ ≤ studentCost nu X Sm) : S₁ = S₀ := by
  have hs : ∀ j, 0 < Real.sqrt (d j) := fun j => Real.sqrt_pos.2 (hd j)
  have hD1 : (diagonal fun j => (d j : 𝕜)).PosDef := by
    rw [← k1]; exact h₁.mul_mul_conjTranspose_same (Matrix.vecMul_injective_of_isUnit hK)
  have hDm : (diagonal fun j => ((Real.sqrt (d j) : ℝ) : 𝕜)).PosDef := by
    rw [← km]; exact hm.mul_mul_conjTranspose_same (Matrix.vecMul_injective_of_isUnit hK)
  have e0 := det_congr_re hK h₀ PosDef.one k0
  have e1 := det_congr_re hK h₁ hD1 k1
  have em := det_congr_re hK hm hDm km
  have ld : ∀ l : Fin p → ℝ, (∀ j, 0 < l j) →
      Real.log (RCLike.re (diagonal fun j => (l j : 𝕜)).det) = ∑ j, Real.log (l j) := fun l hl => by
    rw [det_diagonal, ← map_prod, RCLike.ofReal_re, Real.log_prod fun j _ => (hl j).ne']
  rw [ld d hd] at e1
  rw [ld _ hs] at em
  simp only [det_one, RCLike.one_re, Real.log_one] at e0
  have hl : ∑ j, Real.log (Real.sqrt (d j)) = (∑ j, Real.log (d j)) / 2 := by
    rw [Finset.sum_div]
    exact Finset.sum_congr rfl fun j _ => Real.log_sqrt (hd j).le
  set w : Fin N → Fin p → ℝ := fun i j => ‖(K *ᵥ sample X i) j‖ ^ 2 with hw
  have q0 : ∀ i, qf S₀ (sample X i) = ∑ j, w i j := fun i => by
    rw [← qf_congr K hK S₀, k0, qf_one]
  have q1 : ∀ i, qf S₁ (sample X i) = ∑ j, w i j / d j := fun i => by
    rw [← qf_congr K hK S₁, k1, qf_diagonal d hd]
  have qm : ∀ i, qf Sm (sample X i) = ∑ j, w i j / Real.sqrt (d j) := fun i => by
    rw [← qf_congr K hK Sm, km, qf_diagonal _ hs]
  have hw0 : ∀ i j, 0 ≤ w i j := fun i j => by simp only [hw]; positivity
  have hp0 : ∀ i, 0 < nu + ∑ j, w i j := fun i =>
    add_pos_of_pos_of_nonneg hnu (Finset.sum_nonneg fun j _ => hw0 i j)
  have hp1 : ∀ i, 0 < nu + ∑ j, w i j / d j := fun i =>
    add_pos_of_pos_of_nonneg hnu (Finset.sum_nonneg fun j _ => div_nonneg (hw0 i j) (hd j).le)
  have hpm : ∀ i, 0 < nu + ∑ j, w i j / Real.sqrt (d j) := fun i =>
    add_pos_of_pos_of_nonneg hnu (Finset.sum_nonneg fun j _ => div_nonneg (hw0 i j) (hs j).le)
  have gap : ∀ i, nu * ∑ j, w i j * (1 - (Real.sqrt (d j))⁻¹) ^ 2 ≤
      (nu + ∑ j, w i j) * (nu + ∑ j, w i j / d j) - (nu + ∑ j, w i j / Real.sqrt (d j)) ^ 2 := fun i => by
    have cs : (∑ j, w i j / Real.sqrt (d j)) ^ 2 ≤ (∑ j, w i j) * ∑ j, w i j / d j := by
      refine Finset.sum_sq_le_sum_mul_sum_of_sq_le_mul _ (fun j _ => hw0 i j)
        (fun j _ => div_nonneg (hw0 i j) (hd j).le) fun j _ => ?_
      rw [div_pow, Real.sq_sqrt (hd j).le]; exact le_of_eq (by ring)
    have e : ∑ j, w i j * (1 - (Real.sqrt (d j))⁻¹) ^ 2 =
        ∑ j, w i j + ∑ j, w i j / d j - 2 * ∑ j, w i j / Real.sqrt (d j) := by
      rw [Finset.mul_sum, ← Finset.sum_add_distrib, ← Finset.sum_sub_distrib]
      refine Finset.sum_congr rfl fun j _ => ?_
      have : (Real.sqrt (d j))⁻¹ ^ 2 = (d j)⁻¹ := by rw [inv_pow, Real.sq_sqrt (hd j).le]
      rw [sub_sq, this]; ring
    rw [e]; nlinarith
  have hlog : ∀ i, 0 ≤ Real.log (nu + ∑ j, w i j) + Real.log (nu + ∑ j, w i j / d j) -
      2 * Real.log (nu + ∑ j, w i j / Real.sqrt (d j)) := fun i => by
    rw [← Real.log_mul (hp0 i).ne' (hp1 i).ne', sub_nonneg,
      show (2 : ℝ) * Real.log (nu + ∑ j, w i j / Real.sqrt (d j)) =
        Real.log ((nu + ∑ j, w i j / Real.sqrt (d j)) ^ 2) by rw [Real.log_pow]; norm_num]
    refine Real.log_le_log (pow_pos (hpm i) 2) ?_
    have : 0 ≤ nu * ∑ j, w i j * (1 - (Real.sqrt (d j))⁻¹) ^ 2 :=
      mul_nonneg hnu.le (Finset.sum_nonneg fun j _ => mul_nonneg (hw0 i j) (sq_nonneg _))
    linarith [gap i]
  have hsum : ∑ i, (Real.log (nu + ∑ j, w i j) + Real.log (nu + ∑ j, w i j / d j) -
      2 * Real.log (nu + ∑ j, w i j / Real.sqrt (d j))) ≤ 0 := by
    unfold studentCost at c0 c1
    simp only [q0, q1, qm] at c0 c1
    have hpp : 0 < nu + p := by positivity
    rw [Finset.sum_sub_distrib, Finset.sum_add_distrib, ← Finset.mul_sum]
    have hdet : (N : ℝ) * Real.log (RCLike.re S₀.det) + N * Real.log (RCLike.re S₁.det) =
        2 * (N * Real.log (RCLike.re Sm.det)) := by
      have : Real.log (RCLike.re S₀.det) + Real.log (RCLike.re S₁.det) =
        2 * Real.log (RCLike.re Sm.det) := by linarith
      rw [← mul_add, this]; ring
    have : (nu + p) * (∑ i, Real.log (nu + ∑ j, w i j) + ∑ i, Real.log (nu + ∑ j, w i j / d j) -
      2 * ∑ i, Real.log (nu + ∑ j, w i j / Real.sqrt (d j))) ≤ 0 := by nlinarith
    exact nonpos_of_mul_nonpos_right this hpp
  have hz : ∀ i, Real.log (nu + ∑ j, w i j) + Real.log (nu + ∑ j, w i j / d j) -
      2 * Real.log (nu + ∑ j, w i j / Real.sqrt (d j)) = 0 := fun i =>
    (Finset.sum_eq_zero_iff_of_nonneg fun i _ => hlog i).1
      (le_antisymm hsum (Finset.sum_nonneg fun i _ => hlog i)) i (Finset.mem_univ i)
  have hz2 : ∀ i j, w i j * (1 - (Real.sqrt (d j))⁻¹) ^ 2 = 0 := fun i j => by
    have h1 : (nu + ∑ j, w i j) * (nu + ∑ j, w i j / d j) =
        (nu + ∑ j, w i j / Real.sqrt (d j)) ^ 2 := by
      refine Real.log_injOn_pos (Set.mem_Ioi.2 (mul_pos (hp0 i) (hp1 i)))
        (Set.mem_Ioi.2 (pow_pos (hpm i) 2)) ?_
      rw [Real.log_mul (hp0 i).ne' (hp1 i).ne', Real.log_pow]
      push_cast
      linarith [hz i]
    have h2 := gap i
    rw [h1, sub_self] at h2
    have h3 : ∑ j, w i j * (1 - (Real.sqrt (d j))⁻¹) ^ 2 = 0 :=
      le_antisymm (nonpos_of_mul_nonpos_right h2 hnu)
        (Finset.sum_nonneg fun j _ => mul_nonneg (hw0 i j) (sq_nonneg _))
    exact (Finset.sum_eq_zero_iff_of_nonneg fun j _ => mul_nonneg (hw0 i j) (sq_nonneg _)).1 h3 j
      (Finset.mem_univ j)
  have hd1 : ∀ j, d j = 1 := fun j => by
    by_contra hne
    have hw1 : ∀ i, w i j = 0 := fun i => by
      rcases mul_eq_zero.1 (hz2 i j) with h | h
      · exact h
      · exfalso
        apply hne
        have h4 : (Real.sqrt (d j))⁻¹ = 1 := by
          have := pow_eq_zero_iff (two_ne_zero) |>.1 h
          linarith
        rw [inv_eq_one] at h4
        rw [← Real.sq_sqrt (hd j).le, h4, one_pow]
    have hrow : (fun k => star (K j k)) = 0 := hX _ fun i => by
      have h5 : (K *ᵥ sample X i) j = 0 := by
        have := hw1 i
        simp only [hw] at this
        exact norm_eq_zero.1 (pow_eq_zero_iff two_ne_zero |>.1 this)
      have h6 : star ((K *ᵥ sample X i) j) = 0 := by rw [h5, star_zero]
      rw [← h6]
      simp only [mulVec, dotProduct, star_sum, star_mul', Pi.star_apply]
      exact Finset.sum_congr rfl fun k _ => mul_comm _ _
    have hdet : K.det = 0 := det_eq_zero_of_row_eq_zero j fun k => by
      have := congrFun hrow k
      simpa using this
    exact ((Matrix.isUnit_iff_isUnit_det K).1 hK).ne_zero hdet
  refine congr_injective hK ?_
  rw [k0, k1]
  simp only [hd1, RCLike.ofReal_one, diagonal_one]

theorem kron_diagonal (l : Fin a → 𝕜) (m : Fin b → 𝕜) :
    kron (diagonal l) (diagonal m) =
      diagonal fun j => l (finProdFinEquiv.symm j).1 * m (finProdFinEquiv.symm j).2 := by
  unfold kron
  rw [diagonal_kronecker_diagonal]
  exact submatrix_diagonal_equiv _ _

theorem kron_one_one : kron (1 : Matrix (Fin a) (Fin a) 𝕜) (1 : Matrix (Fin b) (Fin b) 𝕜) = 1 := by
  rw [← diagonal_one, ← diagonal_one, kron_diagonal]
  simp

/-- Two Kronecker products of least cost are equal. -/
theorem kron_student_unique {nu : ℝ} (hnu : 0 < nu) (X : Matrix (Fin N) (Fin (a * b)) 𝕜)
    (hX : Spans X) {A A' : Matrix (Fin a) (Fin a) 𝕜} {B B' : Matrix (Fin b) (Fin b) 𝕜}
    (hA : A.PosDef) (hB : B.PosDef) (hA' : A'.PosDef) (hB' : B'.PosDef)
    (h : ∀ (C : Matrix (Fin a) (Fin a) 𝕜) (D : Matrix (Fin b) (Fin b) 𝕜), C.PosDef → D.PosDef →
      studentCost nu X (kron A B) ≤ studentCost nu X (kron C D))
    (h' : ∀ (C : Matrix (Fin a) (Fin a) 𝕜) (D : Matrix (Fin b) (Fin b) 𝕜), C.PosDef → D.PosDef →
      studentCost nu X (kron A' B') ≤ studentCost nu X (kron C D)) :
    kron A' B' = kron A B := by
  obtain ⟨G, x, g1, g2⟩ := simultaneous_exp A A' hA hA'
  obtain ⟨H, y, k1, k2⟩ := simultaneous_exp B B' hB hB'
  have hG := whitening_isUnit g1
  have hH := whitening_isUnit k1
  obtain ⟨C, hC, g3⟩ := exists_unwhiten hG fun j => x j / 2
  obtain ⟨D, hD, k3⟩ := exists_unwhiten hH fun j => y j / 2
  have tr : ∀ (P : Matrix (Fin a) (Fin a) 𝕜) (Q : Matrix (Fin b) (Fin b) 𝕜),
      kron G H * kron P Q * (kron G H)ᴴ = kron (G * P * Gᴴ) (H * Q * Hᴴ) := fun P Q => by
    rw [kron_conjTranspose, kron_mul, kron_mul]
  refine student_midpoint hnu X hX (K := kron G H)
    (d := fun j => Real.exp (x (finProdFinEquiv.symm j).1 + y (finProdFinEquiv.symm j).2))
    (Sm := kron C D) ?_ (fun j => Real.exp_pos _) (kron_posDef hA hB) (kron_posDef hA' hB')
    (kron_posDef hC hD) ?_ ?_ ?_ (h C D hC hD) (h' C D hC hD)
  · rw [Matrix.isUnit_iff_isUnit_det, det_kron]
    exact (((Matrix.isUnit_iff_isUnit_det G).1 hG).pow b).mul
      (((Matrix.isUnit_iff_isUnit_det H).1 hH).pow a)
  · rw [tr, g1, k1, kron_one_one]
  · rw [tr, g2, k2, kron_diagonal]
    congr 1
    funext j
    rw [Real.exp_add, RCLike.ofReal_mul]
  · rw [tr, g3, k3, kron_diagonal]
    congr 1
    funext j
    rw [← RCLike.ofReal_mul, ← Real.exp_add, Real.sqrt_eq_rpow, ← Real.exp_mul]
    congr 2
    ring

/-- A Kronecker product of least cost. -/
theorem kron_student_min {nu : ℝ} (hnu : 0 < nu) (hN : 0 < N) (ha : 0 < a) (hb : 0 < b)
    (X : Matrix (Fin N) (Fin (a * b)) 𝕜)
    (H : ∀ V : Submodule 𝕜 (Fin (a * b) → 𝕜), V ≠ ⊤ →
      (nu + (a * b : ℕ)) * samplesIn X V < N * (nu + Module.finrank 𝕜 V)) :
    ∃ (A : Matrix (Fin a) (Fin a) 𝕜) (B : Matrix (Fin b) (Fin b) 𝕜), A.PosDef ∧ B.PosDef ∧
      ∀ (C : Matrix (Fin a) (Fin a) 𝕜) (D : Matrix (Fin b) (Fin b) 𝕜), C.PosDef → D.PosDef →
        studentCost nu X (kron A B) ≤ studentCost nu X (kron C D) := by
  have hp : 0 < a * b := Nat.mul_pos ha hb
  obtain ⟨c, e, he, hco⟩ := student_coercive hnu hp hN X H
  set L := studentCost nu X with hL
  have hbetween : ∀ S : Matrix (Fin (a * b)) (Fin (a * b)) 𝕜, S.PosDef → ∀ v : ℝ, L S ≤ v →
      c ≤ v ∧ Loewner ((Real.exp (-((v - c) / e)) : 𝕜) • 1) S ∧
        Loewner S ((Real.exp ((v - c) / e) : 𝕜) • 1) := fun S hS v hv => by
    obtain ⟨U, l, hU, hl, hanti, hSe⟩ := spectral_sorted hS
    have hk : ∀ k, |Real.log (l k)| ≤ (v - c) / e := fun k => by
      have := hco U hU l ⟨hl, hanti⟩ k
      rw [← hSe] at this
      rw [le_div_iff₀ he]
      linarith
    refine ⟨?_, ?_, ?_⟩
    · have h1 := (abs_nonneg _).trans (hk ⟨0, hp⟩)
      rw [le_div_iff₀ he] at h1
      linarith
    · rw [hSe]
      exact loewner_le_eigen hU fun k => (Real.le_log_iff_exp_le (hl k)).1 (abs_le.1 (hk k)).1
    · rw [hSe]
      exact loewner_eigen_le hU fun k => (Real.log_le_iff_le_exp (hl k)).1 (abs_le.1 (hk k)).2
  set T : Set ℝ := {v | ∃ (A : Matrix (Fin a) (Fin a) 𝕜) (B : Matrix (Fin b) (Fin b) 𝕜),
    A.PosDef ∧ B.PosDef ∧ L (kron A B) = v} with hT
  have hbdd : BddBelow T := ⟨c, by
    rintro _ ⟨A, B, hA, hB, rfl⟩
    exact (hbetween _ (kron_posDef hA hB) _ le_rfl).1⟩
  have hne : T.Nonempty := ⟨_, 1, 1, PosDef.one, PosDef.one, rfl⟩
  obtain ⟨u, hanti, hu, huT⟩ := exists_seq_tendsto_sInf hne hbdd
  choose A₀ B₀ hA₀ hB₀ huv using huT
  -- the first factor of trace one
  let t : ℕ → ℝ := fun k => RCLike.re (trace (A₀ k))
  have : Nonempty (Fin a) := ⟨⟨0, ha⟩⟩
  have htr : ∀ k, (t k : 𝕜) = trace (A₀ k) ∧ 0 < t k := fun k => by
    have h1 := (hA₀ k).trace_pos
    rw [RCLike.pos_iff] at h1
    refine ⟨?_, h1.1⟩
    apply RCLike.ext <;> simp [t, h1.2]
  let A : ℕ → Matrix (Fin a) (Fin a) 𝕜 := fun k => (((t k)⁻¹ : ℝ) : 𝕜) • A₀ k
  let B : ℕ → Matrix (Fin b) (Fin b) 𝕜 := fun k => ((t k : ℝ) : 𝕜) • B₀ k
  have hA : ∀ k, (A k).PosDef := fun k => (hA₀ k).smul (by exact_mod_cast inv_pos.2 (htr k).2)
  have hB : ∀ k, (B k).PosDef := fun k => (hB₀ k).smul (by exact_mod_cast (htr k).2)
  have hAB : ∀ k, kron (A k) (B k) = kron (A₀ k) (B₀ k) := fun k => by
    simp only [A, B, kron_smul_smul]
    rw [← RCLike.ofReal_mul, inv_mul_cancel₀ (htr k).2.ne', RCLike.ofReal_one, one_smul]
  have hA1 : ∀ k, trace (A k) = 1 := fun k => by
    simp only [A, trace_smul, smul_eq_mul]
    rw [← (htr k).1, ← RCLike.ofReal_mul, inv_mul_cancel₀ (htr k).2.ne', RCLike.ofReal_one]
  have hbt : ∀ k, Loewner ((Real.exp (-((u 0 - c) / e)) : 𝕜) • 1) (kron (A k) (B k)) ∧
      Loewner (kron (A k) (B k)) ((Real.exp ((u 0 - c) / e) : 𝕜) • 1) := fun k =>
    (hbetween _ (kron_posDef (hA k) (hB k)) (u 0)
      (by rw [hAB, huv]; exact hanti (Nat.zero_le k))).2
  have hfA : ∀ k, frob (A k) ≤ 1 := fun k => by
    have := frob_le_trace (hA k).posSemidef
    rwa [hA1, RCLike.one_re] at this
  have hfB : ∀ k, frob (B k) ≤
      RCLike.re ((Real.exp ((u 0 - c) / e) : 𝕜) • (1 : Matrix (Fin (a * b)) (Fin (a * b)) 𝕜)).trace :=
    fun k => by
      have h1 := (hbt k).2.trace_le
      rw [trace_kron', hA1, one_mul] at h1
      exact (frob_le_trace (hB k).posSemidef).trans h1
  obtain ⟨A', f, hf, hlA⟩ := bounded_subseq hfA
  obtain ⟨B', g, hg, hlB⟩ := bounded_subseq (T := B ∘ f) fun k => hfB (f k)
  have hlA' : Tendsto (fun k => A (f (g k))) atTop (𝓝 A') := hlA.comp hg.tendsto_atTop
  have hlB' : Tendsto (fun k => B (f (g k))) atTop (𝓝 B') := hlB
  have hlim := tendsto_kron hlA' hlB'
  have hpd : (kron A' B').PosDef := by
    have h1 : Loewner ((Real.exp (-((u 0 - c) / e)) : 𝕜) • 1) (kron A' B') :=
      Loewner.of_tendsto tendsto_const_nhds hlim fun k => (hbt (f (g k))).1
    exact h1.posDef (PosDef.one.smul (by exact_mod_cast Real.exp_pos _))
  have hdet : (kron A' B').det ≠ 0 := hpd.det_pos.ne'
  rw [det_kron] at hdet
  have hA' : A'.PosDef := (posSemidef_of_tendsto hlA' fun k => (hA _).posSemidef).posDef_iff_det_ne_zero.2
    fun h0 => hdet (by rw [h0, zero_pow hb.ne', zero_mul])
  have hB' : B'.PosDef := (posSemidef_of_tendsto hlB' fun k => (hB _).posSemidef).posDef_iff_det_ne_zero.2
    fun h0 => hdet (by rw [h0, zero_pow ha.ne', mul_zero])
  refine ⟨A', B', hA', hB', fun C D hC hD => ?_⟩
  have hl1 : Tendsto (fun k => L (kron (A (f (g k))) (B (f (g k))))) atTop (𝓝 (L (kron A' B'))) :=
    tendsto_studentCost X hlim hpd fun i => by
      have := qf_nonneg hpd (sample X i)
      linarith
  have hl2 : Tendsto (fun k => L (kron (A (f (g k))) (B (f (g k))))) atTop (𝓝 (sInf T)) := by
    have : (fun k => L (kron (A (f (g k))) (B (f (g k))))) = u ∘ (f ∘ g) := by
      funext k
      simp only [hAB, huv, Function.comp]
    rw [this]
    exact hu.comp (hf.comp hg).tendsto_atTop
  rw [tendsto_nhds_unique hl1 hl2]
  exact csInf_le hbdd ⟨C, D, hC, hD, rfl⟩

end

end RS
