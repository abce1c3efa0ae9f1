import Verif.Lemmas.HuberConverge

/-! The fixed point of the Huber iteration lies between multiples of a matrix at which one step is
close to the identity. -/
set_option autoImplicit false

namespace RS
open Matrix ComplexOrder Filter Topology

section
variable {𝕜 : Type} [RCLike 𝕜] {N p : ℕ}

/-- The largest and the smallest factor. -/
theorem extreme_factors (hp : 0 < p) {S Q : Matrix (Fin p) (Fin p) 𝕜} (hS : S.PosDef)
    (hQ : Q.PosDef) : ∃ l r : ℝ, 0 < l ∧ l ≤ r ∧ Loewner ((l : 𝕜) • S) Q ∧ Loewner Q ((r : 𝕜) • S) ∧
      (∀ c : ℝ, Loewner ((c : 𝕜) • S) Q → c ≤ l) ∧ ∀ c : ℝ, Loewner Q ((c : 𝕜) • S) → r ≤ c := by
  obtain ⟨G, m, hG, hm, h1, h2⟩ := simultaneous S Q hS hQ
  have : Nonempty (Fin p) := ⟨⟨0, hp⟩⟩
  obtain ⟨i, hi⟩ := Finite.exists_min m
  obtain ⟨k, hk⟩ := Finite.exists_max m
  have e : ∀ c : ℝ, G * ((c : 𝕜) • S) * Gᴴ = diagonal fun _ => (c : 𝕜) := fun c => by
    rw [Matrix.mul_smul, Matrix.smul_mul, h1, smul_one_eq_diagonal]
  have a1 : ∀ c : ℝ, Loewner ((c : 𝕜) • S) Q ↔ ∀ j, c ≤ m j := fun c => by
    rw [← Loewner.congr_iff hG, e, h2, loewner_diagonal]
  have a2 : ∀ c : ℝ, Loewner Q ((c : 𝕜) • S) ↔ ∀ j, m j ≤ c := fun c => by
    rw [← Loewner.congr_iff hG, e, h2, loewner_diagonal]
  exact ⟨m i, m k, hm i, hi k, (a1 _).2 hi, (a2 _).2 hk, fun c h => (a1 c).1 h i,
    fun c h => (a2 c).1 h k⟩

theorem mStep_anti {w : ℝ → ℝ} (hw : Monotone w) (X : Matrix (Fin N) (Fin p) 𝕜)
    {A B : Matrix (Fin p) (Fin p) 𝕜} (hA : A.PosDef) (h : Loewner A B) :
    Loewner (mStep w X B) (mStep w X A) :=
  scatter_mono (fun _ => hw (qf_anti hA h _)) X

theorem mStep_scale {w w' : ℝ → ℝ} {c : ℝ} (X : Matrix (Fin N) (Fin p) 𝕜)
    {A B : Matrix (Fin p) (Fin p) 𝕜}
    (h : ∀ i, w (qf A (sample X i)) ≤ c * w' (qf B (sample X i))) :
    Loewner (mStep w X A) ((c : 𝕜) • mStep w' X B) := by
  have := scatter_mono h X
  rw [scatter_smul] at this
  exact this

theorem wHuber_div {lbda beta : ℝ} (hl : 0 < lbda) (hb : 0 < beta) {s t c : ℝ} (hc : 1 ≤ c)
    (h : s ≤ c * t) : wHuber lbda beta s ≤ c * wHuber lbda beta t := by
  unfold wHuber
  rw [mul_left_comm]
  refine mul_le_mul_of_nonneg_left (max_le ?_ ?_) hb.le
  · exact hc.trans (le_mul_of_one_le_right (by linarith) (le_max_left _ _))
  · calc s / lbda ≤ c * t / lbda := div_le_div_of_nonneg_right h hl.le
      _ = c * (t / lbda) := mul_div_assoc _ _ _
      _ ≤ _ := mul_le_mul_of_nonneg_left (le_max_right _ _) (by linarith)

theorem huber_sandwich {lbda beta : ℝ} (hl : 0 < lbda) (hb : 0 < beta) (hp : 0 < p)
    (X : Matrix (Fin N) (Fin p) 𝕜) {S Q : Matrix (Fin p) (Fin p) 𝕜} (hS : S.PosDef) (hQ : Q.PosDef)
    (hfix : mStep (wHuber lbda beta) X Q = Q) {d c η : ℝ} (hd : 0 < d) (hc : 0 < c)
    (hη : η < c) (hηd : d < 1 - η)
    (hup : Loewner (mStep (wHuber lbda beta) X ((d : 𝕜) • S)) ((((1 - c) / d : ℝ) : 𝕜) • S))
    (hlo : Loewner (((1 - η : ℝ) : 𝕜) • S) (mStep (wHuber lbda beta) X S)) :
    Loewner ((d : 𝕜) • S) Q ∧ Loewner Q (((d⁻¹ : ℝ) : 𝕜) • S) := by
  have hmono := wHuber_monotone hl hb
  obtain ⟨l, r, hl0, hlr, h1, h2, h3, h4⟩ := extreme_factors hp hS hQ
  have hr0 : 0 < r := hl0.trans_le hlr
  have hdl : d ≤ l := by
    by_contra hcon
    push Not at hcon
    have hlS : ((l : 𝕜) • S).PosDef := hS.smul (by exact_mod_cast hl0)
    -- the upper factor
    have u1 := mStep_anti hmono X hlS h1
    rw [hfix] at u1
    have u2 : Loewner (mStep (wHuber lbda beta) X ((l : 𝕜) • S))
        (((d / l : ℝ) : 𝕜) • mStep (wHuber lbda beta) X ((d : 𝕜) • S)) := by
      refine mStep_scale X fun i => wHuber_div hl hb ((one_le_div hl0).2 hcon.le) (le_of_eq ?_)
      rw [qf_smul hS hl0, qf_smul hS hd]
      field_simp
    have u3 := u1.trans (u2.trans (hup.smul (div_pos hd hl0).le))
    rw [smul_smul, ← RCLike.ofReal_mul] at u3
    have u4 := h4 _ u3
    have u5 : r * l ≤ 1 - c := by
      have : d / l * ((1 - c) / d) = (1 - c) / l := by field_simp
      rw [this, le_div_iff₀ hl0] at u4
      exact u4
    rcases le_or_gt 1 r with hr | hr
    · have v1 := mStep_anti hmono X hQ h2
      rw [hfix] at v1
      have v2 : Loewner (mStep (wHuber lbda beta) X S)
          ((r : 𝕜) • mStep (wHuber lbda beta) X ((r : 𝕜) • S)) := by
        refine mStep_scale X fun i => wHuber_div hl hb hr (le_of_eq ?_)
        rw [qf_smul hS hr0]
        field_simp
      have v3 := ((hlo.trans v2).trans (v1.smul hr0.le)).smul (inv_pos.2 hr0).le
      rw [smul_smul, smul_smul, ← RCLike.ofReal_mul, ← RCLike.ofReal_mul, inv_mul_cancel₀ hr0.ne',
        RCLike.ofReal_one, one_smul] at v3
      have v4 := h3 _ v3
      rw [inv_mul_le_iff₀ hr0] at v4
      linarith
    · have v0 : Loewner Q S := by
        have := h2.trans (loewner_smul_le hS.posSemidef hr.le)
        rwa [RCLike.ofReal_one, one_smul] at this
      have v1 := mStep_anti hmono X hQ v0
      rw [hfix] at v1
      have v4 := h3 _ (hlo.trans v1)
      linarith
  have hdS : ((d : 𝕜) • S).PosDef := hS.smul (by exact_mod_cast hd)
  have hdQ := (loewner_smul_le hS.posSemidef hdl).trans h1
  refine ⟨hdQ, ?_⟩
  have u1 := mStep_anti hmono X hdS hdQ
  rw [hfix] at u1
  refine (u1.trans hup).trans (loewner_smul_le hS.posSemidef ?_)
  rw [div_eq_mul_inv]
  exact mul_le_of_le_one_left (inv_pos.2 hd).le (by linarith)

end
end RS
