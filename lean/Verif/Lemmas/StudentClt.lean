import Verif.Lemmas.EmpClt
import Verif.Props.Consist
import Verif.Lemmas.ConsistHuber
import Verif.Lemmas.Breakdown

/-! Central limit theorem for the Student estimators: first-order expansion of the fixed point. -/
set_option autoImplicit false

namespace RS
open Matrix ComplexOrder Filter Topology MeasureTheory ProbabilityTheory

section
variable {𝕜 : Type} [RCLike 𝕜] {N p : ℕ}

/-- The real inner product of matrices. -/
noncomputable def mip (K A : Matrix (Fin p) (Fin p) 𝕜) : ℝ := RCLike.re (Kᴴ * A).trace

/-- `Re x^H K x` -/
noncomputable def hfm (K : Matrix (Fin p) (Fin p) 𝕜) (x : Fin p → 𝕜) : ℝ :=
  RCLike.re (star x ⬝ᵥ (K *ᵥ x))

/-- The sum of the absolute values of the entries. -/
noncomputable def en (A : Matrix (Fin p) (Fin p) 𝕜) : ℝ := ∑ i, ∑ j, ‖A i j‖

theorem en_nonneg (A : Matrix (Fin p) (Fin p) 𝕜) : 0 ≤ en A :=
  Finset.sum_nonneg fun _ _ => Finset.sum_nonneg fun _ _ => norm_nonneg _

theorem entry_le_en (A : Matrix (Fin p) (Fin p) 𝕜) (i j : Fin p) : ‖A i j‖ ≤ en A :=
  (Finset.single_le_sum (f := fun j => ‖A i j‖) (fun _ _ => norm_nonneg _) (Finset.mem_univ j)).trans
    (Finset.single_le_sum (f := fun i => ∑ j, ‖A i j‖)
      (fun _ _ => Finset.sum_nonneg fun _ _ => norm_nonneg _) (Finset.mem_univ i))

theorem en_add_le (A B : Matrix (Fin p) (Fin p) 𝕜) : en (A + B) ≤ en A + en B := by
  unfold en
  rw [← Finset.sum_add_distrib]
  refine Finset.sum_le_sum fun i _ => ?_
  rw [← Finset.sum_add_distrib]
  exact Finset.sum_le_sum fun j _ => norm_add_le _ _

theorem en_neg (A : Matrix (Fin p) (Fin p) 𝕜) : en (-A) = en A := by simp [en]

theorem en_mul_le (A B : Matrix (Fin p) (Fin p) 𝕜) : en (A * B) ≤ en A * en B := by
  have h1 : ∀ i, ∑ j, ‖(A * B) i j‖ ≤ ∑ k, ‖A i k‖ * en B := fun i => by
    calc ∑ j, ‖(A * B) i j‖ ≤ ∑ j, ∑ k, ‖A i k‖ * ‖B k j‖ := Finset.sum_le_sum fun j _ => by
          rw [mul_apply]
          exact (norm_sum_le _ _).trans (Finset.sum_le_sum fun k _ => (norm_mul _ _).le)
      _ = ∑ k, ‖A i k‖ * ∑ j, ‖B k j‖ := by
          rw [Finset.sum_comm]
          exact Finset.sum_congr rfl fun k _ => (Finset.mul_sum _ _ _).symm
      _ ≤ ∑ k, ‖A i k‖ * en B := Finset.sum_le_sum fun k _ => mul_le_mul_of_nonneg_left
          (Finset.single_le_sum (f := fun k => ∑ j, ‖B k j‖)
            (fun _ _ => Finset.sum_nonneg fun _ _ => norm_nonneg _) (Finset.mem_univ k)) (norm_nonneg _)
  calc en (A * B) ≤ ∑ i, ∑ k, ‖A i k‖ * en B := Finset.sum_le_sum fun i _ => h1 i
    _ = en A * en B := by
        unfold en
        rw [Finset.sum_mul]
        exact Finset.sum_congr rfl fun i _ => by rw [← Finset.sum_mul]

theorem tendsto_en {T : ℕ → Matrix (Fin p) (Fin p) 𝕜} {S : Matrix (Fin p) (Fin p) 𝕜}
    (h : Tendsto T atTop (𝓝 S)) : Tendsto (fun k => en (T k - S)) atTop (𝓝 0) := by
  have hc : Continuous fun A : Matrix (Fin p) (Fin p) 𝕜 => en (A - S) := by
    unfold en
    fun_prop
  have := (hc.tendsto S).comp h
  rw [sub_self, show en (0 : Matrix (Fin p) (Fin p) 𝕜) = 0 by simp [en]] at this
  exact this

theorem mip_apply (K A : Matrix (Fin p) (Fin p) 𝕜) :
    mip K A = ∑ i, ∑ j, RCLike.re (star (K j i) * A j i) := by
  simp only [mip, trace, diag, mul_apply, conjTranspose_apply, map_sum]

theorem mip_comm (K A : Matrix (Fin p) (Fin p) 𝕜) : mip K A = mip A K := by
  rw [mip_apply, mip_apply]
  refine Finset.sum_congr rfl fun i _ => Finset.sum_congr rfl fun j _ => ?_
  rw [← RCLike.conj_re]
  simp only [map_mul, RCLike.star_def, RCLike.conj_conj, mul_comm]

theorem mip_add (K A B : Matrix (Fin p) (Fin p) 𝕜) : mip K (A + B) = mip K A + mip K B := by
  simp [mip, Matrix.mul_add]

theorem mip_sub (K A B : Matrix (Fin p) (Fin p) 𝕜) : mip K (A - B) = mip K A - mip K B := by
  simp [mip, Matrix.mul_sub]

theorem mip_smul (K A : Matrix (Fin p) (Fin p) 𝕜) (c : ℝ) : mip K ((c : 𝕜) • A) = c * mip K A := by
  rw [mip, Matrix.mul_smul, trace_smul, smul_eq_mul, RCLike.re_ofReal_mul]
  rfl

theorem mip_sum {ι : Type*} (s : Finset ι) (K : Matrix (Fin p) (Fin p) 𝕜)
    (A : ι → Matrix (Fin p) (Fin p) 𝕜) : mip K (∑ i ∈ s, A i) = ∑ i ∈ s, mip K (A i) := by
  simp [mip, Matrix.mul_sum, trace_sum]

theorem abs_mip_le (K A : Matrix (Fin p) (Fin p) 𝕜) : |mip K A| ≤ en K * en A := by
  rw [mip_apply]
  refine (Finset.abs_sum_le_sum_abs _ _).trans ?_
  calc ∑ i, |∑ j, RCLike.re (star (K j i) * A j i)| ≤ ∑ i, ∑ j, en K * ‖A j i‖ :=
        Finset.sum_le_sum fun i _ => (Finset.abs_sum_le_sum_abs _ _).trans
          (Finset.sum_le_sum fun j _ => (RCLike.abs_re_le_norm _).trans (by
            rw [norm_mul, norm_star]
            exact mul_le_mul_of_nonneg_right (entry_le_en K j i) (norm_nonneg _)))
    _ = en K * en A := by
        rw [Finset.sum_comm]
        unfold en
        rw [Finset.mul_sum]
        exact Finset.sum_congr rfl fun j _ => (Finset.mul_sum _ _ _).symm

theorem mip_sandwich {S : Matrix (Fin p) (Fin p) 𝕜} (hS : S.IsHermitian)
    (K D : Matrix (Fin p) (Fin p) 𝕜) : mip K (S * D * S) = mip (S * K * S) D := by
  unfold mip
  rw [conjTranspose_mul, conjTranspose_mul, hS.eq, ← Matrix.mul_assoc, ← Matrix.mul_assoc,
    trace_mul_comm, ← Matrix.mul_assoc, ← Matrix.mul_assoc, Matrix.mul_assoc S Kᴴ S]

theorem hfm_apply (K : Matrix (Fin p) (Fin p) 𝕜) (x : Fin p → 𝕜) :
    hfm K x = ∑ i, ∑ j, RCLike.re (K i j * (star (x i) * x j)) := by
  simp only [hfm, dotProduct, mulVec, Finset.mul_sum, map_sum, Pi.star_apply]
  exact Finset.sum_congr rfl fun i _ => Finset.sum_congr rfl fun j _ => by congr 1; ring

theorem mip_outer (K : Matrix (Fin p) (Fin p) 𝕜) (x : Fin p → 𝕜) :
    mip K (vecMulVec x (star x)) = hfm K x := by
  rw [mip_apply, hfm_apply, Finset.sum_comm]
  refine Finset.sum_congr rfl fun i _ => Finset.sum_congr rfl fun j _ => ?_
  rw [← RCLike.conj_re, vecMulVec_apply]
  simp only [map_mul, RCLike.star_def, RCLike.conj_conj, Pi.star_apply]

theorem hfm_add (K L : Matrix (Fin p) (Fin p) 𝕜) (x : Fin p → 𝕜) :
    hfm (K + L) x = hfm K x + hfm L x := by simp [hfm, add_mulVec]

theorem hfm_smul (c : ℝ) (K : Matrix (Fin p) (Fin p) 𝕜) (x : Fin p → 𝕜) :
    hfm (c • K) x = c * hfm K x := by
  rw [hfm_apply, hfm_apply, Finset.mul_sum]
  refine Finset.sum_congr rfl fun i _ => ?_
  rw [Finset.mul_sum]
  refine Finset.sum_congr rfl fun j _ => ?_
  rw [Matrix.smul_apply, smul_mul_assoc, RCLike.smul_re]

theorem hfm_le (K : Matrix (Fin p) (Fin p) 𝕜) (x : Fin p → 𝕜) : |hfm K x| ≤ en K * ∑ j, ‖x j‖ ^ 2 :=
  quad_le K x

theorem continuous_hfm (K : Matrix (Fin p) (Fin p) 𝕜) : Continuous (hfm K) := by
  unfold hfm
  exact RCLike.continuous_re.comp (continuous_id.star.dotProduct
    (Continuous.matrix_mulVec continuous_const continuous_id))

theorem qf_sub_hfm (S Q : Matrix (Fin p) (Fin p) 𝕜) (x : Fin p → 𝕜) :
    qf Q x = qf S x - hfm (S⁻¹ - Q⁻¹) x := by
  simp [qf, hfm, sub_mulVec]

theorem mip_mStep (w : ℝ → ℝ) (X : Matrix (Fin N) (Fin p) 𝕜) (K Q : Matrix (Fin p) (Fin p) 𝕜) :
    mip K (mStep w X Q) = (N : ℝ)⁻¹ * ∑ i, w (qf Q (sample X i)) * hfm K (sample X i) := by
  unfold mStep scatter
  have e : (N : 𝕜)⁻¹ = (((N : ℝ)⁻¹ : ℝ) : 𝕜) := by push_cast; rfl
  rw [e, mip_smul, mip_sum]
  congr 1
  refine Finset.sum_congr rfl fun i _ => ?_
  rw [mip_smul, mip_outer]

theorem qf_ge_nsq {S : Matrix (Fin p) (Fin p) 𝕜} (hS : S.PosDef) :
    ∃ c : ℝ, 0 < c ∧ ∀ x : Fin p → 𝕜, c * ∑ j, ‖x j‖ ^ 2 ≤ qf S x := by
  have h0 : 0 < frob S + 1 := by linarith [frob_nonneg S]
  refine ⟨(frob S + 1)⁻¹, inv_pos.2 h0, fun x => ?_⟩
  have hl : Loewner S (((frob S + 1 : ℝ) : 𝕜) • 1) := by
    have h1 := (hermitian_le_frob hS.isHermitian).add (PosSemidef.one (n := Fin p) (R := 𝕜))
    have e : ((frob S + 1 : ℝ) : 𝕜) • (1 : Matrix (Fin p) (Fin p) 𝕜) - S = (frob S : 𝕜) • 1 - S + 1 := by
      push_cast
      rw [add_smul, one_smul]
      abel
    unfold Loewner
    rw [e]
    exact h1
  have := qf_ge_of_le h0 hS hl x
  rwa [div_eq_inv_mul] at this

/-- Cauchy-Schwarz -/
theorem hfm_sq_le {S : Matrix (Fin p) (Fin p) 𝕜} (hS : S.PosDef) (K : Matrix (Fin p) (Fin p) 𝕜)
    (x : Fin p → 𝕜) : hfm K x ^ 2 ≤ qf S x * hfm (Kᴴ * S * K) x := by
  have hu := hS.isUnit
  have hdet := (Matrix.isUnit_iff_isUnit_det S).1 hu
  have key : ∀ t : ℝ, 0 ≤ hfm (Kᴴ * S * K) x * (t * t) + (-2 * hfm K x) * t + qf S x := fun t => by
    have h0 := qf_nonneg hS (x - (t : 𝕜) • (S *ᵥ (K *ᵥ x)))
    have e : qf S (x - (t : 𝕜) • (S *ᵥ (K *ᵥ x))) =
        hfm (Kᴴ * S * K) x * (t * t) + (-2 * hfm K x) * t + qf S x := by
      have i1 : S⁻¹ *ᵥ (S *ᵥ (K *ᵥ x)) = K *ᵥ x := by
        rw [mulVec_mulVec, nonsing_inv_mul _ hdet, one_mulVec]
      have i2 : star (S *ᵥ (K *ᵥ x)) ⬝ᵥ (S⁻¹ *ᵥ x) = star (K *ᵥ x) ⬝ᵥ x := by
        rw [star_mulVec, hS.isHermitian.eq, ← dotProduct_mulVec, mulVec_mulVec, mul_nonsing_inv _ hdet,
          one_mulVec]
      have i3 : RCLike.re (star (K *ᵥ x) ⬝ᵥ x) = hfm K x := by
        rw [← RCLike.conj_re, ← RCLike.star_def, star_dotProduct, star_star]
        rfl
      have i4 : RCLike.re (star (S *ᵥ (K *ᵥ x)) ⬝ᵥ (K *ᵥ x)) = hfm (Kᴴ * S * K) x := by
        rw [star_mulVec, hS.isHermitian.eq, ← dotProduct_mulVec, star_mulVec, ← dotProduct_mulVec, hfm,
          ← mulVec_mulVec, ← mulVec_mulVec]
      unfold qf
      rw [mulVec_sub, mulVec_smul, i1, star_sub, star_smul, RCLike.star_def, RCLike.conj_ofReal,
        sub_dotProduct, dotProduct_sub, dotProduct_sub, dotProduct_smul, smul_dotProduct, smul_dotProduct,
        dotProduct_smul, i2]
      simp only [map_sub, smul_eq_mul, RCLike.re_ofReal_mul]
      have i5 : RCLike.re (star x ⬝ᵥ (K *ᵥ x)) = hfm K x := rfl
      rw [i3, i4, i5]
      ring
    rwa [e] at h0
  have := discrim_le_zero key
  unfold discrim at this
  nlinarith

/-- The weight and its first-order expansion. -/
theorem weight_expand {κ c n a d k eD eK : ℝ} (hκ : 0 ≤ κ) (hc : 0 < c) (hn : 0 ≤ n)
    (ha : κ + c * n ≤ a) (hd : |d| ≤ eD * n) (hk : |k| ≤ eK * n) (heK : 0 ≤ eK)
    (hD : eD ≤ c / 2) : |k / (a - d) - k / a - k * d / a ^ 2| ≤ 2 * eK / c ^ 3 * eD ^ 2 := by
  have hcn : 0 ≤ c * n := mul_nonneg hc.le hn
  rcases (hκ.trans (by linarith) : 0 ≤ a).eq_or_lt with h0 | ha0
  · have hn0 : n = 0 := by
      have : c * n = 0 := le_antisymm (by linarith) hcn
      exact (mul_eq_zero.1 this).resolve_left hc.ne'
    have hk0 : k = 0 := by
      rw [hn0, mul_zero] at hk
      exact abs_eq_zero.1 (hk.antisymm (abs_nonneg _))
    rw [hk0]
    simp only [zero_div, zero_mul, sub_zero, abs_zero]
    positivity
  have hd1 : d ≤ c / 2 * n := (le_abs_self d).trans (hd.trans (mul_le_mul_of_nonneg_right hD hn))
  have hb0 : 0 < a - d := by nlinarith
  have hb : c / 2 * n ≤ a - d := by nlinarith
  have e : k / (a - d) - k / a - k * d / a ^ 2 = k * d ^ 2 / (a ^ 2 * (a - d)) := by
    field_simp
    ring
  have hnum : |k| * d ^ 2 ≤ eK * eD ^ 2 * n ^ 3 := by
    have h1 : d ^ 2 ≤ (eD * n) ^ 2 := by rw [← sq_abs]; exact pow_le_pow_left₀ (abs_nonneg _) hd 2
    calc |k| * d ^ 2 ≤ (eK * n) * (eD * n) ^ 2 := mul_le_mul hk h1 (sq_nonneg _) (mul_nonneg heK hn)
      _ = _ := by ring
  have hn3 : n ^ 3 * c ^ 3 ≤ 2 * (a ^ 2 * (a - d)) := by
    have h1 : (c * n) ^ 2 ≤ a ^ 2 := pow_le_pow_left₀ hcn (by linarith) 2
    have h2 : (c * n) ^ 2 * (c / 2 * n) ≤ a ^ 2 * (a - d) :=
      mul_le_mul h1 hb (by positivity) (sq_nonneg _)
    nlinarith
  rw [e, abs_div, abs_mul, abs_of_nonneg (sq_nonneg d), abs_of_pos (mul_pos (pow_pos ha0 2) hb0),
    div_le_iff₀ (mul_pos (pow_pos ha0 2) hb0)]
  refine hnum.trans ?_
  have h3 : n ^ 3 ≤ 2 * (a ^ 2 * (a - d)) / c ^ 3 := by rw [le_div_iff₀ (by positivity)]; exact hn3
  calc eK * eD ^ 2 * n ^ 3 ≤ eK * eD ^ 2 * (2 * (a ^ 2 * (a - d)) / c ^ 3) :=
        mul_le_mul_of_nonneg_left h3 (by positivity)
    _ = _ := by ring

/-- First-order expansion of one step of the algorithm. -/
theorem step_expand {κ : ℝ} (hκ : 0 ≤ κ) {S : Matrix (Fin p) (Fin p) 𝕜} (hS : S.PosDef)
    (K : Matrix (Fin p) (Fin p) 𝕜) : ∃ C δ : ℝ, 0 < δ ∧ 0 ≤ C ∧ ∀ (N : ℕ) (X : Matrix (Fin N) (Fin p) 𝕜)
      (Q : Matrix (Fin p) (Fin p) 𝕜), 0 < N → en (S⁻¹ - Q⁻¹) ≤ δ →
      |mip K (mStep (wStudent κ p) X Q) - mip K (mStep (wStudent κ p) X S) -
        (N : ℝ)⁻¹ * ∑ i, (κ + p) / (κ + qf S (sample X i)) ^ 2 * hfm K (sample X i) *
          hfm (S⁻¹ - Q⁻¹) (sample X i)| ≤ C * en (S⁻¹ - Q⁻¹) ^ 2 := by
  obtain ⟨c, hc, hcx⟩ := qf_ge_nsq hS
  refine ⟨(κ + p) * (2 * en K / c ^ 3), c / 2, half_pos hc, by
    have := en_nonneg K; positivity, fun N X Q hN hD => ?_⟩
  have hN0 : (0 : ℝ) < N := by exact_mod_cast hN
  rw [mip_mStep, mip_mStep, ← mul_sub, ← mul_sub, ← Finset.sum_sub_distrib, ← Finset.sum_sub_distrib,
    abs_mul, abs_of_pos (inv_pos.2 hN0), inv_mul_le_iff₀ hN0]
  refine (Finset.abs_sum_le_sum_abs _ _).trans ?_
  refine (Finset.sum_le_sum (g := fun _ => (κ + p) * (2 * en K / c ^ 3) * en (S⁻¹ - Q⁻¹) ^ 2)
    fun i _ => ?_).trans (by simp)
  set y := sample X i
  have h1 := weight_expand (a := κ + qf S y) (d := hfm (S⁻¹ - Q⁻¹) y) (k := hfm K y) hκ hc
    (Finset.sum_nonneg fun j _ => sq_nonneg ‖y j‖) (by linarith [hcx y]) (hfm_le _ _) (hfm_le _ _)
    (en_nonneg _) hD
  have e : wStudent κ p (qf Q y) * hfm K y - wStudent κ p (qf S y) * hfm K y -
      (κ + p) / (κ + qf S y) ^ 2 * hfm K y * hfm (S⁻¹ - Q⁻¹) y =
      (κ + p) * (hfm K y / (κ + qf S y - hfm (S⁻¹ - Q⁻¹) y) - hfm K y / (κ + qf S y) -
        hfm K y * hfm (S⁻¹ - Q⁻¹) y / (κ + qf S y) ^ 2) := by
    unfold wStudent
    rw [qf_sub_hfm S Q y]
    ring
  have hkp : 0 ≤ κ + (p : ℝ) := by positivity
  rw [e, abs_mul, abs_of_nonneg hkp, mul_assoc]
  exact mul_le_mul_of_nonneg_left h1 hkp

end
end RS
