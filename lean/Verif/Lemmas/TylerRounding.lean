import Verif.Lemmas.LocalRounding

/-
Tyler's iteration with rounding errors. Its scale may drift, its shape stays near that of the exact
iteration.
-/
set_option autoImplicit false

namespace RS
open Matrix ComplexOrder Filter Topology

section
variable {𝕜 : Type} [RCLike 𝕜] {N p : ℕ} {X : Matrix (Fin N) (Fin p) 𝕜}

theorem abs_re_trace_le_frob (A : Matrix (Fin p) (Fin p) 𝕜) : |RCLike.re A.trace| ≤ p * frob A := by
  rw [abs_le']
  refine ⟨re_trace_le_frob A, ?_⟩
  have h := re_trace_le_frob (-A)
  have hf : frob (-A) = frob A := by
    have := frob_sub_comm 0 A
    rwa [zero_sub, sub_zero] at this
  rwa [trace_neg, map_neg, hf] at h

theorem mScale_le_frob (hp : 0 < p) (A : Matrix (Fin p) (Fin p) 𝕜) : mScale A ≤ frob A := by
  unfold mScale
  rw [div_le_iff₀ (by exact_mod_cast hp), mul_comm]
  exact re_trace_le_frob A

theorem mScale_sub_le (hp : 0 < p) (A B : Matrix (Fin p) (Fin p) 𝕜) :
    |mScale B - mScale A| ≤ frob (B - A) := by
  have e : mScale B - mScale A = RCLike.re (B - A).trace / p := by
    unfold mScale
    rw [trace_sub, map_sub, sub_div]
  have hp' : (0 : ℝ) < p := by exact_mod_cast hp
  rw [e, abs_div, abs_of_pos hp', div_le_iff₀ hp', mul_comm]
  exact abs_re_trace_le_frob _

theorem frob_le_mScale {A : Matrix (Fin p) (Fin p) 𝕜} (hs : 0 < mScale A)
    (hd : frob (mDev A) ≤ 1 / 2) : frob A ≤ mScale A * (p + 1) := by
  conv_lhs => rw [one_add_mDev hs]
  rw [frob_smul, abs_of_pos hs]
  refine mul_le_mul_of_nonneg_left ((frob_add_le _ _).trans ?_) hs.le
  have := frob_one_le (p := p) (𝕜 := 𝕜)
  linarith

theorem mDev_sub (hp : 0 < p) {A B : Matrix (Fin p) (Fin p) 𝕜} (hA : 0 < mScale A) (hB : 0 < mScale B)
    (hd : frob (mDev B) ≤ 1 / 2) :
    frob (mDev A - mDev B) ≤ (p + 2) * (frob (B - A) / mScale A) := by
  have e : mDev A - mDev B = (((mScale A)⁻¹ : ℝ) : 𝕜) • (A - B) +
      (((mScale B - mScale A) / mScale A : ℝ) : 𝕜) • (1 + mDev B) := by
    have h1 : (1 + mDev B) = (((mScale B)⁻¹ : ℝ) : 𝕜) • B := by unfold mDev; rw [add_sub_cancel]
    rw [h1, smul_smul, ← RCLike.ofReal_mul]
    have h2 : (mScale B - mScale A) / mScale A * (mScale B)⁻¹ = (mScale A)⁻¹ - (mScale B)⁻¹ := by
      field_simp
    rw [h2, RCLike.ofReal_sub (mScale A)⁻¹, sub_smul, smul_sub]
    unfold mDev
    abel
  rw [e]
  refine (frob_add_le _ _).trans ?_
  rw [frob_smul, frob_smul, abs_of_pos (inv_pos.2 hA), abs_div, abs_of_pos hA, frob_sub_comm]
  have h1 := mScale_sub_le hp A B
  have h2 : frob (1 + mDev B) ≤ p + 1 := by
    have := frob_one_le (p := p) (𝕜 := 𝕜)
    refine (frob_add_le _ _).trans ?_
    linarith
  have h3 : |mScale B - mScale A| / mScale A * frob (1 + mDev B) ≤
      frob (B - A) / mScale A * (p + 1) :=
    mul_le_mul (div_le_div_of_nonneg_right h1 hA.le) h2 (frob_nonneg _)
      (div_nonneg (frob_nonneg _) hA.le)
  have e2 : (mScale A)⁻¹ * frob (B - A) = frob (B - A) / mScale A := by
    rw [inv_mul_eq_div]
  rw [e2]
  linarith

theorem mDev_compare (hp : 0 < p) {A B : Matrix (Fin p) (Fin p) 𝕜} (hA : A.PosDef) (hB : B.PosDef)
    (hdA : frob (mDev A) ≤ 1 / 2) (hdB : frob (mDev B) ≤ 1 / 2) :
    frob (mDev A) ≤ frob (mDev B) + (p + 2) * (p + 1) * (frob (B - A) / frob A) := by
  have hs := mScale_pos hp hA
  have h1 := mDev_sub hp hs (mScale_pos hp hB) hdB
  have hf := frob_pos hp hA
  have h2 : frob (B - A) / mScale A ≤ (p + 1) * (frob (B - A) / frob A) := by
    rw [div_le_iff₀ hs, mul_assoc, div_mul_eq_mul_div, mul_div_assoc', le_div_iff₀ hf]
    have := mul_le_mul_of_nonneg_left (frob_le_mScale hs hdA) (frob_nonneg (B - A))
    linarith
  have e : mDev A = (mDev A - mDev B) + mDev B := by abel
  have h3 := frob_add_le (mDev A - mDev B) (mDev B)
  rw [← e] at h3
  have h4 : ((p : ℝ) + 2) * (frob (B - A) / mScale A) ≤ (p + 2) * ((p + 1) * (frob (B - A) / frob A)) :=
    mul_le_mul_of_nonneg_left h2 (by positivity)
  linarith

theorem mDev_perturb (hp : 0 < p) {A B : Matrix (Fin p) (Fin p) 𝕜} (hA : A.PosDef)
    (hB : B.IsHermitian) (hdA : frob (mDev A) ≤ 1 / 2) {u : ℝ} (hu : 0 ≤ u)
    (hu1 : 4 * ((p + 2) * (p + 1)) * u ≤ 1) (hf : frob (B - A) ≤ u * frob A) :
    B.PosDef ∧ frob (mDev B) ≤ frob (mDev A) + 4 * ((p + 2) * (p + 1)) * u := by
  have hs := mScale_pos hp hA
  have hp1 : (1 : ℝ) ≤ p := by exact_mod_cast hp
  have h1 : frob (B - A) ≤ u * (mScale A * (p + 1)) :=
    hf.trans (mul_le_mul_of_nonneg_left (frob_le_mScale hs hdA) hu)
  have hu2 : u * (p + 1) ≤ 1 / 4 := by nlinarith [mul_nonneg hu (by linarith : (0 : ℝ) ≤ p)]
  have h2 : frob (B - A) ≤ mScale A / 4 := by nlinarith
  have hlow : Loewner (((1 / 2 * mScale A : ℝ) : 𝕜) • (1 : Matrix (Fin p) (Fin p) 𝕜)) A := by
    have h3 := (posDef_one_add (mDev_herm hA.1) hdA).1.smul hs.le
    rw [← one_add_mDev hs, smul_smul, ← RCLike.ofReal_mul, mul_comm (mScale A)] at h3
    exact h3
  have hBP : B.PosDef := by
    have h3 := (hermitian_le_frob (hA.1.sub hB)).trans
      (loewner_smul_le PosSemidef.one ((frob_sub_comm A B).le.trans h2))
    have h4 : Loewner (((1 / 4 * mScale A : ℝ) : 𝕜) • (1 : Matrix (Fin p) (Fin p) 𝕜)) B := by
      have h5 : (A - ((1 / 2 * mScale A : ℝ) : 𝕜) • (1 : Matrix (Fin p) (Fin p) 𝕜)).PosSemidef := hlow
      have h6 : (((mScale A / 4 : ℝ) : 𝕜) • (1 : Matrix (Fin p) (Fin p) 𝕜) - (A - B)).PosSemidef := h3
      have h7 := h5.add h6
      show (B - ((1 / 4 * mScale A : ℝ) : 𝕜) • (1 : Matrix (Fin p) (Fin p) 𝕜)).PosSemidef
      convert h7 using 1
      have e : ((1 / 2 * mScale A : ℝ) : 𝕜) = ((1 / 4 * mScale A : ℝ) : 𝕜) + ((mScale A / 4 : ℝ) : 𝕜) := by
        rw [← RCLike.ofReal_add]
        congr 1
        ring
      rw [e, add_smul]
      abel
    exact h4.posDef (PosDef.one.smul (by exact_mod_cast (by linarith : 0 < 1 / 4 * mScale A)))
  have hsB : mScale A / 2 ≤ mScale B := by
    have := (abs_le.1 (mScale_sub_le hp A B)).1
    linarith
  have hsB0 : 0 < mScale B := by linarith
  refine ⟨hBP, ?_⟩
  have h3 := mDev_sub hp hsB0 hs hdA
  rw [frob_sub_comm, frob_sub_comm A B] at h3
  have h4 : frob (B - A) / mScale B ≤ 2 * ((p + 1) * u) := by
    rw [div_le_iff₀ hsB0]
    have h5 : u * (mScale A * (p + 1)) ≤ 2 * ((p + 1) * u) * mScale B := by
      have := mul_le_mul_of_nonneg_left hsB (by positivity : 0 ≤ 2 * ((p + 1) * u))
      linarith
    linarith
  have e : mDev B = mDev A - (mDev A - mDev B) := by abel
  have h6 := frob_sub_le (mDev A) (mDev A - mDev B)
  rw [← e] at h6
  have h7 := mul_le_mul_of_nonneg_left h4 (by positivity : (0 : ℝ) ≤ p + 2)
  have h8 : 0 ≤ ((p : ℝ) + 2) * (p + 1) * u := by positivity
  linarith

/-! ### Coordinates in which the fixed point is the identity -/

theorem exists_whiten {S : Matrix (Fin p) (Fin p) 𝕜} (hS : S.PosDef) :
    ∃ G H : Matrix (Fin p) (Fin p) 𝕜, Gᴴ = G ∧ Hᴴ = H ∧ G * H = 1 ∧ H * G = 1 ∧ H * H = S ∧
      IsUnit G ∧ G * S * Gᴴ = 1 := by
  obtain ⟨e, he⟩ := IsHermitian.exists_valid hS.1
  have hv := he.vals_pos hS
  set G := e.fn fun x => (Real.sqrt x)⁻¹ with hG
  set H := e.fn Real.sqrt with hH
  have hGH : G * H = 1 := by
    rw [he.fn_mul, ← he.fn_one]
    exact he.fn_congr fun i => inv_mul_cancel₀ (Real.sqrt_pos.2 (hv i)).ne'
  have hHG : H * G = 1 := mul_eq_one_comm.1 hGH
  have hHH : H * H = S := by
    rw [he.fn_mul]
    conv_rhs => rw [← he.fn_id]
    exact he.fn_congr fun i => Real.mul_self_sqrt (hv i).le
  have hGt : Gᴴ = G := (he.fn_isHermitian _).eq
  refine ⟨G, H, hGt, (he.fn_isHermitian _).eq, hGH, hHG, hHH, IsUnit.of_mul_eq_one H hGH, ?_⟩
  rw [hGt, ← hHH, show G * (H * H) * G = (G * H) * (H * G) by simp only [Matrix.mul_assoc], hGH,
    hHG, Matrix.one_mul]

theorem frob_sandwich (G A : Matrix (Fin p) (Fin p) 𝕜) :
    frob (G * A * G) ≤ frob G * frob G * frob A := by
  have h1 := frob_mul_le (G * A) G
  have h2 := mul_le_mul_of_nonneg_right (frob_mul_le G A) (frob_nonneg G)
  linarith

/-- Deviation of the shape from that of `S`. -/
noncomputable def shapeDev (G A : Matrix (Fin p) (Fin p) 𝕜) : ℝ := frob (mDev (G * A * G))

theorem tyler_localDev (hp : 0 < p) (hX : Spans X) (hn : NonzeroSamples X) (hI : Indecomposable X)
    {S G H : Matrix (Fin p) (Fin p) 𝕜} (hfix : mStep (wTyler p) X S = S) (hG : Gᴴ = G)
    (hGH : G * H = 1) (hHG : H * G = 1) (hGu : IsUnit G) (hGS : G * S * Gᴴ = 1) {δ0 : ℝ}
    (hδ0 : 0 < δ0) :
    ∃ δ r c : ℝ, 0 < δ ∧ δ ≤ δ0 ∧ 0 < r ∧ r < 1 ∧ 0 ≤ c ∧
      LocalDev (mStep (wTyler p) X) (shapeDev G) δ r c := by
  have hnG := nonzero_mul X hn G hGu
  have hfix1 : scatter (unitW (X * Gᵀ)) (X * Gᵀ) = 1 := by
    rw [← mStep_one_eq, ← hGS, mStep_equivariant _ X G hGu, hfix]
  obtain ⟨q, hq0, hq1, hq⟩ := tyler_gap hp hnG (indecomposable_mul hI hGu) hfix1
  have hp1 : (1 : ℝ) ≤ p := by exact_mod_cast hp
  have hq' : 0 < 1 - q := by linarith
  have hPD : ∀ A : Matrix (Fin p) (Fin p) 𝕜, A.PosDef → (G * A * G).PosDef := fun A hA => by
    have := hA.mul_mul_conjTranspose_same (Matrix.vecMul_injective_of_isUnit hGu)
    rwa [hG] at this
  have hback : ∀ A : Matrix (Fin p) (Fin p) 𝕜, H * (G * A * G) * H = A := fun A => by
    rw [show H * (G * A * G) * H = (H * G) * A * (G * H) by simp only [Matrix.mul_assoc], hHG, hGH,
      Matrix.one_mul, Matrix.mul_one]
  have hunit : ∀ B : Matrix (Fin p) (Fin p) 𝕜, (G * B * G).PosDef → B.IsHermitian → B.PosDef :=
    fun B hB hBH => by
      have hHu : IsUnit H := IsUnit.of_mul_eq_one G hHG
      have hHt : Hᴴ = H := by
        have h1 : Hᴴ * G = 1 := by
          rw [← hG, ← conjTranspose_mul, hGH, conjTranspose_one]
        calc Hᴴ = Hᴴ * (G * H) := by rw [hGH, Matrix.mul_one]
          _ = H := by rw [← Matrix.mul_assoc, h1, Matrix.one_mul]
      have := hB.mul_mul_conjTranspose_same (Matrix.vecMul_injective_of_isUnit hHu)
      rwa [hHt, hback] at this
  have hstep : ∀ A, G * mStep (wTyler p) X A * G = mStep (wTyler p) (X * Gᵀ) (G * A * G) := fun A => by
    have := mStep_equivariant (wTyler p) X G hGu A
    rw [hG] at this
    exact this.symm
  have hsub : ∀ A B : Matrix (Fin p) (Fin p) 𝕜, G * B * G - G * A * G = G * (B - A) * G := fun A B => by
    rw [Matrix.mul_sub, Matrix.sub_mul]
  have hg0 := frob_nonneg G
  have hh0 := frob_nonneg H
  obtain ⟨κ, hκ⟩ : ∃ κ, κ = frob G * frob G * (frob H * frob H) := ⟨_, rfl⟩
  have hκ0 : 0 ≤ κ := by rw [hκ]; positivity
  have hrel : ∀ A B : Matrix (Fin p) (Fin p) 𝕜, A.PosDef →
      frob (G * B * G - G * A * G) ≤ κ * (frob (B - A) / frob A) * frob (G * A * G) := fun A B hA => by
    have hf := frob_pos hp hA
    have h1 : frob A ≤ frob H * frob H * frob (G * A * G) := by
      have := frob_sandwich H (G * A * G)
      rwa [hback] at this
    rw [hsub]
    refine (frob_sandwich G (B - A)).trans ?_
    have h2 : frob (B - A) = frob (B - A) / frob A * frob A := by rw [div_mul_cancel₀ _ hf.ne']
    have h3 : 0 ≤ frob (B - A) / frob A := div_nonneg (frob_nonneg _) hf.le
    have h4 := mul_le_mul_of_nonneg_left h1 h3
    rw [← h2] at h4
    have h5 := mul_le_mul_of_nonneg_left h4 (mul_nonneg hg0 hg0)
    rw [hκ]
    linarith
  obtain ⟨δ, hδ⟩ : ∃ δ, δ = min δ0 (min (1 / 2) ((1 - q) / (18 * p))) := ⟨_, rfl⟩
  have hδ1 : δ ≤ 1 / 2 := by rw [hδ]; exact (min_le_right _ _).trans (min_le_left _ _)
  have hδ2 : 18 * p * δ ≤ 1 - q := by
    have : δ ≤ (1 - q) / (18 * p) := by rw [hδ]; exact (min_le_right _ _).trans (min_le_right _ _)
    rw [le_div_iff₀ (by positivity)] at this
    linarith
  have hcc : 0 ≤ κ * (4 * ((p + 2) * (p + 1))) := by positivity
  have hcc' : 0 ≤ κ * (2 + 3 * p) := by positivity
  refine ⟨δ, (1 + q) / 2, κ * (4 * ((p + 2) * (p + 1))) + κ * (2 + 3 * p), ?_, ?_, by linarith,
    by linarith, by positivity, ?_⟩
  · rw [hδ]
    exact lt_min hδ0 (lt_min (by norm_num) (by positivity))
  · rw [hδ]; exact min_le_left _ _
  have hdev : ∀ A, A.PosDef → shapeDev G A ≤ δ →
      frob (mDev (mStep (wTyler p) (X * Gᵀ) (G * A * G))) ≤ (1 + q) / 2 * frob (mDev (G * A * G)) ∧
      frob (mStep (wTyler p) (X * Gᵀ) (G * A * G) - G * A * G) ≤
        mScale (G * A * G) * ((2 + 3 * p) * frob (mDev (G * A * G))) := fun A hA hd => by
    have hd' : frob (mDev (G * A * G)) ≤ δ := hd
    obtain ⟨h1, h2, -⟩ := tyler_dev_step hp hnG hfix1 hq0 hq1 hq (hPD A hA) (hd'.trans hδ1)
      ((mul_le_mul_of_nonneg_left hd' (by positivity)).trans hδ2)
    exact ⟨h1, h2⟩
  refine ⟨fun A => frob_nonneg _, fun A hA => ?_, fun A hA hd => ?_, fun A hA hd => ?_,
    fun A A' u hA hd hA' hu hcu hf => ?_, fun A A' hA hA' hd hd' => ?_⟩
  · exact scatter_posDef _ (fun i => wTyler_pos hn hA i) X hX
  · have := (hdev A hA hd).1
    rw [← hstep] at this
    exact this
  · have h1 := (hdev A hA hd).2
    rw [← hstep, hsub] at h1
    have h2 := frob_sandwich H (G * (mStep (wTyler p) X A - A) * G)
    rw [hback] at h2
    have h3 := mScale_le_frob hp (G * A * G)
    have h4 := frob_sandwich G A
    have hd0 : 0 ≤ frob (mDev (G * A * G)) := frob_nonneg _
    have h5 : mScale (G * A * G) * ((2 + 3 * p) * frob (mDev (G * A * G))) ≤
        frob G * frob G * frob A * ((2 + 3 * p) * frob (mDev (G * A * G))) :=
      mul_le_mul_of_nonneg_right (h3.trans h4) (by positivity)
    have h6 := mul_le_mul_of_nonneg_left (h1.trans h5) (mul_nonneg hh0 hh0)
    have h7 : 0 ≤ κ * (4 * ((p + 2) * (p + 1))) * shapeDev G A * frob A := by
      have := frob_nonneg A
      have h8 : 0 ≤ shapeDev G A := frob_nonneg _
      positivity
    have e : frob H * frob H * (frob G * frob G * frob A * ((2 + 3 * p) * frob (mDev (G * A * G)))) =
        κ * (2 + 3 * p) * shapeDev G A * frob A := by
      rw [hκ]; unfold shapeDev; ring
    rw [e] at h6
    linarith
  · have hfA := frob_pos hp hA
    have h1 : frob (A' - A) / frob A ≤ u := by rwa [div_le_iff₀ hfA]
    have h2 : frob (G * A' * G - G * A * G) ≤ κ * u * frob (G * A * G) :=
      (hrel A A' hA).trans (mul_le_mul_of_nonneg_right (mul_le_mul_of_nonneg_left h1 hκ0)
        (frob_nonneg _))
    have hB : (G * A' * G).IsHermitian := by
      have := Matrix.isHermitian_mul_mul_conjTranspose G hA'
      rwa [hG] at this
    have h3 : 0 ≤ κ * (2 + 3 * p) * u := by positivity
    obtain ⟨h4, h5⟩ := mDev_perturb hp (hPD A hA) hB ((show frob (mDev (G * A * G)) ≤ δ from hd).trans hδ1)
      (mul_nonneg hκ0 hu) (by linarith) h2
    refine ⟨hunit A' h4 hA', ?_⟩
    unfold shapeDev
    linarith
  · have h1 := mDev_compare hp (hPD A hA) (hPD A' hA')
      ((show frob (mDev (G * A * G)) ≤ δ from hd).trans hδ1)
      ((show frob (mDev (G * A' * G)) ≤ δ from hd').trans hδ1)
    have hfB := frob_pos hp (hPD A hA)
    have h2 : frob (G * A' * G - G * A * G) / frob (G * A * G) ≤ κ * (frob (A' - A) / frob A) := by
      rw [div_le_iff₀ hfB]
      exact hrel A A' hA
    have h0 : 0 ≤ frob (A' - A) / frob A := div_nonneg (frob_nonneg _) (frob_nonneg _)
    have h3 := mul_le_mul_of_nonneg_left h2 (by positivity : (0 : ℝ) ≤ (p + 2) * (p + 1))
    have h4 : 0 ≤ κ * (3 * ((p + 2) * (p + 1)) + (2 + 3 * p)) * (frob (A' - A) / frob A) := by
      positivity
    unfold shapeDev
    linarith

theorem tendsto_shapeDev (hp : 0 < p) {G A : Matrix (Fin p) (Fin p) 𝕜} (hA : (G * A * G).PosDef)
    {T : ℕ → Matrix (Fin p) (Fin p) 𝕜} (hT : Tendsto T atTop (𝓝 A)) :
    Tendsto (fun n => shapeDev G (T n)) atTop (𝓝 (shapeDev G A)) := by
  have hB : Tendsto (fun n => G * T n * G) atTop (𝓝 (G * A * G)) :=
    (((continuous_const.matrix_mul continuous_id).matrix_mul continuous_const).tendsto A).comp hT
  have hs : Tendsto (fun n => mScale (G * T n * G)) atTop (𝓝 (mScale (G * A * G))) := by
    have hc : Continuous fun B : Matrix (Fin p) (Fin p) 𝕜 => mScale B := by
      unfold mScale
      exact (RCLike.continuous_re.comp (continuous_id.matrix_trace)).div_const _
    exact (hc.tendsto _).comp hB
  have hi := (RCLike.continuous_ofReal (K := 𝕜)).continuousAt.tendsto.comp
    (hs.inv₀ (mScale_pos hp hA).ne')
  exact (continuous_frob.tendsto _).comp ((hi.smul hB).sub_const 1)

theorem shapeDev_smul {S G : Matrix (Fin p) (Fin p) 𝕜} (hp : 0 < p) (hG : Gᴴ = G)
    (hGS : G * S * Gᴴ = 1) {c : ℝ} (hc : 0 < c) : shapeDev G ((c : 𝕜) • S) = 0 := by
  have hp' : (p : ℝ) ≠ 0 := by exact_mod_cast hp.ne'
  rw [hG] at hGS
  unfold shapeDev
  rw [frob_eq_zero, Matrix.mul_smul, Matrix.smul_mul, hGS]
  have h1 : mScale ((c : 𝕜) • (1 : Matrix (Fin p) (Fin p) 𝕜)) = c := by
    unfold mScale
    rw [trace_smul, smul_eq_mul, RCLike.re_ofReal_mul, trace_one, Fintype.card_fin,
      RCLike.natCast_re, mul_div_assoc, div_self hp', mul_one]
  unfold mDev
  rw [h1, smul_smul, ← RCLike.ofReal_mul, inv_mul_cancel₀ hc.ne', RCLike.ofReal_one, one_smul,
    sub_self]

/-- The normalised matrix is near that of `S` if the shape is. -/
theorem shapeDev_normalise (name : String)
    (hname : name = "trace" ∨ name = "determinant" ∨ name = "element") (hp : 0 < p)
    {S S' G H : Matrix (Fin p) (Fin p) 𝕜} (hS : S.PosDef)
    (hS' : FMat.normalise name (.fin S) = .fin S') (hG : Gᴴ = G) (hGH : G * H = 1) (hHG : H * G = 1)
    (hHH : H * H = S) (hGu : IsUnit G) :
    ∃ δ D : ℝ, 0 < δ ∧ 0 ≤ D ∧ ∀ A A' : Matrix (Fin p) (Fin p) 𝕜, A.PosDef →
      FMat.normalise name (.fin A) = .fin A' → shapeDev G A ≤ δ →
      frob (A' - S') ≤ D * shapeDev G A := by
  obtain ⟨ε, D, hε, hD⟩ := normalise_lip name hp hS hS'
  have hh : 0 ≤ frob H * frob H := mul_nonneg (frob_nonneg _) (frob_nonneg _)
  refine ⟨ε / (frob H * frob H + 1), |D| * (frob H * frob H), by positivity, by positivity,
    fun A A' hA hA' hd => ?_⟩
  have hGA : (G * A * G).PosDef := by
    have := hA.mul_mul_conjTranspose_same (Matrix.vecMul_injective_of_isUnit hGu)
    rwa [hG] at this
  have hs := mScale_pos hp hGA
  set s := mScale (G * A * G) with hsdef
  have hT : (((s⁻¹ : ℝ) : 𝕜) • A).PosDef := hA.smul (by exact_mod_cast inv_pos.2 hs)
  have hTn : FMat.normalise name (.fin (((s⁻¹ : ℝ) : 𝕜) • A)) = .fin A' := by
    rw [C31_scale_free name hname hp A hA _ (inv_pos.2 hs), hA']
  have e : ((s⁻¹ : ℝ) : 𝕜) • A - S = H * mDev (G * A * G) * H := by
    unfold mDev
    rw [← hsdef, Matrix.mul_sub, Matrix.sub_mul, Matrix.mul_smul, Matrix.smul_mul, Matrix.mul_one, hHH,
      show H * (G * A * G) * H = (H * G) * A * (G * H) by simp only [Matrix.mul_assoc], hHG, hGH,
      Matrix.one_mul, Matrix.mul_one]
  have h1 : frob (((s⁻¹ : ℝ) : 𝕜) • A - S) ≤ frob H * frob H * shapeDev G A := by
    rw [e]; exact frob_sandwich H _
  have h0 : 0 ≤ shapeDev G A := frob_nonneg _
  have h2 : frob H * frob H * shapeDev G A ≤ ε := by
    rw [le_div_iff₀ (by linarith)] at hd
    linarith
  refine (hD _ _ hT hTn (h1.trans h2)).trans ?_
  refine (mul_le_mul_of_nonneg_right (le_abs_self D) (frob_nonneg _)).trans ?_
  rw [mul_assoc]
  exact mul_le_mul_of_nonneg_left h1 (abs_nonneg _)

set_option maxHeartbeats 400000 in
/-- Tyler's iteration with rounding errors: the iterates stay positive definite, their relative steps
decrease geometrically up to the rounding errors, and so does the distance of the normalised iterates to
the estimate, which is bounded by the relative step. -/
theorem tyler_fl (name : String)
    (hname : name = "trace" ∨ name = "determinant" ∨ name = "element") (hp : 0 < p) (hX : Spans X)
    (hn : NonzeroSamples X) (hI : Indecomposable X) {S S' init : Matrix (Fin p) (Fin p) 𝕜}
    (hS : S.PosDef) (hS' : FMat.normalise name (.fin S) = .fin S') (hi : init.PosDef)
    (hfix : mStep (wTyler p) X S = S) :
    ∃ r C u0 : ℝ, 0 ≤ r ∧ r < 1 ∧ 0 ≤ C ∧ 0 < u0 ∧ ∀ u A, 0 ≤ u → u ≤ u0 →
      FlSeq (mStep (wTyler p) X) init u A → ∀ res : ℕ → Matrix (Fin p) (Fin p) 𝕜,
      ((∀ k, (A k).PosDef) → ∀ k, FMat.normalise name (.fin (A k)) = .fin (res k)) → ∀ k,
        (A k).PosDef ∧ frob (A (k + 1) - A k) / frob (A k) ≤ C * (r ^ k + u) ∧
        frob (res k - S') ≤ C * (r ^ k + u) ∧
        frob (res (k + 1) - S') ≤ C * (frob (A (k + 1) - A k) / frob (A k) + u) := by
  obtain ⟨G, H, hG, -, hGH, hHG, hHH, hGu, hGS⟩ := exists_whiten hS
  obtain ⟨δ0, D, hδ0, hD, hres⟩ := shapeDev_normalise name hname hp hS hS' hG hGH hHG hHH hGu
  obtain ⟨δ, r, c, hδ, hδδ, hr0, hr1, hc, hL⟩ :=
    tyler_localDev hp hX hn hI hfix hG hGH hHG hGu hGS hδ0
  obtain ⟨E, hE⟩ : ∃ E, E = mIter (wTyler p) X init := ⟨_, rfl⟩
  have hEP : ∀ k, (E k).PosDef := fun k => by
    rw [hE]; exact mIter_posDef hX (fun S hS i => wTyler_pos hn hS i) hi k
  have hGP : ∀ A : Matrix (Fin p) (Fin p) 𝕜, A.PosDef → (G * A * G).PosDef := fun A hA => by
    have := hA.mul_mul_conjTranspose_same (Matrix.vecMul_injective_of_isUnit hGu)
    rwa [hG] at this
  obtain ⟨a, ha, hlim⟩ := tyler_tendsto hp X hX hn hI hS hi hfix
  have hSa : ((a : 𝕜) • S).PosDef := hS.smul (by exact_mod_cast ha)
  obtain ⟨K, hK⟩ := fl_local hp hδ hr0 hr1 hc hL (E := E) (fun k => by rw [hE]; rfl) hEP
    (fun k T hT => tendsto_mStep X hT (hEP k).isUnit fun i => by
      rw [wTyler_eq]
      refine wStudent_continuousAt ?_
      have := qf_pos (hEP k) (hn i)
      rw [zero_add]
      exact this.ne')
    (fun k T hT => tendsto_shapeDev hp (hGP _ (hEP k)) hT)
    (by
      have := tendsto_shapeDev hp (hGP _ hSa) hlim
      rw [shapeDev_smul hp hG hGS ha] at this
      rw [hE]; exact this)
    (fun k hk => by
      rw [hE] at hk ⊢
      have := stationary hlim (k := k) (by rw [frob_eq_zero, hk, sub_self])
      rw [frob_eq_zero, sub_eq_zero] at this
      rw [this, shapeDev_smul hp hG hGS ha])
  have hE' : ∀ k, ∃ ε B : ℝ, 0 < ε ∧ 0 ≤ B ∧ ∀ T T' : Matrix (Fin p) (Fin p) 𝕜, T.PosDef →
      FMat.normalise name (.fin T) = .fin T' → frob (T - E k) < ε → frob (T' - S') ≤ B := fun k => by
    obtain ⟨b, -, -, hb⟩ := normalise_pos name hp (hEP k)
    obtain ⟨ε, D', hε, hl⟩ := normalise_lip name hp (hEP k) hb
    obtain ⟨Q, hQ⟩ : ∃ Q, Q = ((b⁻¹ : ℝ) : 𝕜) • E k := ⟨_, rfl⟩
    rw [← hQ] at hl
    have h0 := frob_nonneg (Q - S')
    refine ⟨ε, |D'| * ε + frob (Q - S'), hε, by positivity, fun T T' hT hT' hf => ?_⟩
    have h1 := hl T T' hT hT' hf.le
    have h2 := mul_le_mul (le_abs_self D') hf.le (frob_nonneg _) (abs_nonneg _)
    have e : T' - S' = (T' - Q) + (Q - S') := by abel
    rw [e]
    exact (frob_add_le _ _).trans (by linarith)
  choose ε B hε hB hEB using hE'
  obtain ⟨C, m, u0, hC, hm, hu0, hmain⟩ := hK ε hε
  obtain ⟨M, hM⟩ : ∃ M, M = ∑ k ∈ Finset.range K, B k + D * δ := ⟨_, rfl⟩
  have hDδ : 0 ≤ D * δ := by positivity
  have hM0 : 0 ≤ M := by
    rw [hM]; exact add_nonneg (Finset.sum_nonneg fun k _ => hB k) hDδ
  have hBM : ∀ k < K, B k ≤ M := fun k hk => by
    have := Finset.single_le_sum (fun k _ => hB k) (Finset.mem_range.2 hk)
    rw [hM]; linarith
  have hrK : 0 < r ^ K := by positivity
  obtain ⟨C', hC'⟩ : ∃ C', C' = C + D * C + D * c + M / r ^ K + M / m := ⟨_, rfl⟩
  have x1 : 0 ≤ D * C := by positivity
  have x2 : 0 ≤ D * c := by positivity
  have x3 : 0 ≤ M / r ^ K := by positivity
  have x4 : 0 ≤ M / m := by positivity
  refine ⟨r, C', min u0 (1 / (c + 1)), hr0.le, hr1, by rw [hC']; linarith,
    lt_min hu0 (by positivity), fun u A hu huu hA res hresE => ?_⟩
  have hall := hmain u A hu (huu.trans (min_le_left _ _)) (by rw [hE]; exact hA)
  have hP : ∀ k, (A k).PosDef := fun k => (hall k).1
  have hn' := hresE hP
  have hcu : c * u ≤ 1 := by
    have h1 := huu.trans (min_le_right _ _)
    rw [le_div_iff₀ (by linarith)] at h1
    linarith
  have hd0 : ∀ k, 0 ≤ frob (A (k + 1) - A k) / frob (A k) := fun k =>
    div_nonneg (frob_nonneg _) (frob_nonneg _)
  have hbnd : ∀ k, frob (res k - S') ≤ M := fun k => by
    rcases lt_or_ge k K with h | h
    · exact (hEB k _ _ (hP k) (hn' k) ((hall k).2.2.1 h).1).trans (hBM k h)
    · have h1 := (hall k).2.2.2 h
      refine (hres _ _ (hP k) (hn' k) (h1.1.trans hδδ)).trans ?_
      have h2 := mul_le_mul_of_nonneg_left h1.1 hD
      have h3 : 0 ≤ ∑ k ∈ Finset.range K, B k := Finset.sum_nonneg fun k _ => hB k
      rw [hM]; linarith
  intro k
  have hrk : 0 ≤ r ^ k := by positivity
  have hru : 0 ≤ r ^ k + u := by linarith
  refine ⟨hP k, ?_, ?_, ?_⟩
  · have h1 : 0 ≤ (D * C + D * c + M / r ^ K + M / m) * (r ^ k + u) := by positivity
    have h2 := (hall k).2.1
    rw [hC']; linarith
  · rcases lt_or_ge k K with h | h
    · have h1 : r ^ K ≤ r ^ k := pow_le_pow_of_le_one hr0.le hr1.le h.le
      have h2 : M ≤ M / r ^ K * r ^ k := by
        rw [div_mul_eq_mul_div, le_div_iff₀ hrK]
        exact mul_le_mul_of_nonneg_left h1 hM0
      have h3 : 0 ≤ M / r ^ K * u := by positivity
      have h4 : 0 ≤ (C + D * C + D * c + M / m) * (r ^ k + u) := by positivity
      rw [hC']
      linarith [hbnd k]
    · have h1 := (hall k).2.2.2 h
      have h2 := mul_le_mul_of_nonneg_left h1.2.1 hD
      have h4 : 0 ≤ (C + D * c + M / r ^ K + M / m) * (r ^ k + u) := by positivity
      rw [hC']
      linarith [hres _ _ (hP k) (hn' k) (h1.1.trans hδδ)]
  · obtain ⟨d, hd⟩ : ∃ d, d = frob (A (k + 1) - A k) / frob (A k) := ⟨_, rfl⟩
    have hdk := hd0 k
    have hall1 := (hall k).2.2
    rw [← hd] at hdk hall1 ⊢
    rcases lt_or_ge k K with h | h
    · have h1 := (hall1.1 h).2
      have h2 : M ≤ M / m * d := by
        rw [div_mul_eq_mul_div, le_div_iff₀ hm]
        exact mul_le_mul_of_nonneg_left h1 hM0
      have h3 : 0 ≤ M / m * u := by positivity
      have h4 : 0 ≤ (C + D * C + D * c + M / r ^ K) * (d + u) := by positivity
      rw [hC']
      linarith [hbnd (k + 1)]
    · have h1 := hall1.2 h
      have h2 := hL.contracts _ (hP k) h1.1
      have h0 := hL.nonneg (A k)
      have h3 : shapeDev G (mStep (wTyler p) X (A k)) ≤ shapeDev G (A k) := by
        have := mul_le_mul_of_nonneg_right hr1.le h0
        linarith
      have h4 := (hL.perturb _ (A (k + 1)) u (hL.posDef _ (hP k)) (h3.trans h1.1) (hP (k + 1)).1 hu hcu
        (hA.step k)).2
      have h5 := ((hall (k + 1)).2.2.2 (h.trans (Nat.le_succ k))).1
      have h6 := hres _ _ (hP (k + 1)) (hn' (k + 1)) (h5.trans hδδ)
      have h7 : shapeDev G (A (k + 1)) ≤ C * (d + u) + c * u := by linarith [h1.2.2]
      have h8 := mul_le_mul_of_nonneg_left h7 hD
      have h9 : 0 ≤ D * c * d := by positivity
      have h10 : 0 ≤ (C + M / r ^ K + M / m) * (d + u) := by positivity
      rw [hC']
      linarith

end
end RS
