import Verif.Spec.Breakdown
import Verif.Lemmas.HuberSandwich
import Verif.Lemmas.HuberHeavy
import Verif.Lemmas.ExistIff
import Verif.Lemmas.Converge
import Verif.Props.Exist

/-! Bounds for the fixed points when some of the samples are replaced. -/
set_option autoImplicit false

namespace RS
open Matrix ComplexOrder

section
variable {𝕜 : Type} [RCLike 𝕜] {N p : ℕ}

theorem nsq_dot (v : Fin p → 𝕜) : star v ⬝ᵥ v = ((∑ j, ‖v j‖ ^ 2 : ℝ) : 𝕜) := by
  simp only [dotProduct, Pi.star_apply]
  push_cast
  exact Finset.sum_congr rfl fun j _ => by rw [RCLike.star_def, RCLike.conj_mul]

theorem eigenGe_of_loewner {a : ℝ} {Q : Matrix (Fin p) (Fin p) 𝕜} (h : Loewner ((a : 𝕜) • 1) Q) :
    EigenGe a Q := fun v => by
  have h1 := (RCLike.nonneg_iff.1 ((posSemidef_iff_dotProduct_mulVec.1 h).2 v)).1
  rw [sub_mulVec, dotProduct_sub, smul_mulVec, one_mulVec, dotProduct_smul, nsq_dot, smul_eq_mul,
    ← RCLike.ofReal_mul, map_sub, RCLike.ofReal_re] at h1
  linarith

theorem eigenLe_of_loewner {b : ℝ} {Q : Matrix (Fin p) (Fin p) 𝕜} (h : Loewner Q ((b : 𝕜) • 1)) :
    EigenLe b Q := fun v => by
  have h1 := (RCLike.nonneg_iff.1 ((posSemidef_iff_dotProduct_mulVec.1 h).2 v)).1
  rw [sub_mulVec, dotProduct_sub, smul_mulVec, one_mulVec, dotProduct_smul, nsq_dot, smul_eq_mul,
    ← RCLike.ofReal_mul, map_sub, RCLike.ofReal_re] at h1
  linarith

theorem posSemidef_le_trace {A : Matrix (Fin p) (Fin p) 𝕜} (hA : A.PosSemidef) :
    Loewner A (((RCLike.re A.trace : ℝ) : 𝕜) • 1) := by
  have hU : (hA.1.eigenvectorUnitary : Matrix (Fin p) (Fin p) 𝕜)ᴴ *
      (hA.1.eigenvectorUnitary : Matrix (Fin p) (Fin p) 𝕜) = 1 :=
    UnitaryGroup.star_mul_self _
  have h1 := hA.1.spectral_theorem
  have h2 : RCLike.re A.trace = ∑ j, hA.1.eigenvalues j := by
    rw [hA.1.trace_eq_sum_eigenvalues]
    simp
  have h3 := loewner_eigen_le (l := hA.1.eigenvalues) hU (b := RCLike.re A.trace) fun j => by
    rw [h2]
    exact Finset.single_le_sum (fun k _ => hA.eigenvalues_nonneg k) (Finset.mem_univ j)
  have e : A = (hA.1.eigenvectorUnitary : Matrix (Fin p) (Fin p) 𝕜) *
      diagonal (fun j => (hA.1.eigenvalues j : 𝕜)) *
      (hA.1.eigenvectorUnitary : Matrix (Fin p) (Fin p) 𝕜)ᴴ := h1
  rw [← e] at h3
  exact h3

theorem scatter_le_trace {w : Fin N → ℝ} (hw : ∀ i, 0 ≤ w i) (X : Matrix (Fin N) (Fin p) 𝕜) {c : ℝ}
    (hc : (N : ℝ)⁻¹ * ∑ i, w i * ∑ j, ‖sample X i j‖ ^ 2 ≤ c) :
    Loewner (scatter w X) ((c : 𝕜) • 1) := by
  have h := posSemidef_le_trace (scatter_posSemidef w hw X)
  rw [scatter_trace'] at h
  exact h.trans (loewner_smul_le PosSemidef.one hc)

/-- Fewer than `N/(ν + p)` wrong samples do not make the Student-t estimate large. -/
theorem student_upper {nu : ℝ} (hnu : 0 < nu) (hp : 0 < p) (X : Matrix (Fin N) (Fin p) 𝕜) {m : ℕ}
    (hm : m * (nu + p) < N) :
    ∃ b : ℝ, 0 < b ∧ ∀ X', Contaminated m X X' → ∀ Q : Matrix (Fin p) (Fin p) 𝕜, Q.PosDef →
      mStep (wStudent nu p) X' Q = Q → Loewner Q ((b : 𝕜) • 1) := by
  classical
  have hp' : (0 : ℝ) < p := by exact_mod_cast hp
  have hN : (0 : ℝ) < N := lt_of_le_of_lt (by positivity) hm
  set C : ℝ := ∑ i, (nu + p) / nu * ∑ j, ‖sample X i j‖ ^ 2 with hC
  have hC0 : 0 ≤ C := Finset.sum_nonneg fun i _ => mul_nonneg (by positivity)
    (Finset.sum_nonneg fun j _ => sq_nonneg _)
  have hgap : 0 < N - m * (nu + p) := sub_pos.2 hm
  refine ⟨(C + 1) / (N - m * (nu + p)), by positivity, ?_⟩
  rintro X' ⟨J, hJ, hX'⟩ Q hQ hfix
  obtain ⟨l, r, hl, hlr, h1, h2, h3, h4⟩ := extreme_factors hp (S := (1 : Matrix (Fin p) (Fin p) 𝕜))
    PosDef.one hQ
  have hr : 0 < r := hl.trans_le hlr
  have h5 := mStep_student_mono hnu X' hQ h2
  rw [hfix] at h5
  have hq : ∀ i, qf ((r : 𝕜) • (1 : Matrix (Fin p) (Fin p) 𝕜)) (sample X' i) =
      (∑ j, ‖sample X' i j‖ ^ 2) / r := fun i => by
    rw [qf_smul PosDef.one hr, qf_one]
  have hns : ∀ i, 0 ≤ ∑ j, ‖sample X' i j‖ ^ 2 := fun i => Finset.sum_nonneg fun j _ => sq_nonneg _
  have hterm : ∀ i, wStudent nu p (qf ((r : 𝕜) • (1 : Matrix (Fin p) (Fin p) 𝕜)) (sample X' i)) *
      ∑ j, ‖sample X' i j‖ ^ 2 ≤ (if i ∈ J then (nu + p) * r else 0) +
        (nu + p) / nu * ∑ j, ‖sample X i j‖ ^ 2 := fun i => by
    have ht := hns i
    rw [hq, wStudent]
    by_cases hi : i ∈ J
    · rw [if_pos hi]
      have h6 : 0 ≤ (nu + p) / nu * ∑ j, ‖sample X i j‖ ^ 2 := mul_nonneg (by positivity)
        (Finset.sum_nonneg fun j _ => sq_nonneg _)
      refine le_trans ?_ (le_add_of_nonneg_right h6)
      set t := ∑ j, ‖sample X' i j‖ ^ 2
      have h7 : 0 < nu + t / r := by positivity
      rw [div_mul_eq_mul_div, div_le_iff₀ h7, mul_assoc]
      apply mul_le_mul_of_nonneg_left _ (by positivity)
      have : r * (nu + t / r) = r * nu + t := by field_simp
      rw [this]
      nlinarith
    · rw [if_neg hi, zero_add, hX' i hi]
      rw [hX' i hi] at ht
      set t := ∑ j, ‖sample X i j‖ ^ 2
      apply mul_le_mul_of_nonneg_right _ ht
      apply div_le_div_of_nonneg_left (by positivity) hnu
      have : 0 ≤ t / r := by positivity
      linarith
  have hsum := Finset.sum_le_sum fun i (_ : i ∈ Finset.univ) => hterm i
  rw [Finset.sum_add_distrib, ← hC, ← Finset.sum_filter, Finset.sum_const, Finset.filter_mem_eq_inter,
    Finset.univ_inter, nsmul_eq_mul] at hsum
  have hJ' : (J.card : ℝ) ≤ m := by exact_mod_cast hJ
  have h6 : Loewner (mStep (wStudent nu p) X' ((r : 𝕜) • 1))
      ((((N : ℝ)⁻¹ * (m * ((nu + p) * r) + C) : ℝ) : 𝕜) • 1) := by
    refine scatter_le_trace (fun i => ?_) X' ?_
    · rw [hq, wStudent]
      have := div_nonneg (hns i) hr.le
      positivity
    · apply mul_le_mul_of_nonneg_left _ (inv_nonneg.2 hN.le)
      refine hsum.trans ?_
      have : (J.card : ℝ) * ((nu + p) * r) ≤ m * ((nu + p) * r) :=
        mul_le_mul_of_nonneg_right hJ' (by positivity)
      linarith
  have h7 := h4 _ (h5.trans h6)
  have h8 : r ≤ (C + 1) / (N - m * (nu + p)) := by
    rw [le_div_iff₀ hgap]
    have h9 : N * r ≤ m * ((nu + p) * r) + C := by
      calc N * r ≤ N * ((N : ℝ)⁻¹ * (m * ((nu + p) * r) + C)) := mul_le_mul_of_nonneg_left h7 hN.le
        _ = _ := by rw [← mul_assoc, mul_inv_cancel₀ hN.ne', one_mul]
    nlinarith
  exact h2.trans (loewner_smul_le PosSemidef.one h8)

/-- The samples that were not replaced. -/
theorem scatter_restrict {n : ℕ} (hn : 0 < n) {J : Finset (Fin N)} (hJ : Jᶜ.card = n)
    (X X' : Matrix (Fin N) (Fin p) 𝕜) (hX' : ∀ i, i ∉ J → sample X' i = sample X i) (w : Fin N → ℝ)
    (hw : ∀ i ∈ J, w i = 0) :
    scatter w X' = (((n : ℝ) / N : ℝ) : 𝕜) •
      scatter (fun k => w (Jᶜ.orderEmbOfFin hJ k)) (X.submatrix (Jᶜ.orderEmbOfFin hJ) id) := by
  classical
  ext a b
  rw [Matrix.smul_apply, scatter_apply, scatter_apply]
  have e1 : ∑ i, (w i : 𝕜) * (X' i a * star (X' i b)) =
      ∑ i ∈ Jᶜ, (w i : 𝕜) * (X' i a * star (X' i b)) := by
    refine (Finset.sum_subset (Finset.subset_univ _) fun i _ hi => ?_).symm
    rw [hw i (by simpa using hi)]
    simp
  have e2 : ∑ i ∈ Jᶜ, (w i : 𝕜) * (X' i a * star (X' i b)) =
      ∑ k, (w (Jᶜ.orderEmbOfFin hJ k) : 𝕜) * ((X.submatrix (Jᶜ.orderEmbOfFin hJ) id) k a *
        star ((X.submatrix (Jᶜ.orderEmbOfFin hJ) id) k b)) := by
    have := Finset.sum_map Finset.univ (Jᶜ.orderEmbOfFin hJ).toEmbedding
      fun i => (w i : 𝕜) * (X' i a * star (X' i b))
    rw [Finset.map_orderEmbOfFin_univ] at this
    rw [this]
    refine Finset.sum_congr rfl fun k _ => ?_
    have hk : Jᶜ.orderEmbOfFin hJ k ∉ J :=
      Finset.mem_compl.mp (Finset.orderEmbOfFin_mem Jᶜ hJ k)
    have h3 : ∀ c, X' (Jᶜ.orderEmbOfFin hJ k) c = X (Jᶜ.orderEmbOfFin hJ k) c := fun c =>
      congrFun (hX' _ hk) c
    simp only [submatrix_apply, id, RelEmbedding.coe_toEmbedding, h3]
  rw [e1, e2, smul_eq_mul, ← mul_assoc]
  congr 1
  have hn' : (n : 𝕜) ≠ 0 := by exact_mod_cast hn.ne'
  push_cast
  field_simp

theorem generalPosition_restrict {n : ℕ} {X : Matrix (Fin N) (Fin p) 𝕜} (h : GeneralPosition X)
    {f : Fin n → Fin N} (hf : Function.Injective f) : GeneralPosition (X.submatrix f id) :=
  fun V hV => by
    refine le_trans ?_ (h V hV)
    unfold samplesIn
    exact Nat.card_le_card_of_injective
      (fun i : {i : Fin n // sample (X.submatrix f id) i ∈ V} =>
        (⟨f i.1, i.2⟩ : {i : Fin N // sample X i ∈ V}))
      fun i j hij => Subtype.ext (hf (Subtype.mk.inj hij))

/-- Wrong samples in less than the share `ν/(ν + p)` do not make the Student-t estimate small,
the positions of the wrong samples being given. -/
theorem student_lower_at {nu : ℝ} (hnu : 0 < nu) (hp : 0 < p) {X : Matrix (Fin N) (Fin p) 𝕜}
    {n : ℕ} (hn : 0 < n) {J : Finset (Fin N)} (hJ : Jᶜ.card = n) (hcount : p * N < n * (nu + p))
    {T : Matrix (Fin p) (Fin p) 𝕜} (hT : T.PosDef) (hnz : NonzeroSamples X)
    (hfixT : mStep (wTyler p) (X.submatrix (Jᶜ.orderEmbOfFin hJ) id) T = T) :
    ∃ l₀ : ℝ, 0 < l₀ ∧ ∀ X' : Matrix (Fin N) (Fin p) 𝕜,
      (∀ i, i ∉ J → sample X' i = sample X i) → ∀ Q : Matrix (Fin p) (Fin p) 𝕜, Q.PosDef →
        mStep (wStudent nu p) X' Q = Q → Loewner ((l₀ : 𝕜) • T) Q := by
  classical
  have hp' : (0 : ℝ) < p := by exact_mod_cast hp
  have hn' : (0 : ℝ) < n := by exact_mod_cast hn
  have hN : 0 < N := by
    have := Finset.card_le_univ Jᶜ
    rw [hJ, Fintype.card_fin] at this
    omega
  have hN' : (0 : ℝ) < N := by exact_mod_cast hN
  set κ : ℝ := n * (nu + p) / (p * N) with hκ
  have hκ1 : 1 < κ := by rw [hκ, one_lt_div (by positivity)]; exact hcount
  obtain ⟨e, he, hemin⟩ := exists_pos_le (fun i : Fin N => qf T (sample X i))
  have hd : ∀ i, e ≤ qf T (sample X i) := fun i => hemin i (qf_pos hT (hnz i))
  -- below this factor one step increases the factor
  set l₀ : ℝ := (κ - 1) / 2 * e / nu with hl₀
  have hl₀0 : 0 < l₀ := by
    rw [hl₀]; exact div_pos (mul_pos (by linarith) he) hnu
  refine ⟨l₀, hl₀0, fun X' hX' Q hQ hfix => ?_⟩
  obtain ⟨l, r, hl, hlr, h1, h2, h3, h4⟩ := extreme_factors hp hT hQ
  suffices h : l₀ ≤ l from (loewner_smul_le hT.posSemidef h).trans h1
  by_contra hcon
  push Not at hcon
  have hlT : ((l : 𝕜) • T).PosDef := hT.smul (by exact_mod_cast hl)
  have h5 := mStep_student_mono hnu X' hlT h1
  rw [hfix] at h5
  -- drop the replaced samples
  set c : ℝ := 2 * l * (nu + p) / ((κ + 1) * p) with hc
  have hc0 : 0 < c := by rw [hc]; positivity
  have h6 : Loewner (scatter (fun i => if i ∈ J then 0 else c * wTyler p (qf T (sample X i))) X')
      (mStep (wStudent nu p) X' ((l : 𝕜) • T)) := by
    refine scatter_mono (fun i => ?_) X'
    rw [qf_smul hT hl]
    by_cases hi : i ∈ J
    · rw [if_pos hi, wStudent]
      have := div_nonneg (qf_nonneg hT (sample X' i)) hl.le
      positivity
    · rw [if_neg hi, hX' i hi, wStudent, wTyler]
      have hdi := hd i
      have hd0 : 0 < qf T (sample X i) := he.trans_le hdi
      set d := qf T (sample X i)
      have h7 : nu * l ≤ (κ - 1) / 2 * d := by
        have : nu * l₀ = (κ - 1) / 2 * e := by rw [hl₀]; field_simp
        nlinarith
      have e1 : (nu + p) / (nu + d / l) = (nu + p) * l / (nu * l + d) := by field_simp
      have e2 : c * (p / d) = (nu + p) * l / ((κ + 1) / 2 * d) := by rw [hc]; field_simp
      rw [e1, e2]
      apply div_le_div_of_nonneg_left (by positivity) (by positivity)
      linarith
  rw [scatter_restrict hn hJ X X' hX' _ (fun i hi => if_pos hi)] at h6
  have e3 : scatter (fun k => if Jᶜ.orderEmbOfFin hJ k ∈ J then (0 : ℝ) else
        c * wTyler p (qf T (sample X (Jᶜ.orderEmbOfFin hJ k)))) (X.submatrix (Jᶜ.orderEmbOfFin hJ) id) =
      (c : 𝕜) • T := by
    conv_rhs => rw [← hfixT]
    rw [mStep, ← scatter_smul]
    congr 1
    funext k
    have hk : Jᶜ.orderEmbOfFin hJ k ∉ J :=
      Finset.mem_compl.mp (Finset.orderEmbOfFin_mem Jᶜ hJ k)
    rw [if_neg hk]
    rfl
  rw [e3, smul_smul, ← RCLike.ofReal_mul] at h6
  have h8 := h3 _ (h6.trans h5)
  have e4 : (n : ℝ) / N * c = l * (2 * κ / (κ + 1)) := by rw [hc, hκ]; field_simp
  rw [e4] at h8
  have h9 : 1 < 2 * κ / (κ + 1) := by rw [one_lt_div (by linarith)]; linarith
  nlinarith

/-- Wrong samples in less than the share `ν/(ν + p)` do not make the Student-t estimate small. -/
theorem student_lower {nu : ℝ} (hnu : 0 < nu) (hp : 0 < p) {X : Matrix (Fin N) (Fin p) 𝕜}
    (hX : GeneralPosition X) {m : ℕ} (hpm : p + m < N) (hm : m * (nu + p) < nu * N) :
    ∃ a : ℝ, 0 < a ∧ ∀ X', Contaminated m X X' → ∀ Q : Matrix (Fin p) (Fin p) 𝕜, Q.PosDef →
      mStep (wStudent nu p) X' Q = Q → Loewner ((a : 𝕜) • 1) Q := by
  classical
  have hnz := generalPosition_nonzero hX hp
  have key : ∀ J : Finset (Fin N), ∃ a : ℝ, 0 < a ∧ (J.card ≤ m → ∀ X' : Matrix (Fin N) (Fin p) 𝕜,
      (∀ i, i ∉ J → sample X' i = sample X i) → ∀ Q : Matrix (Fin p) (Fin p) 𝕜, Q.PosDef →
        mStep (wStudent nu p) X' Q = Q → Loewner ((a : 𝕜) • 1) Q) := by
    intro J
    by_cases hJm : J.card ≤ m
    · have hJ : Jᶜ.card = N - J.card := by rw [Finset.card_compl, Fintype.card_fin]
      have hJN : J.card ≤ N := by omega
      have hg := generalPosition_restrict hX (Jᶜ.orderEmbOfFin hJ).injective
      obtain ⟨T, hT, hfixT⟩ := tyler_exists hp (by omega) (X.submatrix (Jᶜ.orderEmbOfFin hJ) id)
        (generalPosition_nonzero hg hp) (generalPosition_tyler hg (by omega))
      obtain ⟨l₀, hl₀, h⟩ := student_lower_at hnu hp (by omega) hJ (nu := nu) (by
        rw [Nat.cast_sub hJN]
        have h1 : (J.card : ℝ) ≤ m := by exact_mod_cast hJm
        have h2 : (0 : ℝ) < p := by exact_mod_cast hp
        nlinarith) hT hnz hfixT
      obtain ⟨l, r, hl, -, h1, -⟩ := extreme_factors hp (S := (1 : Matrix (Fin p) (Fin p) 𝕜))
        PosDef.one hT
      refine ⟨l₀ * l, mul_pos hl₀ hl, fun _ X' hX' Q hQ hfix => ?_⟩
      have h2 := h X' hX' Q hQ hfix
      have h3 := h1.smul hl₀.le
      rw [smul_smul, ← RCLike.ofReal_mul] at h3
      exact h3.trans h2
    · exact ⟨1, one_pos, fun h => absurd h hJm⟩
  choose a ha hall using key
  obtain ⟨e, he, hemin⟩ := exists_pos_le a
  refine ⟨e, he, ?_⟩
  rintro X' ⟨J, hJ, hX'⟩ Q hQ hfix
  exact (loewner_smul_le PosSemidef.one (hemin J (ha J))).trans (hall J hJ X' hX' Q hQ hfix)

theorem samplesIn_contaminated {m : ℕ} {X X' : Matrix (Fin N) (Fin p) 𝕜} (h : Contaminated m X X')
    (V : Submodule 𝕜 (Fin p → 𝕜)) : samplesIn X' V ≤ samplesIn X V + m := by
  classical
  obtain ⟨J, hJ, hX'⟩ := h
  rw [samplesIn_eq, samplesIn_eq]
  have : (Finset.univ.filter fun i => sample X' i ∈ V) ⊆
      (Finset.univ.filter fun i => sample X i ∈ V) ∪ J := fun i hi => by
    by_cases hiJ : i ∈ J
    · exact Finset.mem_union_right _ hiJ
    · rw [Finset.mem_filter, hX' i hiJ] at hi
      exact Finset.mem_union_left _ (Finset.mem_filter.2 hi)
  exact (Finset.card_le_card this).trans ((Finset.card_union_le _ _).trans (by omega))

/-- Under both conditions every contaminated data set has a Student-t estimate. -/
theorem student_exists_contaminated {nu : ℝ} (hnu : 0 < nu) {X : Matrix (Fin N) (Fin p) 𝕜}
    (hX : GeneralPosition X) (hN : p ≤ N) {m : ℕ} (hm : m * (nu + p) < N)
    (hm' : m * (nu + p) < nu * N) {X' : Matrix (Fin N) (Fin p) 𝕜} (h : Contaminated m X X')
    (V : Submodule 𝕜 (Fin p → 𝕜)) (hV : V ≠ ⊤) :
    (nu + p) * samplesIn X' V < N * (nu + Module.finrank 𝕜 V) := by
  have h0 : (samplesIn X' V : ℝ) ≤ samplesIn X V + m := by exact_mod_cast samplesIn_contaminated h V
  have h1 : (samplesIn X V : ℝ) ≤ Module.finrank 𝕜 V := by exact_mod_cast hX V hV
  have h2 : (Module.finrank 𝕜 V : ℝ) < p := by exact_mod_cast finrank_lt_p hV
  have h3 : (0 : ℝ) ≤ Module.finrank 𝕜 V := Nat.cast_nonneg _
  have hp' : (0 : ℝ) < p := h3.trans_lt h2
  rcases Nat.eq_zero_or_pos m with rfl | hm1
  · have h4 := generalPosition_student hX hN hnu V hV
    have h5 : (samplesIn X' V : ℝ) ≤ samplesIn X V := by simpa using h0
    exact lt_of_le_of_lt (mul_le_mul_of_nonneg_left h5 (by positivity)) h4
  · have h4 : (1 : ℝ) ≤ m := by exact_mod_cast hm1
    have h5 : nu + p < N := by nlinarith
    have h6 : (nu + p) * (samplesIn X' V : ℝ) ≤ (nu + p) * (Module.finrank 𝕜 V + m) :=
      mul_le_mul_of_nonneg_left (by linarith) (by positivity)
    nlinarith

/-- Scaling some samples by a non-zero factor. -/
def scaleRows (J : Finset (Fin N)) (r : ℝ) (X : Matrix (Fin N) (Fin p) 𝕜) :
    Matrix (Fin N) (Fin p) 𝕜 :=
  open Classical in Matrix.of fun i j => if i ∈ J then (r : 𝕜) * X i j else X i j

theorem scaleRows_mem {J : Finset (Fin N)} (r : ℝ) (X : Matrix (Fin N) (Fin p) 𝕜) {i : Fin N}
    (h : i ∈ J) : sample (scaleRows J r X) i = (r : 𝕜) • sample X i := by
  funext j
  simp [sample, scaleRows, h]

theorem scaleRows_not_mem {J : Finset (Fin N)} (r : ℝ) (X : Matrix (Fin N) (Fin p) 𝕜) {i : Fin N}
    (h : i ∉ J) : sample (scaleRows J r X) i = sample X i := by
  funext j
  simp [sample, scaleRows, h]

theorem generalPosition_scaleRows {X : Matrix (Fin N) (Fin p) 𝕜} (h : GeneralPosition X)
    (J : Finset (Fin N)) {r : ℝ} (hr : r ≠ 0) : GeneralPosition (scaleRows J r X) := fun V hV => by
  classical
  refine le_trans (le_of_eq ?_) (h V hV)
  rw [samplesIn_eq, samplesIn_eq]
  congr 1
  ext i
  rw [Finset.mem_filter, Finset.mem_filter]
  by_cases hi : i ∈ J
  · rw [scaleRows_mem r X hi, Submodule.smul_mem_iff V (by exact_mod_cast hr)]
  · rw [scaleRows_not_mem r X hi]

theorem qf_smul_vec (S : Matrix (Fin p) (Fin p) 𝕜) (r : ℝ) (x : Fin p → 𝕜) :
    qf S ((r : 𝕜) • x) = r ^ 2 * qf S x := by
  unfold qf
  rw [star_smul, mulVec_smul, smul_dotProduct, dotProduct_smul, smul_eq_mul, smul_eq_mul,
    RCLike.star_def, RCLike.conj_ofReal, ← mul_assoc, ← RCLike.ofReal_mul, RCLike.re_ofReal_mul, sq]

/-- `x^H Q⁻¹ x ≤ ‖x‖²/a` when the eigenvalues of `Q` are at least `a`. -/
theorem qf_le_of_ge {a : ℝ} (ha : 0 < a) {Q : Matrix (Fin p) (Fin p) 𝕜}
    (h : Loewner ((a : 𝕜) • 1) Q) (x : Fin p → 𝕜) : qf Q x ≤ (∑ j, ‖x j‖ ^ 2) / a := by
  have h1 : ((a : 𝕜) • (1 : Matrix (Fin p) (Fin p) 𝕜)).PosDef := PosDef.one.smul (by exact_mod_cast ha)
  have h2 := qf_anti h1 h x
  rwa [qf_smul PosDef.one ha, qf_one] at h2

theorem qf_ge_of_le {b : ℝ} (hb : 0 < b) {Q : Matrix (Fin p) (Fin p) 𝕜} (hQ : Q.PosDef)
    (h : Loewner Q ((b : 𝕜) • 1)) (x : Fin p → 𝕜) : (∑ j, ‖x j‖ ^ 2) / b ≤ qf Q x := by
  have h2 := qf_anti hQ h x
  rwa [qf_smul PosDef.one hb, qf_one] at h2

/-- Shrinking a share `ν/(ν + p)` of the samples makes the Student-t estimate arbitrarily small. -/
theorem student_implodes {nu : ℝ} (hnu : 0 < nu) (X : Matrix (Fin N) (Fin p) 𝕜) (hN : 0 < N)
    {J : Finset (Fin N)} (hm : nu * N ≤ J.card * (nu + p)) (hp : 0 < p) {a : ℝ} (ha : 0 < a) :
    ∃ r₀ : ℝ, 0 < r₀ ∧ ∀ r : ℝ, 0 < r → r ≤ r₀ → ∀ Q : Matrix (Fin p) (Fin p) 𝕜, Q.PosDef →
      mStep (wStudent nu p) (scaleRows J r X) Q = Q → ¬ Loewner ((a : 𝕜) • 1) Q := by
  classical
  have hp' : (0 : ℝ) < p := by exact_mod_cast hp
  have hN' : (0 : ℝ) < N := by exact_mod_cast hN
  -- a bound for the squared lengths
  set B : ℝ := ∑ i, (∑ j, ‖sample X i j‖ ^ 2) / a with hB
  have hBi : ∀ i, (∑ j, ‖sample X i j‖ ^ 2) / a ≤ B := fun i =>
    Finset.single_le_sum (f := fun i => (∑ j, ‖sample X i j‖ ^ 2) / a)
      (fun k _ => div_nonneg (Finset.sum_nonneg fun j _ => sq_nonneg _) ha.le) (Finset.mem_univ i)
  have hB0 : 0 ≤ B := Finset.sum_nonneg fun k _ =>
    div_nonneg (Finset.sum_nonneg fun j _ => sq_nonneg _) ha.le
  set n : ℝ := (Jᶜ.card : ℝ) with hn
  have hnJ : n = N - J.card := by
    rw [hn, Finset.card_compl, Fintype.card_fin, Nat.cast_sub]
    simpa using Finset.card_le_univ J
  -- the kept samples contribute at most this, strictly less than `N p`
  have hgap : 0 < N * p - n * ((nu + p) * (B / (nu + B))) := by
    have h1 : n * (nu + p) ≤ N * p := by rw [hnJ]; nlinarith
    have h2 : B / (nu + B) < 1 := by rw [div_lt_one (by positivity)]; linarith
    have h3 : 0 ≤ n := Nat.cast_nonneg _
    have h4 : 0 ≤ B / (nu + B) := by positivity
    have h5 : n * ((nu + p) * (B / (nu + B))) ≤ N * p * (B / (nu + B)) := by
      rw [← mul_assoc]; exact mul_le_mul_of_nonneg_right h1 h4
    have h6 : (0 : ℝ) < N * p := by positivity
    nlinarith
  set g := N * p - n * ((nu + p) * (B / (nu + B)))
  have hJ0 : (0 : ℝ) ≤ J.card := Nat.cast_nonneg _
  set D : ℝ := J.card * ((nu + p) / nu * B) + 1 with hD
  have hD0 : 0 < D := by positivity
  refine ⟨min 1 (g / (2 * D)), lt_min one_pos (by positivity), fun r hr hrle Q hQ hfix hle => ?_⟩
  have hr1 : r ≤ 1 := hrle.trans (min_le_left _ _)
  have hr2 : r * D < g := by
    have h1 := hrle.trans (min_le_right _ _)
    rw [le_div_iff₀ (by positivity)] at h1
    nlinarith
  have htr := fixed_trace (Q := 1) hN (scaleRows J r X) hQ (Matrix.one_mul 1) (by simp) hfix (d := p)
    (by simp)
  simp only [one_mulVec] at htr
  have hdi : ∀ i, qf Q (sample X i) ≤ B := fun i => (qf_le_of_ge ha hle _).trans (hBi i)
  have hterm : ∀ i, wStudent nu p (qf Q (sample (scaleRows J r X) i)) *
      qf Q (sample (scaleRows J r X) i) ≤
      (if i ∈ J then r * ((nu + p) / nu * B) else (nu + p) * (B / (nu + B))) := fun i => by
    have hd0 := qf_nonneg hQ (sample X i)
    have hd := hdi i
    by_cases hi : i ∈ J
    · rw [if_pos hi, scaleRows_mem r X hi, qf_smul_vec, wStudent]
      set d := qf Q (sample X i)
      have h1 : (nu + p) / (nu + r ^ 2 * d) ≤ (nu + p) / nu :=
        div_le_div_of_nonneg_left (by positivity) hnu (by nlinarith [mul_nonneg (sq_nonneg r) hd0])
      have h2 : r ^ 2 * d ≤ r * B := by
        have : r ^ 2 ≤ r := by nlinarith
        calc r ^ 2 * d ≤ r * d := mul_le_mul_of_nonneg_right this hd0
          _ ≤ r * B := mul_le_mul_of_nonneg_left hd hr.le
      calc (nu + p) / (nu + r ^ 2 * d) * (r ^ 2 * d) ≤ (nu + p) / nu * (r * B) :=
            mul_le_mul h1 h2 (by positivity) (by positivity)
        _ = _ := by ring
    · rw [if_neg hi, scaleRows_not_mem r X hi, wStudent]
      set d := qf Q (sample X i)
      rw [div_mul_eq_mul_div, mul_div_assoc]
      apply mul_le_mul_of_nonneg_left _ (by positivity)
      rw [div_le_div_iff₀ (by positivity) (by positivity)]
      nlinarith
  have hsum := Finset.sum_le_sum fun i (_ : i ∈ Finset.univ) => hterm i
  rw [htr, Finset.sum_ite, Finset.sum_const, Finset.sum_const, nsmul_eq_mul, nsmul_eq_mul] at hsum
  have e1 : (Finset.univ.filter fun i => i ∈ J) = J := by ext; simp
  have e2 : (Finset.univ.filter fun i => i ∉ J) = Jᶜ := by ext; simp
  rw [e1, e2] at hsum
  have e3 : (J.card : ℝ) * (r * ((nu + p) / nu * B)) ≤ r * D := by rw [hD]; nlinarith
  have : g = N * p - n * ((nu + p) * (B / (nu + B))) := rfl
  linarith

/-- A fixed point in the direction of a vector. -/
theorem fixed_direction {w : ℝ → ℝ} (hw : ∀ t, 0 ≤ t → 0 ≤ w t) (hN : 0 < N)
    (X : Matrix (Fin N) (Fin p) 𝕜) {Q : Matrix (Fin p) (Fin p) 𝕜} (hQ : Q.PosDef)
    (hfix : mStep w X Q = Q) (x : Fin p → 𝕜) (s : Finset (Fin N)) :
    ∑ i ∈ s, w (qf Q (sample X i)) * ‖star (sample X i) ⬝ᵥ (Q⁻¹ *ᵥ x)‖ ^ 2 ≤ N * qf Q x := by
  have hu : IsUnit Q.det := (Matrix.isUnit_iff_isUnit_det Q).1 hQ.isUnit
  have hN' : (0 : ℝ) < N := by exact_mod_cast hN
  have h1 := scatter_quad (fun i => w (qf Q (sample X i))) X (Q⁻¹ *ᵥ x)
  have h2 : scatter (fun i => w (qf Q (sample X i))) X = Q := hfix
  rw [h2, mulVec_mulVec, Matrix.mul_nonsing_inv _ hu, one_mulVec] at h1
  have h3 : RCLike.re (star (Q⁻¹ *ᵥ x) ⬝ᵥ x) = qf Q x := by
    unfold qf
    rw [star_mulVec, hQ.inv.isHermitian.eq, dotProduct_mulVec]
  rw [h1, RCLike.ofReal_re] at h3
  rw [← h3, ← mul_assoc, mul_inv_cancel₀ hN'.ne', one_mul]
  exact Finset.sum_le_sum_of_subset_of_nonneg (Finset.subset_univ s) fun i _ _ =>
    mul_nonneg (hw _ (qf_nonneg hQ _)) (sq_nonneg _)

theorem norm_dot_self {Q : Matrix (Fin p) (Fin p) 𝕜} (hQ : Q.PosDef) {r : ℝ} (hr : 0 ≤ r)
    (x : Fin p → 𝕜) : ‖star ((r : 𝕜) • x) ⬝ᵥ (Q⁻¹ *ᵥ x)‖ = r * qf Q x := by
  have h1 : star x ⬝ᵥ (Q⁻¹ *ᵥ x) = ((qf Q x : ℝ) : 𝕜) := by
    have := RCLike.nonneg_iff.1 (hQ.inv.posSemidef.dotProduct_mulVec_nonneg x)
    apply RCLike.ext
    · rw [RCLike.ofReal_re]; rfl
    · rw [RCLike.ofReal_im]; exact this.2
  rw [star_smul, smul_dotProduct, h1, RCLike.star_def, RCLike.conj_ofReal, smul_eq_mul,
    ← RCLike.ofReal_mul, RCLike.norm_ofReal, abs_of_nonneg (mul_nonneg hr (qf_nonneg hQ x))]

/-- Replacing some samples by one vector. -/
def putRows (J : Finset (Fin N)) (y : Fin p → 𝕜) (X : Matrix (Fin N) (Fin p) 𝕜) :
    Matrix (Fin N) (Fin p) 𝕜 :=
  open Classical in Matrix.of fun i j => if i ∈ J then y j else X i j

theorem putRows_mem {J : Finset (Fin N)} (y : Fin p → 𝕜) (X : Matrix (Fin N) (Fin p) 𝕜) {i : Fin N}
    (h : i ∈ J) : sample (putRows J y X) i = y := by
  funext j
  simp [sample, putRows, h]

theorem putRows_not_mem {J : Finset (Fin N)} (y : Fin p → 𝕜) (X : Matrix (Fin N) (Fin p) 𝕜) {i : Fin N}
    (h : i ∉ J) : sample (putRows J y X) i = sample X i := by
  funext j
  simp [sample, putRows, h]

/-- `N/(ν + p)` samples far away in the direction of another sample make the Student-t estimate
arbitrarily large. -/
theorem student_explodes {nu : ℝ} (hnu : 0 < nu) (X : Matrix (Fin N) (Fin p) 𝕜) (hp : 0 < p)
    {J : Finset (Fin N)} (hm : N ≤ J.card * (nu + p)) {i₀ : Fin N} (hi₀ : i₀ ∉ J)
    (hx : sample X i₀ ≠ 0) {b : ℝ} (hb : 0 < b) :
    ∃ r₀ : ℝ, 0 < r₀ ∧ ∀ r : ℝ, r₀ ≤ r → ∀ Q : Matrix (Fin p) (Fin p) 𝕜, Q.PosDef →
      mStep (wStudent nu p) (putRows J ((r : 𝕜) • sample X i₀) X) Q = Q →
        ¬ Loewner Q ((b : 𝕜) • 1) := by
  classical
  have hN : 0 < N := Fin.pos i₀
  have hN' : (0 : ℝ) < N := by exact_mod_cast hN
  have hp' : (0 : ℝ) < p := by exact_mod_cast hp
  set x := sample X i₀ with hxdef
  set c : ℝ := (∑ j, ‖x j‖ ^ 2) / b with hc
  have hc0 : 0 < c := by
    have := qf_pos PosDef.one hx
    rw [qf_one] at this
    exact div_pos this hb
  have hJ0 : (0 : ℝ) ≤ J.card := Nat.cast_nonneg _
  set g : ℝ := (nu + p) * c / (nu + c) with hg
  have hg0 : 0 < g := by positivity
  set M : ℝ := J.card * (nu + p) * nu / (g * c) + 1 with hM
  have hM0 : 1 ≤ M := by rw [hM]; have : 0 ≤ J.card * (nu + p) * nu / (g * c) := by positivity
                         linarith
  refine ⟨M, by linarith, fun r hr Q hQ hfix hle => ?_⟩
  have hr1 : 1 ≤ r := hM0.trans hr
  have hr0 : 0 < r := by linarith
  have hd : c ≤ qf Q x := qf_ge_of_le hb hQ hle x
  have hw : ∀ t : ℝ, 0 ≤ t → 0 ≤ wStudent nu p t := fun t ht => by unfold wStudent; positivity
  have h1 := fixed_direction hw hN _ hQ hfix x (insert i₀ J)
  rw [Finset.sum_insert hi₀, putRows_not_mem _ _ hi₀] at h1
  have h2 : ∑ i ∈ J, wStudent nu p (qf Q (sample (putRows J ((r : 𝕜) • x) X) i)) *
      ‖star (sample (putRows J ((r : 𝕜) • x) X) i) ⬝ᵥ (Q⁻¹ *ᵥ x)‖ ^ 2 =
      J.card * ((nu + p) / (nu + r ^ 2 * qf Q x) * (r * qf Q x) ^ 2) := by
    rw [← nsmul_eq_mul, ← Finset.sum_const]
    refine Finset.sum_congr rfl fun i hi => ?_
    rw [putRows_mem _ _ hi, norm_dot_self hQ hr0.le, qf_smul_vec, wStudent]
  have h3 : ‖star x ⬝ᵥ (Q⁻¹ *ᵥ x)‖ = qf Q x := by
    have := norm_dot_self hQ (zero_le_one) x
    simpa using this
  rw [h2, ← hxdef, h3, wStudent] at h1
  set d := qf Q x
  have hd0 : 0 < d := hc0.trans_le hd
  have h4 : (nu + p) * d / (nu + d) + J.card * ((nu + p) * (r ^ 2 * d) / (nu + r ^ 2 * d)) ≤ N := by
    have e : (nu + p) / (nu + d) * d ^ 2 + J.card * ((nu + p) / (nu + r ^ 2 * d) * (r * d) ^ 2) =
        d * ((nu + p) * d / (nu + d) + J.card * ((nu + p) * (r ^ 2 * d) / (nu + r ^ 2 * d))) := by
      field_simp
    rw [e, mul_comm (N : ℝ)] at h1
    exact le_of_mul_le_mul_left h1 hd0
  have h5 : g ≤ (nu + p) * d / (nu + d) := by
    rw [hg, div_le_div_iff₀ (by positivity) (by positivity)]
    have : 0 ≤ nu + p := by positivity
    have h6 : nu * c ≤ nu * d := mul_le_mul_of_nonneg_left hd hnu.le
    nlinarith
  have h6 : (nu + p) * (r ^ 2 * d) / (nu + r ^ 2 * d) = (nu + p) - (nu + p) * nu / (nu + r ^ 2 * d) := by
    field_simp; ring
  have h7 : J.card * ((nu + p) * nu / (nu + r ^ 2 * d)) < g := by
    have h8 : (nu + p) * nu / (nu + r ^ 2 * d) ≤ (nu + p) * nu / (r * c) := by
      apply div_le_div_of_nonneg_left (by positivity) (by positivity)
      have : r * c ≤ r ^ 2 * d := by
        rw [sq, mul_assoc]
        apply mul_le_mul_of_nonneg_left _ hr0.le
        nlinarith
      linarith
    have h9 : J.card * ((nu + p) * nu / (r * c)) < g := by
      have e : J.card * ((nu + p) * nu / (r * c)) = (J.card * (nu + p) * nu / (g * c)) * g / r := by
        field_simp
      rw [e, div_lt_iff₀ hr0]
      have : J.card * (nu + p) * nu / (g * c) < r := by linarith
      nlinarith
    exact lt_of_le_of_lt (mul_le_mul_of_nonneg_left h8 hJ0) h9
  rw [h6, mul_sub] at h4
  linarith

end
end RS
