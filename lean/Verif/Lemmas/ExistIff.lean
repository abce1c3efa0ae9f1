import Verif.Lemmas.Exist
import Mathlib.LinearAlgebra.FreeModule.Finite.Matrix

/-! A fixed point of the M-step bounds the number of samples in every subspace. -/
set_option autoImplicit false

namespace RS
open Matrix ComplexOrder Filter Topology

section
variable {𝕜 : Type} [RCLike 𝕜] {N p : ℕ}

/-- The projector onto `V` that is orthogonal for the inner product `x^H S⁻¹ y`. -/
theorem proj_exists {S : Matrix (Fin p) (Fin p) 𝕜} (hS : S.PosDef) (V : Submodule 𝕜 (Fin p → 𝕜)) :
    ∃ Q : Matrix (Fin p) (Fin p) 𝕜, Q * Q = Q ∧ Qᴴ * S⁻¹ = S⁻¹ * Q ∧ (∀ x, x ∈ V ↔ Q *ᵥ x = x) ∧
      Q.trace = Module.finrank 𝕜 V := by
  set b := Module.finBasis 𝕜 V
  set d := Module.finrank 𝕜 V
  set B : Matrix (Fin p) (Fin d) 𝕜 := Matrix.of fun i k => (b k : Fin p → 𝕜) i with hB
  have hBv : ∀ c : Fin d → 𝕜, B *ᵥ c = ((∑ k, c k • b k : V) : Fin p → 𝕜) := fun c => by
    funext i
    simp [hB, mulVec, dotProduct, mul_comm]
  have hBmem : ∀ c, B *ᵥ c ∈ V := fun c => by rw [hBv]; exact Subtype.property _
  have hinj : Function.Injective B.mulVec := fun c c' h => by
    have h1 : (∑ k, c k • b k : V) = ∑ k, c' k • b k := by
      apply Subtype.ext
      rw [← hBv, ← hBv]; exact h
    have h2 := congrArg (fun v => ⇑(b.repr v)) h1
    simpa only [b.repr_sum_self] using h2
  have hrange : ∀ x ∈ V, ∃ c, x = B *ᵥ c := fun x hx => by
    refine ⟨fun k => b.repr ⟨x, hx⟩ k, ?_⟩
    rw [hBv, b.sum_repr]
  set G := Bᴴ * S⁻¹ * B with hG
  have hGP : G.PosDef := hS.inv.conjTranspose_mul_mul_same hinj
  have hGu : IsUnit G.det := (Matrix.isUnit_iff_isUnit_det G).1 hGP.isUnit
  have hGG : G⁻¹ * G = 1 := Matrix.nonsing_inv_mul G hGu
  have hGG' : G * G⁻¹ = 1 := Matrix.mul_nonsing_inv G hGu
  have hQB : B * G⁻¹ * Bᴴ * S⁻¹ * B = B := by
    rw [show B * G⁻¹ * Bᴴ * S⁻¹ * B = B * (G⁻¹ * G) by rw [hG]; simp only [Matrix.mul_assoc],
      hGG, Matrix.mul_one]
  refine ⟨B * G⁻¹ * Bᴴ * S⁻¹, ?_, ?_, fun x => ⟨fun hx => ?_, fun hx => ?_⟩, ?_⟩
  · rw [show B * G⁻¹ * Bᴴ * S⁻¹ * (B * G⁻¹ * Bᴴ * S⁻¹) = (B * G⁻¹ * Bᴴ * S⁻¹ * B) * G⁻¹ * Bᴴ * S⁻¹ by
      simp only [Matrix.mul_assoc], hQB]
  · rw [conjTranspose_mul, conjTranspose_mul, conjTranspose_mul, conjTranspose_conjTranspose,
      show (S⁻¹)ᴴ = S⁻¹ from hS.inv.1, show (G⁻¹)ᴴ = G⁻¹ from hGP.inv.1]
    simp only [Matrix.mul_assoc]
  · obtain ⟨c, rfl⟩ := hrange x hx
    rw [mulVec_mulVec, hQB]
  · rw [← hx, Matrix.mul_assoc, Matrix.mul_assoc, ← mulVec_mulVec]
    exact hBmem _
  · rw [Matrix.mul_assoc, Matrix.mul_assoc, trace_mul_comm, Matrix.mul_assoc, ← hG,
      hGG, trace_one, Fintype.card_fin]

theorem qf_split {S Q : Matrix (Fin p) (Fin p) 𝕜} (hQQ : Q * Q = Q) (hQS : Qᴴ * S⁻¹ = S⁻¹ * Q)
    (x : Fin p → 𝕜) : qf S x = qf S (Q *ᵥ x) + qf S (x - Q *ᵥ x) := by
  have hm : ∀ A : Matrix (Fin p) (Fin p) 𝕜, qf S (A *ᵥ x) =
      RCLike.re (star x ⬝ᵥ ((Aᴴ * S⁻¹ * A) *ᵥ x)) := fun A => by
    unfold qf
    rw [star_mulVec, ← dotProduct_mulVec, mulVec_mulVec, mulVec_mulVec, Matrix.mul_assoc]
  have h1 : x - Q *ᵥ x = (1 - Q) *ᵥ x := by rw [sub_mulVec, one_mulVec]
  rw [h1, hm Q, hm (1 - Q), ← map_add, ← dotProduct_add, ← add_mulVec]
  unfold qf
  congr 3
  rw [conjTranspose_sub, conjTranspose_one, Matrix.sub_mul, Matrix.one_mul, hQS, Matrix.mul_assoc,
    hQQ, Matrix.sub_mul, Matrix.mul_sub, Matrix.mul_sub, Matrix.mul_assoc S⁻¹ Q Q, hQQ]
  simp

/-- At a fixed point, the weighted energy of the samples in `V` is the dimension of `V`. -/
theorem fixed_trace {w : ℝ → ℝ} (hN : 0 < N) (X : Matrix (Fin N) (Fin p) 𝕜)
    {S Q : Matrix (Fin p) (Fin p) 𝕜} (hS : S.PosDef) (hQQ : Q * Q = Q)
    (hQS : Qᴴ * S⁻¹ = S⁻¹ * Q) (hfix : mStep w X S = S) {d : ℕ} (hd : Q.trace = d) :
    ∑ i, w (qf S (sample X i)) * qf S (Q *ᵥ sample X i) = N * d := by
  have hm : ∀ x, qf S (Q *ᵥ x) = RCLike.re (star x ⬝ᵥ ((S⁻¹ * Q) *ᵥ x)) := fun x => by
    unfold qf
    rw [star_mulVec, ← dotProduct_mulVec, mulVec_mulVec, mulVec_mulVec, hQS,
      Matrix.mul_assoc, hQQ]
  have hu : IsUnit S.det := (Matrix.isUnit_iff_isUnit_det S).1 hS.isUnit
  have h1 : (S⁻¹ * Q * scatter (fun i => w (qf S (sample X i))) X).trace =
      (N : 𝕜)⁻¹ * ∑ i, (w (qf S (sample X i)) : 𝕜) *
        (star (sample X i) ⬝ᵥ ((S⁻¹ * Q) *ᵥ sample X i)) := by
    unfold scatter
    rw [Matrix.mul_smul, trace_smul, Matrix.mul_sum, trace_sum, smul_eq_mul]
    congr 1
    apply Finset.sum_congr rfl
    intro i _
    rw [Matrix.mul_smul, trace_smul, mul_vecMulVec, trace_vecMulVec, smul_eq_mul, dotProduct_comm]
  have h2 : scatter (fun i => w (qf S (sample X i))) X = S := hfix
  rw [h2, Matrix.mul_assoc, trace_mul_comm, Matrix.mul_assoc, Matrix.mul_nonsing_inv S hu,
    Matrix.mul_one, hd] at h1
  have h3 := congrArg RCLike.re h1
  rw [show ((N : 𝕜)⁻¹) = (((N : ℝ)⁻¹ : ℝ) : 𝕜) by simp, RCLike.re_ofReal_mul, map_sum,
    RCLike.natCast_re] at h3
  simp only [RCLike.re_ofReal_mul, ← hm] at h3
  have hN' : (N : ℝ) ≠ 0 := by exact_mod_cast hN.ne'
  rw [h3, ← mul_assoc, mul_inv_cancel₀ hN', one_mul]

/-- The missing energy. -/
theorem fixed_defect {nu : ℝ} (hN : 0 < N) (X : Matrix (Fin N) (Fin p) 𝕜)
    {S Q : Matrix (Fin p) (Fin p) 𝕜} (hS : S.PosDef) (hQQ : Q * Q = Q)
    (hQS : Qᴴ * S⁻¹ = S⁻¹ * Q) (hfix : mStep (wStudent nu p) X S = S) {d : ℕ} (hd : Q.trace = d) :
    ∑ i, (nu + p) * (qf S (sample X i - Q *ᵥ sample X i) / (nu + qf S (sample X i))) =
      N * (p - d) := by
  have h1 := fixed_trace hN X hS hQQ hQS hfix hd
  have h2 := fixed_trace (Q := 1) hN X hS (Matrix.one_mul 1) (by simp) hfix (d := p) (by simp)
  simp only [one_mulVec] at h2
  rw [mul_sub, ← h2, ← h1, ← Finset.sum_sub_distrib]
  apply Finset.sum_congr rfl; intro i _
  rw [← mul_sub, qf_split hQQ hQS (sample X i), add_sub_cancel_left, wStudent,
    ← qf_split hQQ hQS (sample X i)]
  ring

theorem card_not_mem (X : Matrix (Fin N) (Fin p) 𝕜) (V : Submodule 𝕜 (Fin p → 𝕜)) :
    (∑ i, open Classical in if sample X i ∈ V then (0 : ℝ) else 1) = N - samplesIn X V := by
  classical
  have : ∀ i, (if sample X i ∈ V then (0 : ℝ) else 1) = 1 - if sample X i ∈ V then 1 else 0 :=
    fun i => by split_ifs <;> simp
  simp only [this]
  rw [Finset.sum_sub_distrib, Finset.sum_boole, samplesIn_eq]
  simp

theorem student_count {nu : ℝ} (hnu : 0 < nu) (X : Matrix (Fin N) (Fin p) 𝕜)
    {S : Matrix (Fin p) (Fin p) 𝕜} (hS : S.PosDef) (hfix : mStep (wStudent nu p) X S = S)
    (V : Submodule 𝕜 (Fin p → 𝕜)) (hV : V ≠ ⊤) :
    (nu + p) * samplesIn X V < N * (nu + Module.finrank 𝕜 V) := by
  classical
  have hd := finrank_lt_p hV
  have hp : 0 < p := by omega
  have hN : 0 < N := by
    rcases Nat.eq_zero_or_pos N with h | h
    · subst h
      exfalso
      have : S = 0 := by rw [← hfix]; simp [mStep, scatter]
      have : Nonempty (Fin p) := ⟨⟨0, hp⟩⟩
      have ht := hS.trace_pos
      rw [‹S = 0›, trace_zero] at ht
      exact lt_irrefl _ ht
    · exact h
  obtain ⟨Q, hQQ, hQS, hQV, hQt⟩ := proj_exists hS V
  have h1 := fixed_defect hN X hS hQQ hQS hfix hQt
  have hN' : (0 : ℝ) < N := by exact_mod_cast hN
  have hd' : (Module.finrank 𝕜 V : ℝ) < p := by exact_mod_cast hd
  have hterm : ∀ i, (nu + p) * (qf S (sample X i - Q *ᵥ sample X i) / (nu + qf S (sample X i))) ≤
      (nu + p) * (if sample X i ∈ V then (0 : ℝ) else 1) ∧ (sample X i ∉ V →
      (nu + p) * (qf S (sample X i - Q *ᵥ sample X i) / (nu + qf S (sample X i))) <
      (nu + p) * (if sample X i ∈ V then (0 : ℝ) else 1)) := fun i => by
    by_cases hi : sample X i ∈ V
    · refine ⟨?_, fun h => absurd hi h⟩
      rw [if_pos hi, (hQV _).1 hi, sub_self]
      simp [qf]
    · have hlt : (nu + p) * (qf S (sample X i - Q *ᵥ sample X i) / (nu + qf S (sample X i))) <
          (nu + p) * (if sample X i ∈ V then (0 : ℝ) else 1) := by
        rw [if_neg hi]
        apply mul_lt_mul_of_pos_left _ (by positivity)
        rw [div_lt_one (by linarith [qf_nonneg hS (sample X i)])]
        have := qf_split hQQ hQS (sample X i)
        linarith [qf_nonneg hS (Q *ᵥ sample X i)]
      exact ⟨hlt.le, fun _ => hlt⟩
  have hex : ∃ i, sample X i ∉ V := by
    by_contra hcon
    push Not at hcon
    have h2 : ∑ i, (nu + p) * (qf S (sample X i - Q *ᵥ sample X i) / (nu + qf S (sample X i))) ≤ 0 :=
      Finset.sum_nonpos fun i _ => by
        have := (hterm i).1
        rwa [if_pos (hcon i), mul_zero] at this
    rw [h1] at h2
    nlinarith
  obtain ⟨i, hi⟩ := hex
  have h3 := Finset.sum_lt_sum (fun i (_ : i ∈ Finset.univ) => (hterm i).1)
    ⟨i, Finset.mem_univ i, (hterm i).2 hi⟩
  rw [h1, ← Finset.mul_sum, card_not_mem] at h3
  linarith

theorem tyler_count (hN : 0 < N) (X : Matrix (Fin N) (Fin p) 𝕜) (hn : NonzeroSamples X)
    {S : Matrix (Fin p) (Fin p) 𝕜} (hS : S.PosDef) (hfix : mStep (wTyler p) X S = S)
    (V : Submodule 𝕜 (Fin p → 𝕜)) :
    p * samplesIn X V < N * Module.finrank 𝕜 V ∨
      (p * samplesIn X V = N * Module.finrank 𝕜 V ∧ ∃ Q : Matrix (Fin p) (Fin p) 𝕜, Q * Q = Q ∧
        (∀ x, x ∈ V ↔ Q *ᵥ x = x) ∧
        ∀ i, Q *ᵥ sample X i = sample X i ∨ Q *ᵥ sample X i = 0) := by
  classical
  obtain ⟨Q, hQQ, hQS, hQV, hQt⟩ := proj_exists hS V
  rw [wTyler_eq] at hfix
  have h1 := fixed_defect hN X hS hQQ hQS hfix hQt
  simp only [zero_add] at h1
  have hterm : ∀ i, p * (qf S (sample X i - Q *ᵥ sample X i) / qf S (sample X i)) ≤
      p * (if sample X i ∈ V then (0 : ℝ) else 1) ∧ (p = 0 ∨ sample X i ∈ V ∨ Q *ᵥ sample X i = 0 ∨
      p * (qf S (sample X i - Q *ᵥ sample X i) / qf S (sample X i)) <
      p * (if sample X i ∈ V then (0 : ℝ) else 1)) := fun i => by
    by_cases hi : sample X i ∈ V
    · refine ⟨?_, Or.inr (Or.inl hi)⟩
      rw [if_pos hi, (hQV _).1 hi, sub_self]
      simp [qf]
    · have hsp := qf_split hQQ hQS (sample X i)
      have hq := qf_pos hS (hn i)
      rw [if_neg hi]
      refine ⟨mul_le_mul_of_nonneg_left ?_ (Nat.cast_nonneg _), ?_⟩
      · rw [div_le_one hq]
        linarith [qf_nonneg hS (Q *ᵥ sample X i)]
      · rcases Nat.eq_zero_or_pos p with h | h
        · exact Or.inl h
        · by_cases hz : Q *ᵥ sample X i = 0
          · exact Or.inr (Or.inr (Or.inl hz))
          · refine Or.inr (Or.inr (Or.inr (mul_lt_mul_of_pos_left ?_ (by exact_mod_cast h))))
            rw [div_lt_one hq]
            linarith [qf_pos hS hz]
  have h3 := Finset.sum_le_sum fun i (_ : i ∈ Finset.univ) => (hterm i).1
  rw [h1, ← Finset.mul_sum, card_not_mem] at h3
  have hle : p * samplesIn X V ≤ N * Module.finrank 𝕜 V := by
    have : (p : ℝ) * samplesIn X V ≤ N * Module.finrank 𝕜 V := by linarith
    exact_mod_cast this
  rcases hle.lt_or_eq with h | h
  · exact Or.inl h
  · refine Or.inr ⟨h, Q, hQQ, hQV, fun i => ?_⟩
    rcases (hterm i).2 with h' | h' | h' | h'
    · subst h'; left; exact Subsingleton.elim _ _
    · exact Or.inl ((hQV _).1 h')
    · exact Or.inr h'
    · have h4 := Finset.sum_lt_sum (fun i (_ : i ∈ Finset.univ) => (hterm i).1)
        ⟨i, Finset.mem_univ i, h'⟩
      rw [h1, ← Finset.mul_sum, card_not_mem] at h4
      have h5 : (p : ℝ) * samplesIn X V = N * Module.finrank 𝕜 V := by exact_mod_cast h
      linarith

/-- No subspace with too many samples: the samples do not split. -/
theorem count_indecomposable (X : Matrix (Fin N) (Fin p) 𝕜)
    (H : ∀ V : Submodule 𝕜 (Fin p → 𝕜), V ≠ ⊥ → V ≠ ⊤ →
      p * samplesIn X V < N * Module.finrank 𝕜 V) : Indecomposable X := by
  classical
  intro P hPP hPx
  by_contra hcon
  push Not at hcon
  obtain ⟨h0, h1⟩ := hcon
  set V := LinearMap.range (Matrix.mulVecLin P)
  set W := LinearMap.ker (Matrix.mulVecLin P)
  have hdim : Module.finrank 𝕜 V + Module.finrank 𝕜 W = p := by
    have := LinearMap.finrank_range_add_finrank_ker (Matrix.mulVecLin P)
    rwa [Module.finrank_fin_fun] at this
  have hV0 : V ≠ ⊥ := fun h => h0 (by
    have := LinearMap.range_eq_bot.1 h
    ext i j
    have h2 := congrFun (LinearMap.congr_fun this (Pi.single j 1)) i
    simpa using h2)
  have hVt : V ≠ ⊤ := fun h => h1 (by
    have hs := LinearMap.range_eq_top.1 h
    ext i j
    obtain ⟨y, hy⟩ := hs (Pi.single j 1)
    have hy' : P *ᵥ y = Pi.single j 1 := hy
    have : P *ᵥ Pi.single j 1 = Pi.single j 1 := by rw [← hy', mulVec_mulVec, hPP]
    have h2 := congrFun this i
    simpa [Pi.single_apply, Matrix.one_apply] using h2)
  have hW0 : W ≠ ⊥ := fun h => hVt (by
    apply Submodule.eq_top_of_finrank_eq
    rw [Module.finrank_fin_fun]
    rw [h, finrank_bot] at hdim
    exact hdim)
  have hWt : W ≠ ⊤ := fun h => hV0 (by
    apply Submodule.finrank_eq_zero.1
    rw [h, finrank_top, Module.finrank_fin_fun] at hdim
    omega)
  have a1 := H V hV0 hVt
  have a2 := H W hW0 hWt
  have a3 : N ≤ samplesIn X V + samplesIn X W := by
    rw [samplesIn_eq, samplesIn_eq]
    calc N = (Finset.univ : Finset (Fin N)).card := by simp
      _ ≤ ((Finset.univ.filter fun i => sample X i ∈ V) ∪
          (Finset.univ.filter fun i => sample X i ∈ W)).card := Finset.card_le_card fun i _ => by
          rw [Finset.mem_union, Finset.mem_filter, Finset.mem_filter]
          rcases hPx i with h | h
          · exact Or.inl ⟨Finset.mem_univ _, ⟨sample X i, h⟩⟩
          · exact Or.inr ⟨Finset.mem_univ _, h⟩
      _ ≤ _ := Finset.card_union_le _ _
  have a4 : p * (samplesIn X V + samplesIn X W) < N * p := by
    rw [Nat.mul_add]
    calc _ < N * Module.finrank 𝕜 V + N * Module.finrank 𝕜 W := Nat.add_lt_add a1 a2
      _ = N * p := by rw [← Nat.mul_add, hdim]
  have a5 := Nat.mul_le_mul_left p a3
  rw [Nat.mul_comm p N] at a5
  omega

end
end RS
