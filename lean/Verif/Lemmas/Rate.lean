import Verif.Lemmas.TylerRate
import Verif.Lemmas.Cost
import Verif.Props.Converge

/-! Rates of the fixed-point iterations: error of an iterate against the last step, error of the
normalised iterate, number of iterations against the tolerance. -/
set_option autoImplicit false

namespace RS
open Matrix ComplexOrder Filter Topology

section
variable {𝕜 : Type} [RCLike 𝕜] {N p : ℕ}

/-! ### Matrices near a positive definite matrix -/

/-- A Hermitian matrix at distance `f` of `Q` lies between `(1 - c f) Q` and `(1 + c f) Q`. -/
theorem squeezed_of_frob {Q : Matrix (Fin p) (Fin p) 𝕜} (hQ : Q.PosDef) :
    ∃ c : ℝ, 1 ≤ c ∧ ∀ T E : Matrix (Fin p) (Fin p) 𝕜, E.IsHermitian →
      Loewner (T - ((c * frob E : ℝ) : 𝕜) • Q) (T + E) ∧
      Loewner (T + E) (T + ((c * frob E : ℝ) : 𝕜) • Q) := by
  obtain ⟨c, hc, -, h2⟩ := exists_between hQ PosDef.one
  refine ⟨c, hc, fun T E hE => ?_⟩
  have hle : Loewner ((frob E : 𝕜) • (1 : Matrix (Fin p) (Fin p) 𝕜)) (((c * frob E : ℝ) : 𝕜) • Q) := by
    have := h2.smul (frob_nonneg E)
    rwa [smul_smul, ← RCLike.ofReal_mul, mul_comm] at this
  constructor
  · have h := (hermitian_le_frob hE.neg)
    have hf : frob (-E) = frob E := by
      have := frob_sub_comm 0 E
      rwa [zero_sub, sub_zero] at this
    rw [hf] at h
    have := h.trans hle
    unfold Loewner at this ⊢
    convert this using 1
    abel
  · have := (hermitian_le_frob hE).trans hle
    unfold Loewner at this ⊢
    convert this using 1
    abel

theorem det_mono {A B : Matrix (Fin p) (Fin p) 𝕜} (hA : A.PosDef) (h : Loewner A B) :
    RCLike.re A.det ≤ RCLike.re B.det := by
  have hB := h.posDef hA
  have h1 := log_det_le B A hB hA
  obtain ⟨G, l, hG, hl, h2, h3⟩ := simultaneous B A hB hA
  have h4 : RCLike.re (B⁻¹ * A).trace ≤ p := by
    rw [trace_inv_mul hG h2 h3, RCLike.ofReal_re]
    have h5 : ∀ j, l j ≤ 1 := by
      have h6 := h.congr G
      rw [h2, h3] at h6
      have h7 : Loewner (diagonal fun j => (l j : 𝕜)) (diagonal fun _ => ((1 : ℝ) : 𝕜)) := by
        simpa using h6
      exact loewner_diagonal.1 h7
    calc ∑ j, l j ≤ ∑ _j : Fin p, (1 : ℝ) := Finset.sum_le_sum fun j _ => h5 j
      _ = p := by simp
  have hA0 := (posDef_re_det_pos hA).1
  have hB0 := (posDef_re_det_pos hB).1
  exact (Real.log_le_log_iff hA0 hB0).1 (by linarith)

/-- The normaliser is monotone and positively homogeneous, except for `"None"` where it is one. -/
theorem normFn_mono (name : String) (hp : 0 < p) {A B : Matrix (Fin p) (Fin p) 𝕜} (hA : A.PosDef)
    (hB : B.PosDef) {c a b : ℝ} (hc : 0 < c)
    (hn : name = "trace" ∨ name = "determinant" ∨ name = "element")
    (ha : normFn name A = some (a : 𝕜)) (hb : normFn name B = some (b : 𝕜)) :
    (Loewner A ((c : 𝕜) • B) → a ≤ c * b) ∧ (Loewner ((c : 𝕜) • B) A → c * b ≤ a) := by
  have hp' : (0 : ℝ) < p := by exact_mod_cast hp
  have hcB : ((c : 𝕜) • B).PosDef := hB.smul (by exact_mod_cast hc)
  rcases hn with rfl | rfl | rfl
  · simp only [normFn, if_true, Option.some.injEq, RCLike.ofReal_inj] at ha hb
    subst ha; subst hb
    rw [← mul_div_assoc]
    constructor
    · intro h
      have := h.trace_le
      rw [trace_smul, smul_eq_mul, RCLike.re_ofReal_mul] at this
      exact div_le_div_of_nonneg_right this hp'.le
    · intro h
      have := h.trace_le
      rw [trace_smul, smul_eq_mul, RCLike.re_ofReal_mul] at this
      exact div_le_div_of_nonneg_right this hp'.le
  · have h1 := (posDef_re_det_pos hA).1
    have h2 := (posDef_re_det_pos hB).1
    have e1 : ("determinant" = "trace") = False := by simp
    simp only [normFn, e1, if_false, if_true, if_neg (not_lt.2 h1.le), if_neg (not_lt.2 h2.le),
      Option.some.injEq, RCLike.ofReal_inj] at ha hb
    subst ha; subst hb
    have e2 : RCLike.re ((c : 𝕜) • B).det = c ^ p * RCLike.re B.det := by
      rw [det_smul, Fintype.card_fin, ← RCLike.ofReal_pow, RCLike.re_ofReal_mul]
    have e3 : c * RCLike.re B.det ^ (1 / (p : ℝ)) = (c ^ p * RCLike.re B.det) ^ (1 / (p : ℝ)) := by
      rw [Real.mul_rpow (by positivity) h2.le, ← Real.rpow_natCast, ← Real.rpow_mul hc.le,
        mul_one_div_cancel hp'.ne', Real.rpow_one]
    rw [e3, ← e2]
    constructor
    · intro h
      exact Real.rpow_le_rpow h1.le (det_mono hA h) (by positivity)
    · intro h
      refine Real.rpow_le_rpow ?_ (det_mono hcB h) (by positivity)
      exact (posDef_re_det_pos hcB).1.le
  · have e1 : ("element" = "trace") = False := by simp
    have e2 : ("element" = "determinant") = False := by simp
    simp only [normFn, e1, e2, if_false, if_true, dif_pos hp, Option.some.injEq] at ha hb
    have key : ∀ {C D : Matrix (Fin p) (Fin p) 𝕜}, Loewner C D →
        RCLike.re (C ⟨0, hp⟩ ⟨0, hp⟩) ≤ RCLike.re (D ⟨0, hp⟩ ⟨0, hp⟩) := by
      intro C D h
      have h3 := (RCLike.nonneg_iff.1 (PosSemidef.diag_nonneg h (i := ⟨0, hp⟩))).1
      rw [Matrix.sub_apply, map_sub] at h3
      linarith
    have e3 : RCLike.re (A ⟨0, hp⟩ ⟨0, hp⟩) = a := by rw [ha, RCLike.ofReal_re]
    have e4 : RCLike.re (((c : 𝕜) • B) ⟨0, hp⟩ ⟨0, hp⟩) = c * b := by
      rw [Matrix.smul_apply, smul_eq_mul, RCLike.re_ofReal_mul, hb, RCLike.ofReal_re]
    constructor
    · intro h
      have := key h
      rwa [e3, e4] at this
    · intro h
      have := key h
      rwa [e3, e4] at this

/-- Normalising is Lipschitz near a positive definite matrix. -/
theorem normalise_lip (name : String) (hp : 0 < p) {Q Q' : Matrix (Fin p) (Fin p) 𝕜} (hQ : Q.PosDef)
    (hQ' : FMat.normalise name (.fin Q) = .fin Q') :
    ∃ ε D : ℝ, 0 < ε ∧ ∀ T T' : Matrix (Fin p) (Fin p) 𝕜, T.PosDef →
      FMat.normalise name (.fin T) = .fin T' → frob (T - Q) ≤ ε →
      frob (T' - Q') ≤ D * frob (T - Q) := by
  by_cases hn : name = "trace" ∨ name = "determinant" ∨ name = "element"
  · obtain ⟨c, hc, hsq⟩ := squeezed_of_frob hQ
    obtain ⟨b, hb, hb1, hb2⟩ := normalise_pos name hp hQ
    have eQ : Q' = ((b⁻¹ : ℝ) : 𝕜) • Q := FMat.fin.inj (hQ'.symm.trans hb2)
    have hQP : Q'.PosDef := by rw [eQ]; exact hQ.smul (by exact_mod_cast inv_pos.2 hb)
    have hc0 : 0 < c := by linarith
    refine ⟨1 / (2 * c), 12 * c * RCLike.re Q'.trace, by positivity, fun T T' hT hT' hf => ?_⟩
    obtain ⟨a, ha, ha1, ha2⟩ := normalise_pos name hp hT
    have eT : T' = ((a⁻¹ : ℝ) : 𝕜) • T := FMat.fin.inj (hT'.symm.trans ha2)
    obtain ⟨h1, h2⟩ := hsq Q (T - Q) (hT.1.sub hQ.1)
    have hf0 := frob_nonneg (T - Q)
    set f := c * frob (T - Q) with hfd
    have hf1 : f ≤ 1 / 2 := by
      rw [le_div_iff₀ (by positivity)] at hf
      rw [hfd]; linarith
    have hfn : 0 ≤ f := by positivity
    rw [add_sub_cancel] at h1 h2
    have h1' : Loewner (((1 - f : ℝ) : 𝕜) • Q) T := by
      rwa [RCLike.ofReal_sub, sub_smul, RCLike.ofReal_one, one_smul]
    have h2' : Loewner T (((1 + f : ℝ) : 𝕜) • Q) := by
      rwa [RCLike.ofReal_add, add_smul, RCLike.ofReal_one, one_smul]
    have h3 := (normFn_mono name hp hT hQ (by linarith) hn ha1 hb1).2 h1'
    have h4 := (normFn_mono name hp hT hQ (by linarith) hn ha1 hb1).1 h2'
    have key : ∀ x : ℝ, ((a⁻¹ : ℝ) : 𝕜) • ((x : 𝕜) • Q) = ((a⁻¹ * x * b : ℝ) : 𝕜) • Q' := by
      intro x
      rw [eQ, smul_smul, smul_smul, ← RCLike.ofReal_mul, ← RCLike.ofReal_mul]
      congr 2
      field_simp
    have h5 := h1'.smul (inv_pos.2 ha).le
    have h6 := h2'.smul (inv_pos.2 ha).le
    rw [key, ← eT] at h5 h6
    have h7 : Loewner (((1 - 4 * f : ℝ) : 𝕜) • Q') T' := by
      refine (loewner_smul_le hQP.posSemidef ?_).trans h5
      rw [mul_assoc, le_inv_mul_iff₀ ha]
      by_cases h8 : 0 ≤ 1 - 4 * f
      · nlinarith [mul_le_mul_of_nonneg_right h4 h8]
      · push Not at h8
        have : a * (1 - 4 * f) ≤ 0 := by nlinarith
        nlinarith
    have h8 : Loewner T' (((1 + 4 * f : ℝ) : 𝕜) • Q') := by
      refine h6.trans (loewner_smul_le hQP.posSemidef ?_)
      rw [mul_assoc, inv_mul_le_iff₀ ha]
      nlinarith [mul_le_mul_of_nonneg_right h3 (show 0 ≤ 1 + 4 * f by linarith)]
    have := frob_squeeze' hQP (by positivity) h7 h8
    rw [hfd] at this
    linarith
  · push Not at hn
    refine ⟨1, 1, one_pos, fun T T' hT hT' _ => ?_⟩
    have h1 : ∀ C : Matrix (Fin p) (Fin p) 𝕜, FMat.normalise name (.fin C) = .fin C := by
      intro C
      simp [FMat.normalise, normFn, hn.1, hn.2.1, hn.2.2]
    rw [h1] at hT' hQ'
    rw [← FMat.fin.inj hT', ← FMat.fin.inj hQ', one_mul]

/-! ### Student iteration: the error against the last step -/

theorem student_improve {r e δ c : ℝ} (hr0 : 0 ≤ r) (hr1 : r < 1) (he0 : 0 ≤ e) (he1 : e ≤ 1)
    (hc : 1 ≤ c) (hδ : 0 ≤ δ) (hδ1 : 6 * c * δ ≤ 1 - r) :
    0 ≤ r * e + 6 * c * δ ∧ r * e + 6 * c * δ ≤ 1 ∧
    1 + r * e + c * δ ≤ 1 + (r * e + 6 * c * δ) ∧
    (1 + (r * e + 6 * c * δ))⁻¹ ≤ (1 + r * e)⁻¹ - c * δ := by
  have h1 : 0 ≤ r * e := mul_nonneg hr0 he0
  have h2 : r * e ≤ r := by nlinarith
  have h3 : 0 ≤ c * δ := by positivity
  refine ⟨by positivity, by linarith, by linarith, ?_⟩
  have h4 : (1 + (r * e + 6 * c * δ))⁻¹ * (1 + (r * e + 6 * c * δ)) = 1 :=
    inv_mul_cancel₀ (by positivity)
  have h5 : (1 + r * e)⁻¹ * (1 + r * e) = 1 := inv_mul_cancel₀ (by positivity)
  rw [inv_eq_one_div, inv_eq_one_div, div_le_iff₀ (by positivity), sub_mul, div_mul_eq_mul_div,
    le_sub_iff_add_le, le_div_iff₀ (by positivity)]
  have h6 : (1 + (r * e + 6 * c * δ)) * (1 + r * e) ≤ 4 := by nlinarith
  nlinarith [mul_le_mul_of_nonneg_left h6 h3]

theorem student_residual {nu : ℝ} (hnu : 0 < nu) (X : Matrix (Fin N) (Fin p) 𝕜)
    {S init : Matrix (Fin p) (Fin p) 𝕜} (hS : S.PosDef) (hi : init.PosDef)
    (hfix : mStep (wStudent nu p) X S = S) :
    ∃ D : ℝ, 0 ≤ D ∧ ∀ k, frob (mIter (wStudent nu p) X init k - S) ≤
      D * frob (mIter (wStudent nu p) X init (k + 1) - mIter (wStudent nu p) X init k) := by
  obtain ⟨r, hr0, hr1, hr⟩ := student_rate hnu X hS
  obtain ⟨c0, hc0, h1, h2⟩ := exists_between hS hi
  have hc' : c0 = 1 + (c0 - 1) := by ring
  rw [hc'] at h1 h2
  have he : 0 ≤ c0 - 1 := by linarith
  have hlin := student_linear hnu X hS hfix hr0 hr he h1 h2
  have hlim := student_tendsto hnu X hS hi hfix
  set A := mIter (wStudent nu p) X init with hA
  obtain ⟨c, hc, hsq⟩ := squeezed_of_frob hS
  have hAP : ∀ k, (A k).PosDef := fun k =>
    (hlin k).1.posDef (hS.smul (by exact_mod_cast inv_pos.2 (by positivity)))
  have hsmall : Tendsto (fun k : ℕ => r ^ k * (c0 - 1)) atTop (𝓝 0) := by
    simpa using (tendsto_pow_atTop_nhds_zero_of_lt_one hr0 hr1).mul_const (c0 - 1)
  have hstep : Tendsto (fun k => 6 * c * frob (A (k + 1) - A k)) atTop (𝓝 0) := by
    have h3 : Tendsto (fun k => frob (A (k + 1) - S) + frob (A k - S)) atTop (𝓝 0) := by
      simpa using (hlim.comp (tendsto_add_atTop_nat 1)).add hlim
    have h4 : Tendsto (fun k => frob (A (k + 1) - A k)) atTop (𝓝 0) := by
      refine squeeze_zero (fun k => frob_nonneg _) (fun k => ?_) h3
      have e : A (k + 1) - A k = (A (k + 1) - S) - (A k - S) := by abel
      rw [e]
      exact frob_sub_le _ _
    simpa using h4.const_mul (6 * c)
  have hr' : 0 < 1 - r := by linarith
  obtain ⟨K, hK⟩ := eventually_atTop.1 ((hsmall.eventually (gt_mem_nhds one_pos)).and
    (hstep.eventually (gt_mem_nhds hr')))
  refine finite_ratio (K := K) (D := 18 * c / (1 - r) * RCLike.re S.trace)
    (fun k => frob_nonneg _) (fun k => frob_nonneg _) (fun k hk => ?_)
    (fun k h0 => stationary (tendsto_of_frob hlim) h0)
  obtain ⟨hk1, hk2⟩ := hK k hk
  set δ := frob (A (k + 1) - A k) with hδ
  have hδ0 : 0 ≤ δ := frob_nonneg _
  set e : ℕ → ℝ := fun n => r ^ n * (r ^ k * (c0 - 1)) + 6 * c * δ * (1 - r ^ n) / (1 - r) with hed
  have hsucc : ∀ n, e (n + 1) = r * e n + 6 * c * δ := by
    intro n
    simp only [hed]
    rw [pow_succ]
    field_simp
    ring
  have main : ∀ n, 0 ≤ e n ∧ e n ≤ 1 ∧ Loewner ((((1 + e n)⁻¹ : ℝ) : 𝕜) • S) (A k) ∧
      Loewner (A k) (((1 + e n : ℝ) : 𝕜) • S) := by
    intro n
    induction n with
    | zero =>
      have e0 : e 0 = r ^ k * (c0 - 1) := by simp [hed]
      rw [e0]
      exact ⟨by positivity, hk1.le, hlin k⟩
    | succ n ih =>
      obtain ⟨i1, i2, i3, i4⟩ := ih
      obtain ⟨j1, j2, j3, j4⟩ := student_improve hr0 hr1 i1 i2 hc hδ0 hk2.le
      rw [hsucc]
      refine ⟨j1, j2, ?_, ?_⟩
      · obtain ⟨s1, -⟩ := student_squeeze hnu X hS hfix hr i1 i3 i4
        have s1' : Loewner ((((1 + r * e n)⁻¹ : ℝ) : 𝕜) • S) (A (k + 1)) := s1
        obtain ⟨t1, -⟩ := hsq (A (k + 1)) (A k - A (k + 1)) ((hAP k).1.sub (hAP (k + 1)).1)
        rw [add_sub_cancel, frob_sub_comm, ← hδ] at t1
        refine (loewner_smul_le hS.posSemidef j4).trans (Loewner.trans ?_ t1)
        rw [RCLike.ofReal_sub, sub_smul]
        unfold Loewner at s1' ⊢
        convert s1' using 1
        abel
      · obtain ⟨-, s1⟩ := student_squeeze hnu X hS hfix hr i1 i3 i4
        have s1' : Loewner (A (k + 1)) (((1 + r * e n : ℝ) : 𝕜) • S) := s1
        obtain ⟨-, t1⟩ := hsq (A (k + 1)) (A k - A (k + 1)) ((hAP k).1.sub (hAP (k + 1)).1)
        rw [add_sub_cancel, frob_sub_comm, ← hδ] at t1
        refine (t1.trans ?_).trans (loewner_smul_le hS.posSemidef j3)
        rw [RCLike.ofReal_add (1 + r * e n), add_smul]
        unfold Loewner at s1' ⊢
        convert s1' using 1
        abel
  have hbound : ∀ n, frob (A k - S) ≤ 3 * e n * RCLike.re S.trace := fun n =>
    frob_squeeze hS (main n).1 (main n).2.2.1 (main n).2.2.2
  have hlim2 : Tendsto (fun n => 3 * e n * RCLike.re S.trace) atTop
      (𝓝 (3 * (0 * (r ^ k * (c0 - 1)) + 6 * c * δ * (1 - 0) / (1 - r)) * RCLike.re S.trace)) := by
    have h5 := tendsto_pow_atTop_nhds_zero_of_lt_one hr0 hr1
    exact (((h5.mul_const _).add (((h5.const_sub 1).const_mul _).div_const _)).const_mul 3).mul_const _
  have h6 := ge_of_tendsto' hlim2 hbound
  refine h6.trans (le_of_eq ?_)
  ring

/-! ### Consequences for the runs -/

/-- Reported errors that decrease geometrically: the number of iterations grows at most like the
logarithm of the inverse tolerance. -/
theorem IsMRun.stops_log {w : ℝ → ℝ} {X : Matrix (Fin N) (Fin p) 𝕜}
    {init : Matrix (Fin p) (Fin p) 𝕜} {r C : ℝ} (hr0 : 0 ≤ r) (hr1 : r < 1)
    (h : ∀ k, mErr w X init k ≤ C * r ^ k) :
    ∃ K : ℝ, ∀ tol : ℝ, 0 < tol → tol ≤ 1 → ∀ (iterMax : ℤ) sigma delta iteration,
      K * (1 + Real.log (1 / tol)) < iterMax → IsMRun w X tol iterMax init sigma delta iteration →
      iteration ≤ K * (1 + Real.log (1 / tol)) ∧ ∃ d, delta = .fin d ∧ d ≤ tol := by
  set s := max r (1 / 2) with hs
  have hs0 : 0 < s := by rw [hs]; exact lt_max_of_lt_right (by norm_num)
  have hs1 : s < 1 := by rw [hs]; exact max_lt hr1 (by norm_num)
  set C' := max C 1 with hC'
  have hC1 : 1 ≤ C' := le_max_right _ _
  have h' : ∀ k, mErr w X init k ≤ C' * s ^ k := fun k =>
    (h k).trans (mul_le_mul (le_max_left _ _) (pow_le_pow_left₀ hr0 (le_max_left _ _) k)
      (by positivity) (by linarith))
  set L := -Real.log s with hL
  have hL0 : 0 < L := by rw [hL]; linarith [Real.log_neg hs0 hs1]
  have hlC : 0 ≤ Real.log C' := Real.log_nonneg hC1
  refine ⟨Real.log C' / L + 1 / L + 2, fun tol ht ht1 iterMax sigma delta iteration hm hrun => ?_⟩
  have hlt : 0 ≤ Real.log (1 / tol) := Real.log_nonneg (by rw [le_div_iff₀ ht]; linarith)
  set k := ⌈(Real.log C' + Real.log (1 / tol)) / L⌉₊ with hk
  have hk1 : (Real.log C' + Real.log (1 / tol)) / L ≤ k := Nat.le_ceil _
  have hk2 : (k : ℝ) < (Real.log C' + Real.log (1 / tol)) / L + 1 := Nat.ceil_lt_add_one (by positivity)
  have hbnd : ((k + 1 : ℕ) : ℝ) ≤ (Real.log C' / L + 1 / L + 2) * (1 + Real.log (1 / tol)) := by
    push_cast
    have e : (Real.log C' + Real.log (1 / tol)) / L = Real.log C' / L + 1 / L * Real.log (1 / tol) := by
      ring
    rw [e] at hk2
    have h3 : 0 ≤ Real.log C' / L := by positivity
    have h4 : 0 ≤ 1 / L := by positivity
    nlinarith [mul_nonneg h3 hlt]
  have herr : mErr w X init k ≤ tol := by
    refine (h' k).trans ?_
    have h3 : Real.log (C' * s ^ k) ≤ Real.log tol := by
      rw [Real.log_mul (by positivity) (by positivity), Real.log_pow]
      rw [div_le_iff₀ hL0, Real.log_div one_ne_zero ht.ne', Real.log_one, hL] at hk1
      linarith
    exact (Real.log_le_log_iff (by positivity) ht).1 h3
  have hle : iteration ≤ k + 1 := by
    by_contra hcon
    push Not at hcon
    have := hrun.continued k (by omega)
    linarith
  have hleR : (iteration : ℝ) ≤ ((k + 1 : ℕ) : ℝ) := by exact_mod_cast hle
  refine ⟨hleR.trans hbnd, ?_⟩
  have hlt' : (iteration : ℤ) < iterMax := by
    have : (iteration : ℝ) < (iterMax : ℝ) := by linarith
    exact_mod_cast this
  have hst := hrun.stopped hlt'
  cases hit : iteration with
  | zero =>
    rw [hrun.err_zero hit] at hst
    exact absurd trivial hst
  | succ j =>
    have hd := hrun.err_succ j hit
    rw [hd] at hst
    exact ⟨_, hd, not_lt.1 hst⟩

/-- All that follows from geometric convergence and the bound of the error by the last step. -/
theorem rate_consequences (hp : 0 < p) {w : ℝ → ℝ} {X : Matrix (Fin N) (Fin p) 𝕜}
    {init Q Q' : Matrix (Fin p) (Fin p) 𝕜} (hQ : Q.PosDef) {r C D : ℝ} (hr0 : 0 ≤ r) (hr1 : r < 1)
    (hP : ∀ k, (mIter w X init k).PosDef)
    (h1 : ∀ k, frob (mIter w X init k - Q) ≤ C * r ^ k) (hD : 0 ≤ D)
    (h2 : ∀ k, frob (mIter w X init k - Q) ≤ D * frob (mIter w X init (k + 1) - mIter w X init k))
    (name : String) (hQ' : FMat.normalise name (.fin Q) = .fin Q') :
    ∃ C' : ℝ, 0 ≤ C' ∧ (∀ k, mErr w X init k ≤ C' * r ^ k) ∧
      (∀ k R, FMat.normalise name (.fin (mIter w X init k)) = .fin R →
        frob (R - Q') ≤ C' * r ^ k) ∧
      ∀ k R, FMat.normalise name (.fin (mIter w X init (k + 1))) = .fin R →
        frob (R - Q') ≤ C' * mErr w X init k := by
  set A := mIter w X init with hA
  have hC : 0 ≤ C := by simpa using (frob_nonneg _).trans (h1 0)
  have hlim0 : Tendsto (fun k => frob (A k - Q)) atTop (𝓝 0) := by
    refine squeeze_zero (fun k => frob_nonneg _) h1 ?_
    simpa using (tendsto_pow_atTop_nhds_zero_of_lt_one hr0 hr1).const_mul C
  have hlim := tendsto_of_frob hlim0
  have hfl : Tendsto (fun k => frob (A k)) atTop (𝓝 (frob Q)) := (continuous_frob.tendsto _).comp hlim
  have hfQ := frob_pos hp hQ
  obtain ⟨B, hB⟩ := hfl.bddAbove_range
  obtain ⟨b, hb⟩ := (hfl.inv₀ hfQ.ne').bddAbove_range
  have hB' : ∀ k, frob (A k) ≤ B := fun k => hB ⟨k, rfl⟩
  have hb' : ∀ k, (frob (A k))⁻¹ ≤ b := fun k => hb ⟨k, rfl⟩
  have hB0 : 0 ≤ B := (frob_nonneg _).trans (hB' 0)
  have hb0 : 0 ≤ b := (inv_nonneg.2 (frob_nonneg _)).trans (hb' 0)
  -- the normalised iterates
  choose R hR using fun k => (normalise_pos name hp (hP k))
  obtain ⟨ε, D1, hε, hlip⟩ := normalise_lip name hp hQ hQ'
  obtain ⟨K, hK⟩ := eventually_atTop.1 (hlim0.eventually (gt_mem_nhds hε))
  obtain ⟨D2, hD2, hD2'⟩ := finite_ratio (e := fun k => frob ((((R k)⁻¹ : ℝ) : 𝕜) • A k - Q'))
    (d := fun k => frob (A k - Q)) (fun k => frob_nonneg _) (fun k => frob_nonneg _) (K := K)
    (D := D1) (fun k hk => hlip (A k) _ (hP k) (hR k).2.2 (hK k hk).le) (fun k h0 => by
      have e1 : A k = Q := sub_eq_zero.1 ((frob_eq_zero _).1 h0)
      have e2 := (hR k).2.2
      have e3 : FMat.normalise name (.fin (A k)) = .fin Q' := by rw [e1, hQ']
      rw [e3] at e2
      rw [← FMat.fin.inj e2, sub_self]
      exact (frob_eq_zero _).2 rfl)
  have hnorm : ∀ k T, FMat.normalise name (.fin (A k)) = .fin T →
      frob (T - Q') ≤ D2 * frob (A k - Q) := by
    intro k T hT
    have e : T = (((R k)⁻¹ : ℝ) : 𝕜) • A k := FMat.fin.inj (hT.symm.trans (hR k).2.2)
    rw [e]
    exact hD2' k
  have herr : ∀ k, mErr w X init k = frob (A (k + 1) - A k) / frob (A k) := fun _ => rfl
  refine ⟨2 * C * b + D2 * C + D2 * ((D + 1) * B), by positivity, fun k => ?_, fun k T hT => ?_,
    fun k T hT => ?_⟩
  · have hrk : r ^ (k + 1) ≤ r ^ k := pow_le_pow_of_le_one hr0 hr1.le (Nat.le_succ k)
    have hrk0 : 0 ≤ r ^ k := by positivity
    have e : A (k + 1) - A k = (A (k + 1) - Q) - (A k - Q) := by abel
    have h3 : frob (A (k + 1) - A k) ≤ 2 * C * r ^ k := by
      rw [e]
      refine (frob_sub_le _ _).trans ?_
      have h4 := mul_le_mul_of_nonneg_left hrk hC
      linarith [h1 k, h1 (k + 1)]
    rw [herr, div_eq_mul_inv]
    have h5 : frob (A (k + 1) - A k) * (frob (A k))⁻¹ ≤ 2 * C * r ^ k * b :=
      mul_le_mul h3 (hb' k) (inv_nonneg.2 (frob_nonneg _)) (by positivity)
    have h6 : 0 ≤ (D2 * C + D2 * ((D + 1) * B)) * r ^ k := by positivity
    linarith
  · have h3 := (hnorm k T hT).trans (mul_le_mul_of_nonneg_left (h1 k) hD2)
    have h6 : 0 ≤ (2 * C * b + D2 * ((D + 1) * B)) * r ^ k := by positivity
    linarith
  · have hpos := frob_pos hp (hP k)
    have h3 : frob (A (k + 1) - A k) = mErr w X init k * frob (A k) := by
      rw [herr, div_mul_cancel₀ _ hpos.ne']
    have he0 : 0 ≤ mErr w X init k := by rw [herr]; exact div_nonneg (frob_nonneg _) hpos.le
    have h4 : frob (A (k + 1) - Q) ≤ (D + 1) * frob (A (k + 1) - A k) := by
      have e : A (k + 1) - Q = (A (k + 1) - A k) + (A k - Q) := by abel
      rw [e]
      refine (frob_add_le _ _).trans ?_
      linarith [h2 k]
    have h5 : frob (A (k + 1) - A k) ≤ mErr w X init k * B := by
      rw [h3]; exact mul_le_mul_of_nonneg_left (hB' k) he0
    have h6 := (hnorm (k + 1) T hT).trans (mul_le_mul_of_nonneg_left (h4.trans
      (mul_le_mul_of_nonneg_left h5 (by linarith))) hD2)
    have h7 : 0 ≤ (2 * C * b + D2 * C) * mErr w X init k := by positivity
    linarith

end
end RS
