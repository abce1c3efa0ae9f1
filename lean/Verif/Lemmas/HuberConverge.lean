import Verif.Lemmas.HuberFix
import Verif.Lemmas.Converge
import Verif.Spec.Huber

/-! Convergence and oscillation of the Huber iteration. -/
set_option autoImplicit false

namespace RS
open Matrix ComplexOrder Filter Topology

section
variable {𝕜 : Type} [RCLike 𝕜] {N p : ℕ}

theorem scatter_add (w v : Fin N → ℝ) (X : Matrix (Fin N) (Fin p) 𝕜) :
    scatter (fun i => w i + v i) X = scatter w X + scatter v X := by
  ext a b
  rw [Matrix.add_apply, scatter_apply, scatter_apply, scatter_apply, ← mul_add,
    ← Finset.sum_add_distrib]
  congr 1
  refine Finset.sum_congr rfl fun i _ => ?_
  push_cast
  ring

/-- A positive definite scatter matrix needs samples that span. -/
theorem spans_of_scatter {w : Fin N → ℝ} {X : Matrix (Fin N) (Fin p) 𝕜}
    (h : (scatter w X).PosDef) : Spans X := by
  intro v hv
  by_contra hne
  have h1 := (posDef_iff_dotProduct_mulVec.1 h).2 hne
  rw [scatter_quad] at h1
  simp [hv] at h1

open Classical in
/-- The weights of the samples below the threshold. -/
noncomputable def wInside (lbda beta : ℝ) (X : Matrix (Fin N) (Fin p) 𝕜)
    (S : Matrix (Fin p) (Fin p) 𝕜) (i : Fin N) : ℝ :=
  if qf S (sample X i) < lbda then beta else 0

theorem inside_posDef {lbda beta : ℝ} (hb : 0 < beta) {X : Matrix (Fin N) (Fin p) 𝕜}
    {S : Matrix (Fin p) (Fin p) 𝕜} (h : InsideSpans lbda X S) :
    (scatter (wInside lbda beta X S) X).PosDef := by
  have hw : ∀ i, 0 ≤ wInside lbda beta X S i := fun i => by
    unfold wInside; split_ifs; exacts [hb.le, le_rfl]
  have hpsd := scatter_posSemidef _ hw X
  refine PosDef.of_dotProduct_mulVec_pos hpsd.1 fun v hv => ?_
  rw [scatter_quad, RCLike.ofReal_pos]
  have : ∃ i, qf S (sample X i) < lbda ∧ star (sample X i) ⬝ᵥ v ≠ 0 := by
    by_contra hcon
    push Not at hcon
    exact hv (h v hcon)
  obtain ⟨i, hi, hiv⟩ := this
  have hN : (0 : ℝ) < N := by exact_mod_cast i.pos
  apply mul_pos (inv_pos.2 hN)
  refine Finset.sum_pos' (fun j _ => mul_nonneg (hw j) (sq_nonneg _)) ⟨i, Finset.mem_univ _, ?_⟩
  rw [wInside, if_pos hi]
  exact mul_pos hb (pow_pos (norm_pos_iff.2 hiv) 2)

/-- One step brings a squeezed matrix closer to the fixed point. -/
theorem huber_squeeze {lbda beta θ κ : ℝ} (hl : 0 < lbda) (hb : 0 < beta) (hθ0 : 0 ≤ θ) (hθ : θ < 1)
    (hκ : 0 < κ) (X : Matrix (Fin N) (Fin p) 𝕜) {S T : Matrix (Fin p) (Fin p) 𝕜} (hS : S.PosDef)
    (hfix : mStep (wHuber lbda beta) X S = S)
    (hin : ∀ i, qf S (sample X i) < lbda → qf S (sample X i) ≤ θ * lbda)
    (hW : Loewner ((κ : 𝕜) • S) (scatter (wInside lbda beta X S) X)) (hr : 0 ≤ 1 - κ * (1 - θ))
    {e : ℝ} (he : 0 ≤ e)
    (h1 : Loewner ((((1 + e)⁻¹ : ℝ) : 𝕜) • S) T) (h2 : Loewner T (((1 + e : ℝ) : 𝕜) • S)) :
    Loewner ((((1 + (1 - κ * (1 - θ)) * e)⁻¹ : ℝ) : 𝕜) • S) (mStep (wHuber lbda beta) X T) ∧
      Loewner (mStep (wHuber lbda beta) X T) (((1 + (1 - κ * (1 - θ)) * e : ℝ) : 𝕜) • S) := by
  have hc : (0 : ℝ) < 1 + e := by linarith
  have hcS' : ((((1 + e)⁻¹ : ℝ) : 𝕜) • S).PosDef := hS.smul (by exact_mod_cast inv_pos.2 hc)
  have hT : T.PosDef := h1.posDef hcS'
  have hq : ∀ i, qf S (sample X i) ≤ (1 + e) * qf T (sample X i) := fun i => by
    have := qf_anti hT h2 (sample X i)
    rwa [qf_smul hS hc, div_le_iff₀' hc] at this
  have hq' : ∀ i, qf T (sample X i) ≤ (1 + e) * qf S (sample X i) := fun i => by
    have := qf_anti hcS' h1 (sample X i)
    rwa [qf_smul hS (inv_pos.2 hc), div_inv_eq_mul, mul_comm] at this
  have hfix' : scatter (fun i => wHuber lbda beta (qf S (sample X i))) X = S := hfix
  set W := scatter (wInside lbda beta X S) X with hWdef
  constructor
  · have key : ∀ i, (1 + e)⁻¹ * wHuber lbda beta (qf S (sample X i)) +
        (e * (1 + e)⁻¹) * wInside lbda beta X S i ≤ wHuber lbda beta (qf T (sample X i)) := fun i => by
      have hβ : beta ≤ wHuber lbda beta (qf T (sample X i)) := by
        unfold wHuber
        exact le_mul_of_one_le_right hb.le (le_max_left _ _)
      unfold wInside
      split_ifs with h
      · have : wHuber lbda beta (qf S (sample X i)) = beta := by
          unfold wHuber
          rw [max_eq_left ((div_le_one hl).2 h.le), mul_one]
        rw [this, ← add_mul]
        have e1 : (1 + e)⁻¹ + e * (1 + e)⁻¹ = 1 := by
          field_simp
        rw [e1, one_mul]
        exact hβ
      · rw [mul_zero, add_zero, inv_mul_le_iff₀ hc]
        push Not at h
        have : wHuber lbda beta (qf S (sample X i)) = beta * (qf S (sample X i) / lbda) := by
          unfold wHuber
          rw [max_eq_right ((one_le_div hl).2 h)]
        rw [this]
        calc beta * (qf S (sample X i) / lbda) ≤ beta * ((1 + e) * qf T (sample X i) / lbda) :=
              mul_le_mul_of_nonneg_left (div_le_div_of_nonneg_right (hq i) hl.le) hb.le
          _ = (1 + e) * (beta * (qf T (sample X i) / lbda)) := by ring
          _ ≤ _ := by
            unfold wHuber
            exact mul_le_mul_of_nonneg_left (mul_le_mul_of_nonneg_left (le_max_right _ _) hb.le) hc.le
    have h3 := scatter_mono key X
    rw [scatter_add, scatter_smul, scatter_smul, hfix'] at h3
    have h4 := hW.smul (c := e * (1 + e)⁻¹) (by positivity)
    have h5 : Loewner ((((1 + κ * e) * (1 + e)⁻¹ : ℝ) : 𝕜) • S) (mStep (wHuber lbda beta) X T) := by
      have h6 := PosSemidef.add h3 h4
      unfold Loewner
      have e2 : mStep (wHuber lbda beta) X T - (((1 + κ * e) * (1 + e)⁻¹ : ℝ) : 𝕜) • S =
          (scatter (fun i => wHuber lbda beta (qf T (sample X i))) X -
            ((((1 + e)⁻¹ : ℝ) : 𝕜) • S + ((e * (1 + e)⁻¹ : ℝ) : 𝕜) • W)) +
          (((e * (1 + e)⁻¹ : ℝ) : 𝕜) • W - ((e * (1 + e)⁻¹ : ℝ) : 𝕜) • ((κ : 𝕜) • S)) := by
        rw [smul_smul, ← RCLike.ofReal_mul, show (1 + κ * e) * (1 + e)⁻¹ =
          (1 + e)⁻¹ + e * (1 + e)⁻¹ * κ by ring, RCLike.ofReal_add, add_smul]
        change scatter (fun i => wHuber lbda beta (qf T (sample X i))) X - _ = _
        abel
      rw [e2]
      exact h6
    refine (loewner_smul_le hS.posSemidef ?_).trans h5
    have hre : 0 ≤ (1 - κ * (1 - θ)) * e := mul_nonneg hr he
    rw [inv_le_iff_one_le_mul₀ (by linarith), mul_right_comm, ← div_eq_mul_inv, le_div_iff₀ hc]
    have a1 : 0 ≤ κ * e * ((1 - κ * (1 - θ)) * e) := by positivity
    have a2 : 0 ≤ κ * θ * e := by positivity
    nlinarith
  · have key : ∀ i, wHuber lbda beta (qf T (sample X i)) + (e * (1 - θ)) * wInside lbda beta X S i ≤
        (1 + e) * wHuber lbda beta (qf S (sample X i)) := fun i => by
      have hd : qf T (sample X i) / lbda ≤ (1 + e) * (qf S (sample X i) / lbda) := by
        rw [← mul_div_assoc]
        exact div_le_div_of_nonneg_right (hq' i) hl.le
      unfold wInside
      split_ifs with h
      · have e1 : wHuber lbda beta (qf S (sample X i)) = beta := by
          unfold wHuber
          rw [max_eq_left ((div_le_one hl).2 h.le), mul_one]
        have e2 : qf S (sample X i) / lbda ≤ θ := by rw [div_le_iff₀ hl]; exact hin i h
        have e3 : max 1 (qf T (sample X i) / lbda) ≤ 1 + θ * e := by
          refine max_le (by nlinarith) (hd.trans ?_)
          nlinarith [mul_le_mul_of_nonneg_left e2 hc.le]
        rw [e1]
        unfold wHuber
        nlinarith [mul_le_mul_of_nonneg_left e3 hb.le]
      · rw [mul_zero, add_zero]
        unfold wHuber
        rw [mul_left_comm]
        refine mul_le_mul_of_nonneg_left (max_le ?_ (hd.trans ?_)) hb.le
        · nlinarith [le_max_left 1 (qf S (sample X i) / lbda)]
        · exact mul_le_mul_of_nonneg_left (le_max_right _ _) hc.le
    have h3 := scatter_mono key X
    rw [scatter_add, scatter_smul, scatter_smul, hfix'] at h3
    have h4 := hW.smul (c := e * (1 - θ)) (mul_nonneg he (by linarith))
    have h6 := PosSemidef.add h3 h4
    unfold Loewner
    have e2 : ((1 + (1 - κ * (1 - θ)) * e : ℝ) : 𝕜) • S - mStep (wHuber lbda beta) X T =
        (((1 + e : ℝ) : 𝕜) • S - (scatter (fun i => wHuber lbda beta (qf T (sample X i))) X +
            ((e * (1 - θ) : ℝ) : 𝕜) • W)) +
          (((e * (1 - θ) : ℝ) : 𝕜) • W - ((e * (1 - θ) : ℝ) : 𝕜) • ((κ : 𝕜) • S)) := by
      rw [smul_smul, ← RCLike.ofReal_mul, show 1 + (1 - κ * (1 - θ)) * e =
        (1 + e) - e * (1 - θ) * κ by ring, RCLike.ofReal_sub, sub_smul]
      change _ - scatter (fun i => wHuber lbda beta (qf T (sample X i))) X = _
      abel
    rw [e2]
    exact h6

/-- A step that contracts the sandwich converges geometrically. -/
theorem squeeze_geometric {w : ℝ → ℝ} (X : Matrix (Fin N) (Fin p) 𝕜)
    {S init : Matrix (Fin p) (Fin p) 𝕜} (hS : S.PosDef) (hi : init.PosDef) {r : ℝ} (hr0 : 0 ≤ r)
    (hsq : ∀ (T : Matrix (Fin p) (Fin p) 𝕜) (e : ℝ), 0 ≤ e →
      Loewner ((((1 + e)⁻¹ : ℝ) : 𝕜) • S) T → Loewner T (((1 + e : ℝ) : 𝕜) • S) →
      Loewner ((((1 + r * e)⁻¹ : ℝ) : 𝕜) • S) (mStep w X T) ∧
        Loewner (mStep w X T) (((1 + r * e : ℝ) : 𝕜) • S)) :
    ∃ C : ℝ, ∀ k, frob (mIter w X init k - S) ≤ C * r ^ k := by
  obtain ⟨c, hc, h1, h2⟩ := exists_between hS hi
  have hc' : c = 1 + (c - 1) := by ring
  rw [hc'] at h1 h2
  have he : 0 ≤ c - 1 := by linarith
  have hlin : ∀ k, Loewner ((((1 + r ^ k * (c - 1))⁻¹ : ℝ) : 𝕜) • S) (mIter w X init k) ∧
      Loewner (mIter w X init k) (((1 + r ^ k * (c - 1) : ℝ) : 𝕜) • S) := by
    intro k
    induction k with
    | zero =>
      rw [pow_zero, one_mul]
      exact ⟨h1, h2⟩
    | succ k ih =>
      have := hsq _ _ (by positivity) ih.1 ih.2
      rw [pow_succ', mul_assoc]
      exact this
  refine ⟨3 * (c - 1) * RCLike.re S.trace, fun k => ?_⟩
  have := frob_squeeze hS (by positivity) (hlin k).1 (hlin k).2
  linarith

theorem huber_geometric {lbda beta : ℝ} (hl : 0 < lbda) (hb : 0 < beta)
    (X : Matrix (Fin N) (Fin p) 𝕜) {S init : Matrix (Fin p) (Fin p) 𝕜} (hS : S.PosDef)
    (hi : init.PosDef) (hfix : mStep (wHuber lbda beta) X S = S) (hin : InsideSpans lbda X S) :
    ∃ r C : ℝ, 0 ≤ r ∧ r < 1 ∧ ∀ k, frob (mIter (wHuber lbda beta) X init k - S) ≤ C * r ^ k := by
  obtain ⟨a, ha, haf⟩ := exists_pos_le fun i => lbda - qf S (sample X i)
  obtain ⟨c, hc, h1, -⟩ := exists_between hS (inside_posDef hb hin)
  have hc0 : 0 < c := by linarith
  set θ := max 0 (1 - a / lbda) with hθ
  have hθ0 : 0 ≤ θ := le_max_left _ _
  have hθ1 : θ < 1 := max_lt one_pos (by linarith [div_pos ha hl])
  have hκ : 0 < c⁻¹ := inv_pos.2 hc0
  have hκ1 : c⁻¹ ≤ 1 := inv_le_one_of_one_le₀ hc
  have hprod : 0 < c⁻¹ * (1 - θ) := mul_pos hκ (by linarith)
  have hprod1 : c⁻¹ * (1 - θ) ≤ 1 := by nlinarith
  obtain ⟨C, hC⟩ := squeeze_geometric (w := wHuber lbda beta) X hS hi
    (r := 1 - c⁻¹ * (1 - θ)) (by linarith) fun T e he g1 g2 =>
      huber_squeeze hl hb hθ0 hθ1 hκ X hS hfix (fun i h => by
        have h2 := haf i (by linarith)
        have h3 : 1 - a / lbda ≤ θ := le_max_right _ _
        have h4 : qf S (sample X i) ≤ (1 - a / lbda) * lbda := by
          rw [sub_mul, one_mul, div_mul_cancel₀ _ hl.ne']
          linarith
        exact h4.trans (mul_le_mul_of_nonneg_right h3 hl.le)) h1 (by linarith) he g1 g2
  exact ⟨_, C, by linarith, by linarith, hC⟩

/-! ### The sample covariance as the fixed point -/

/-- When a multiple `beta` of the sample second moment is the fixed point. -/
theorem huber_scm {lbda beta : ℝ} (hl : 0 < lbda) (hb : 0 < beta) (X : Matrix (Fin N) (Fin p) 𝕜)
    (hX : Spans X) :
    mStep (wHuber lbda beta) X ((beta : 𝕜) • secondMoment X) = (beta : 𝕜) • secondMoment X ↔
      ∀ i, qf (secondMoment X) (sample X i) ≤ lbda * beta := by
  have hM := secondMoment_posDef hX
  have hB : ((beta : 𝕜) • secondMoment X).PosDef := hM.smul (by exact_mod_cast hb)
  have hsm : secondMoment X = scatter (fun _ => 1) X := by
    unfold secondMoment scatter
    simp
  have hqf : ∀ i, qf ((beta : 𝕜) • secondMoment X) (sample X i) =
      qf (secondMoment X) (sample X i) / beta := fun i => qf_smul hM hb _
  have hbs : (beta : 𝕜) • secondMoment X = scatter (fun _ => beta) X := by
    rw [hsm, ← scatter_smul]
    simp
  constructor
  · intro h i
    have h1 := sum_weights_qf (fun i => wHuber lbda beta (qf ((beta : 𝕜) • secondMoment X) (sample X i)))
      X ((beta : 𝕜) • secondMoment X)
    have h2 := sum_weights_qf (fun _ => beta) X ((beta : 𝕜) • secondMoment X)
    have h' : scatter (fun i => wHuber lbda beta (qf ((beta : 𝕜) • secondMoment X) (sample X i))) X =
      (beta : 𝕜) • secondMoment X := h
    rw [h'] at h1
    rw [← hbs] at h2
    have h3 : ∑ i, (wHuber lbda beta (qf ((beta : 𝕜) • secondMoment X) (sample X i)) - beta) *
        qf ((beta : 𝕜) • secondMoment X) (sample X i) = 0 := by
      simp only [sub_mul, Finset.sum_sub_distrib]
      rw [h1, h2, sub_self]
    have h4 : ∀ i ∈ Finset.univ, 0 ≤
        (wHuber lbda beta (qf ((beta : 𝕜) • secondMoment X) (sample X i)) - beta) *
        qf ((beta : 𝕜) • secondMoment X) (sample X i) := fun i _ =>
      mul_nonneg (by
        unfold wHuber
        linarith [le_mul_of_one_le_right hb.le
          (le_max_left 1 (qf ((beta : 𝕜) • secondMoment X) (sample X i) / lbda))]) (qf_nonneg hB _)
    have h5 := (Finset.sum_eq_zero_iff_of_nonneg h4).1 h3 i (Finset.mem_univ i)
    rw [← div_le_iff₀ hb, ← hqf]
    rcases mul_eq_zero.1 h5 with h6 | h6
    · by_contra hcon
      push Not at hcon
      have h7 : wHuber lbda beta (qf ((beta : 𝕜) • secondMoment X) (sample X i)) =
          beta * (qf ((beta : 𝕜) • secondMoment X) (sample X i) / lbda) := by
        unfold wHuber
        rw [max_eq_right ((one_le_div hl).2 hcon.le)]
      have h8 := (one_lt_div hl).2 hcon
      rw [h7] at h6
      nlinarith
    · rw [h6]
      exact hl.le
  · intro h
    have : (fun i => wHuber lbda beta (qf ((beta : 𝕜) • secondMoment X) (sample X i))) =
        fun _ => beta := funext fun i => by
      unfold wHuber
      rw [max_eq_left, mul_one]
      rw [hqf, div_le_one hl, div_le_iff₀ hb]
      exact h i
    change scatter (fun i => wHuber lbda beta (qf ((beta : 𝕜) • secondMoment X) (sample X i))) X = _
    rw [this, hbs]

/-! ### Oscillation -/

theorem unitSamples_spans (h : p ≤ N) : Spans (unitSamples 𝕜 N p) := by
  intro v hv
  funext j
  have h1 := hv ⟨j, by omega⟩
  rw [dotProduct, Finset.sum_eq_single j] at h1
  · simpa [sample, unitSamples] using h1
  · intro k _ hk
    have : ¬ (j.val = k.val) := fun e => hk (Fin.ext e.symm)
    simp [sample, unitSamples, this]
  · simp

/-- One step of any weight on these samples, from a multiple of the identity. -/
theorem mStep_unitSamples (w : ℝ → ℝ) (h : p ≤ N) {s : ℝ} (hs : 0 < s) :
    mStep w (unitSamples 𝕜 N p) ((s : 𝕜) • 1) = ((w s⁻¹ / N : ℝ) : 𝕜) • 1 := by
  have hq : ∀ i : Fin N, qf ((s : 𝕜) • (1 : Matrix (Fin p) (Fin p) 𝕜)) (sample (unitSamples 𝕜 N p) i) =
      if i.val < p then s⁻¹ else 0 := fun i => by
    rw [qf_smul PosDef.one hs, qf_one]
    split_ifs with hi
    · rw [Finset.sum_eq_single ⟨i.val, hi⟩]
      · simp [sample, unitSamples]
      · intro k _ hk
        have : ¬ (i.val = k.val) := fun e => hk (Fin.ext e.symm)
        simp [sample, unitSamples, this]
      · simp
    · rw [Finset.sum_eq_zero, zero_div]
      intro k _
      have : ¬ (i.val = k.val) := by omega
      simp [sample, unitSamples, this]
  ext a b
  change scatter (fun i => w (qf ((s : 𝕜) • 1) (sample (unitSamples 𝕜 N p) i))) (unitSamples 𝕜 N p) a b = _
  rw [scatter_apply, Matrix.smul_apply, smul_eq_mul]
  rw [Finset.sum_eq_single ⟨a, by omega⟩]
  · rw [hq, if_pos a.2]
    by_cases hab : a = b
    · subst hab
      simp [unitSamples]
      ring
    · have : ¬ (a.val = b.val) := fun e => hab (Fin.ext e)
      simp [unitSamples, this, Matrix.one_apply_ne hab]
  · intro i _ hi
    have : ¬ (i.val = a.val) := fun e => hi (Fin.ext e)
    simp [unitSamples, this]
  · simp

/-- The two points of the orbit. -/
theorem huber_orbit {lbda beta s : ℝ} (hl : 0 < lbda) (hb : 0 < beta) (hpN : p ≤ N) (hp : 0 < p)
    (h1 : beta / N ≤ s) (h2 : s ≤ lbda⁻¹) (k : ℕ) :
    mIter (wHuber lbda beta) (unitSamples 𝕜 N p) ((s : 𝕜) • 1) k =
      ((if Even k then s else beta / (N * lbda * s) : ℝ) : 𝕜) • 1 := by
  have hN : (0 : ℝ) < N := by exact_mod_cast lt_of_lt_of_le hp hpN
  have hs : 0 < s := lt_of_lt_of_le (by positivity) h1
  have ht : 0 < beta / (N * lbda * s) := by positivity
  have step : ∀ {u : ℝ}, 0 < u → u ≤ lbda⁻¹ → mStep (wHuber lbda beta) (unitSamples 𝕜 N p) ((u : 𝕜) • 1) =
      ((beta / (N * lbda * u) : ℝ) : 𝕜) • 1 := fun {u} hu hul => by
    rw [mStep_unitSamples _ hpN hu]
    congr 2
    unfold wHuber
    rw [max_eq_right]
    · field_simp
    · rw [one_le_div hl]
      exact (le_inv_comm₀ hu hl).1 hul
  induction k with
  | zero => simp [mIter]
  | succ k ih =>
    rw [mIter, ih]
    by_cases hk : Even k
    · rw [if_pos hk, if_neg (by rw [Nat.even_add_one]; simpa using hk), step hs h2]
    · rw [if_neg hk, if_pos (by rw [Nat.even_add_one]; exact hk), step ht]
      · congr 2
        field_simp
      · have h3 : beta ≤ s * N := (div_le_iff₀ hN).1 h1
        rw [div_le_iff₀ (by positivity)]
        have e1 : lbda⁻¹ * (N * lbda * s) = N * s := by field_simp
        rw [e1]
        linarith
end
end RS
