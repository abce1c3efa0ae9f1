import Verif.Lemmas.DataCont
import Verif.Lemmas.HuberConverge
import Verif.Lemmas.TylerConverge
import Verif.Lemmas.Rounding

/-! The fixed point of the Huber iteration as a function of the data. -/
set_option autoImplicit false

namespace RS
open Matrix ComplexOrder Filter Topology

section
variable {𝕜 : Type} [RCLike 𝕜] {N p : ℕ}

theorem huber_contracting {lbda beta : ℝ} (hl : 0 < lbda) (hb : 0 < beta)
    (X : Matrix (Fin N) (Fin p) 𝕜) {S : Matrix (Fin p) (Fin p) 𝕜} (hS : S.PosDef)
    (hfix : mStep (wHuber lbda beta) X S = S) (hin : InsideSpans lbda X S) :
    ∃ r : ℝ, 0 ≤ r ∧ r < 1 ∧ Contracting (mStep (wHuber lbda beta) X) S r := by
  obtain ⟨a, ha, haf⟩ := exists_pos_le fun i => lbda - qf S (sample X i)
  obtain ⟨c, hc, h1, -⟩ := exists_between hS (inside_posDef hb hin)
  have hc0 : 0 < c := by linarith
  set θ := max 0 (1 - a / lbda) with hθ
  have hθ0 : 0 ≤ θ := le_max_left _ _
  have hθ1 : θ < 1 := max_lt one_pos (by linarith [div_pos ha hl])
  have hκ : 0 < c⁻¹ := inv_pos.2 hc0
  have hκ1 : c⁻¹ ≤ 1 := inv_le_one_of_one_le₀ hc
  have hprod : 0 < c⁻¹ * (1 - θ) := mul_pos hκ (by linarith)
  have hprod1 : c⁻¹ * (1 - θ) ≤ 1 := by nlinarith
  refine ⟨1 - c⁻¹ * (1 - θ), by linarith, by linarith, fun T e he g => ?_⟩
  exact huber_squeeze hl hb hθ0 hθ1 hκ X hS hfix (fun i h => by
    have h2 := haf i (by linarith)
    have h3 : 1 - a / lbda ≤ θ := le_max_right _ _
    have h4 : qf S (sample X i) ≤ (1 - a / lbda) * lbda := by
      rw [sub_mul, one_mul, div_mul_cancel₀ _ hl.ne']
      linarith
    exact h4.trans (mul_le_mul_of_nonneg_right h3 hl.le)) h1 (by linarith) he g.1 g.2

/-! ### Continuity of one step in the data and the matrix -/

theorem continuous_scatter :
    Continuous fun z : (Fin N → ℝ) × Matrix (Fin N) (Fin p) 𝕜 => scatter z.1 z.2 := by
  refine continuous_matrix fun a b => ?_
  have e : (fun z : (Fin N → ℝ) × Matrix (Fin N) (Fin p) 𝕜 => scatter z.1 z.2 a b) =
      fun z => (N : 𝕜)⁻¹ * ∑ i, (z.1 i : 𝕜) * (z.2 i a * star (z.2 i b)) := by
    funext z
    simp only [scatter, Matrix.smul_apply, Matrix.sum_apply, smul_eq_mul, vecMulVec_apply, sample,
      Pi.star_apply]
  rw [e]
  refine continuous_const.mul (continuous_finsetSum _ fun i _ => ?_)
  exact (RCLike.continuous_ofReal.comp ((continuous_apply i).comp continuous_fst)).mul
    ((continuous_snd.matrix_elem i a).mul (continuous_snd.matrix_elem i b).star)

theorem tendsto_qf_joint {ι : Type} {f : Filter ι} {Q : ι → Matrix (Fin p) (Fin p) 𝕜}
    {S : Matrix (Fin p) (Fin p) 𝕜} {y : ι → Fin p → 𝕜} {x : Fin p → 𝕜} (hQ : Tendsto Q f (𝓝 S))
    (hS : S.PosDef) (hy : Tendsto y f (𝓝 x)) :
    Tendsto (fun k => qf (Q k) (y k)) f (𝓝 (qf S x)) := by
  have hd : S.det ≠ 0 := ((Matrix.isUnit_iff_isUnit_det S).1 hS.isUnit).ne_zero
  have hinv : Tendsto (fun k => (Q k)⁻¹) f (𝓝 S⁻¹) := by
    simp only [Matrix.inv_def, Ring.inverse_eq_inv']
    have h1 : Tendsto (fun k => (Q k).det) f (𝓝 S.det) :=
      ((continuous_id.matrix_det).tendsto S).comp hQ
    have h2 : Tendsto (fun k => (Q k).adjugate) f (𝓝 S.adjugate) :=
      ((continuous_id.matrix_adjugate).tendsto S).comp hQ
    exact (h1.inv₀ hd).smul h2
  have hc : Continuous fun z : Matrix (Fin p) (Fin p) 𝕜 × (Fin p → 𝕜) =>
      RCLike.re (star z.2 ⬝ᵥ (z.1 *ᵥ z.2)) :=
    RCLike.continuous_re.comp (continuous_snd.star.dotProduct
      (Continuous.matrix_mulVec continuous_fst continuous_snd))
  have h := (hc.tendsto (S⁻¹, x)).comp (hinv.prodMk_nhds hy)
  exact h

theorem tendsto_sample {ι : Type} {f : Filter ι} {Y : ι → Matrix (Fin N) (Fin p) 𝕜}
    {X : Matrix (Fin N) (Fin p) 𝕜} (hY : Tendsto Y f (𝓝 X)) (i : Fin N) :
    Tendsto (fun k => sample (Y k) i) f (𝓝 (sample X i)) := by
  have hc : Continuous fun Y : Matrix (Fin N) (Fin p) 𝕜 => sample Y i :=
    continuous_pi fun j => continuous_id.matrix_elem i j
  exact (hc.tendsto X).comp hY

theorem tendsto_mStep_joint {ι : Type} {f : Filter ι} {w : ℝ → ℝ} (hw : Continuous w)
    {Q : ι → Matrix (Fin p) (Fin p) 𝕜} {S : Matrix (Fin p) (Fin p) 𝕜}
    {Y : ι → Matrix (Fin N) (Fin p) 𝕜} {X : Matrix (Fin N) (Fin p) 𝕜} (hQ : Tendsto Q f (𝓝 S))
    (hS : S.PosDef) (hY : Tendsto Y f (𝓝 X)) :
    Tendsto (fun k => mStep w (Y k) (Q k)) f (𝓝 (mStep w X S)) := by
  have h1 : Tendsto (fun k => fun i => w (qf (Q k) (sample (Y k) i))) f
      (𝓝 fun i => w (qf S (sample X i))) :=
    tendsto_pi_nhds.2 fun i => (hw.tendsto _).comp (tendsto_qf_joint hQ hS (tendsto_sample hY i))
  have h := (continuous_scatter.tendsto ((fun i => w (qf S (sample X i))), X)).comp
    (h1.prodMk_nhds hY)
  exact h

theorem continuous_wHuber (lbda beta : ℝ) : Continuous (wHuber lbda beta) := by
  unfold wHuber
  fun_prop

/-! ### Lower bounds in a neighbourhood -/

theorem scatter_half {w : Fin N → ℝ} {X : Matrix (Fin N) (Fin p) 𝕜} (h : (scatter w X).PosDef) :
    ∀ᶠ Y in 𝓝 X, Loewner (((1 / 2 : ℝ) : 𝕜) • scatter w X) (scatter w Y) := by
  obtain ⟨c, hc, hsq⟩ := squeezed_of_frob h
  have hc0 : 0 < c := by linarith
  have hcont : Tendsto (fun Y => scatter w Y) (𝓝 X) (𝓝 (scatter w X)) :=
    ((continuous_scatter (𝕜 := 𝕜) (N := N) (p := p)).comp
      (Continuous.prodMk continuous_const continuous_id)).tendsto X
  filter_upwards [frob_eventually hcont (ε := 1 / (2 * c)) (by positivity)] with Y hY
  obtain ⟨h1, -⟩ := hsq (scatter w X) (scatter w Y - scatter w X)
    ((scatter_isHermitian _ _).sub (scatter_isHermitian _ _))
  rw [add_sub_cancel] at h1
  refine Loewner.trans ?_ h1
  have h2 : c * frob (scatter w Y - scatter w X) ≤ 1 / 2 := by
    have := mul_le_mul_of_nonneg_left hY.le hc0.le
    have e : c * (1 / (2 * c)) = 1 / 2 := by field_simp
    linarith
  have h3 := loewner_smul_le h.posSemidef (show (1 / 2 : ℝ) ≤
    1 - c * frob (scatter w Y - scatter w X) by linarith)
  rwa [RCLike.ofReal_sub 1, RCLike.ofReal_one, sub_smul, one_smul] at h3

theorem spans_open {X : Matrix (Fin N) (Fin p) 𝕜} (hX : Spans X) : ∀ᶠ Y in 𝓝 X, Spans Y := by
  have h := scatter_posDef (fun _ => 1) (fun _ => one_pos) X hX
  filter_upwards [scatter_half h] with Y hY
  exact spans_of_scatter (hY.posDef (h.smul (by exact_mod_cast (by norm_num : (0 : ℝ) < 1 / 2))))

/-! ### The fixed points stay bounded and away from the boundary -/

theorem huber_data_bounds {lbda beta : ℝ} (hl : 0 < lbda) (hb : 0 < beta)
    {X : Matrix (Fin N) (Fin p) 𝕜} (hX : Spans X) :
    ∃ (L : Matrix (Fin p) (Fin p) 𝕜) (R : ℝ), L.PosDef ∧ ∀ᶠ Y in 𝓝 X,
      ∀ Q : Matrix (Fin p) (Fin p) 𝕜, Q.PosDef → mStep (wHuber lbda beta) Y Q = Q →
        Loewner L Q ∧ frob Q ≤ R := by
  have hM := scatter_posDef (fun _ : Fin N => beta) (fun _ => hb) X hX
  obtain ⟨L, hL⟩ : ∃ L, L = ((1 / 2 : ℝ) : 𝕜) • scatter (fun _ => beta) X := ⟨_, rfl⟩
  have hLP : L.PosDef := by
    rw [hL]
    exact hM.smul (by exact_mod_cast (by norm_num : (0 : ℝ) < 1 / 2))
  have hcont : Tendsto (fun Y : Matrix (Fin N) (Fin p) 𝕜 =>
      RCLike.re (mStep (wHuber lbda beta) Y L).trace) (𝓝 X)
      (𝓝 (RCLike.re (mStep (wHuber lbda beta) X L).trace)) :=
    (RCLike.continuous_re.tendsto _).comp ((continuous_id.matrix_trace.tendsto _).comp
      (tendsto_mStep_joint (continuous_wHuber lbda beta) tendsto_const_nhds hLP tendsto_id))
  refine ⟨L, RCLike.re (mStep (wHuber lbda beta) X L).trace + 1, hLP, ?_⟩
  filter_upwards [scatter_half hM, hcont.eventually (gt_mem_nhds (lt_add_one _))] with Y h1 h2 Q hQ hf
  have h3 : Loewner L Q := by
    rw [hL]
    refine h1.trans ?_
    conv_rhs => rw [← hf]
    exact scatter_mono (fun i => le_mul_of_one_le_right hb.le (le_max_left _ _)) Y
  refine ⟨h3, (frob_le_trace hQ.posSemidef).trans (le_trans ?_ h2.le)⟩
  refine Loewner.trace_le ?_
  conv_lhs => rw [← hf]
  exact scatter_mono (fun i => wHuber_monotone hl hb (qf_anti hLP h3 _)) Y

/-! ### Continuity -/

theorem huber_data_tendsto {lbda beta : ℝ} (hl : 0 < lbda) (hb : 0 < beta) (hp : 0 < p)
    {X : Matrix (Fin N) (Fin p) 𝕜} (hX : Spans X) {S : Matrix (Fin p) (Fin p) 𝕜} (hS : S.PosDef)
    (hfix : mStep (wHuber lbda beta) X S = S)
    (Q : Matrix (Fin N) (Fin p) 𝕜 → Matrix (Fin p) (Fin p) 𝕜)
    (hQ : ∀ᶠ Y in 𝓝 X, (Q Y).PosDef ∧ mStep (wHuber lbda beta) Y (Q Y) = Q Y) :
    Tendsto Q (𝓝 X) (𝓝 S) := by
  obtain ⟨L, R, hL, hLR⟩ := huber_data_bounds hl hb hX
  have : (𝓝 X).IsCountablyGenerated := by
    have h : ∀ x : Fin N → Fin p → 𝕜, (𝓝 x).IsCountablyGenerated := fun x => inferInstance
    exact h X
  refine tendsto_of_seq_tendsto fun u hu => tendsto_of_subseq_tendsto fun ns hns => ?_
  have hv : Tendsto (fun n => u (ns n)) atTop (𝓝 X) := hu.comp hns
  obtain ⟨n0, hn0⟩ := eventually_atTop.1 (hv.eventually (hQ.and hLR))
  have hg : ∀ n, (Q (u (ns (n + n0)))).PosDef ∧
      mStep (wHuber lbda beta) (u (ns (n + n0))) (Q (u (ns (n + n0)))) = Q (u (ns (n + n0))) ∧
      Loewner L (Q (u (ns (n + n0)))) ∧ frob (Q (u (ns (n + n0)))) ≤ R := fun n => by
    obtain ⟨⟨h1, h2⟩, h3⟩ := hn0 (n + n0) (by omega)
    exact ⟨h1, h2, h3 _ h1 h2⟩
  obtain ⟨T, f, hf, hlim⟩ := bounded_subseq (T := fun n => Q (u (ns (n + n0)))) fun n => (hg n).2.2.2
  refine ⟨fun n => f n + n0, ?_⟩
  have hT : T.PosDef :=
    (Loewner.of_tendsto (tendsto_const_nhds (x := L)) hlim fun n => (hg (f n)).2.2.1).posDef hL
  have hv' : Tendsto (fun n => u (ns (f n + n0))) atTop (𝓝 X) :=
    hv.comp ((tendsto_add_atTop_nat n0).comp hf.tendsto_atTop)
  have h1 := tendsto_mStep_joint (continuous_wHuber lbda beta) hlim hT hv'
  have h2 : Tendsto (fun n => mStep (wHuber lbda beta) (u (ns (f n + n0)))
      (((fun n => Q (u (ns (n + n0)))) ∘ f) n)) atTop (𝓝 T) :=
    hlim.congr fun n => ((hg (f n)).2.1).symm
  have h3 : mStep (wHuber lbda beta) X T = T := tendsto_nhds_unique h1 h2
  have h4 : T = S := mono_unique (wHuber_monotone hl hb)
    (fun t => mul_pos hb (lt_max_of_lt_left one_pos)) hp X hT hS h3 hfix
  rw [← h4]
  exact hlim

theorem inside_open {lbda : ℝ} {X : Matrix (Fin N) (Fin p) 𝕜} {S : Matrix (Fin p) (Fin p) 𝕜}
    (hS : S.PosDef) (hin : InsideSpans lbda X S)
    {Q : Matrix (Fin N) (Fin p) 𝕜 → Matrix (Fin p) (Fin p) 𝕜} (hQ : Tendsto Q (𝓝 X) (𝓝 S)) :
    ∀ᶠ Y in 𝓝 X, InsideSpans lbda Y (Q Y) := by
  have hP := inside_posDef one_pos hin
  have hq : ∀ᶠ Y in 𝓝 X, ∀ i, qf S (sample X i) < lbda → qf (Q Y) (sample Y i) < lbda := by
    rw [eventually_all]
    intro i
    by_cases h : qf S (sample X i) < lbda
    · filter_upwards [(tendsto_qf_joint hQ hS (tendsto_sample tendsto_id i)).eventually
        (gt_mem_nhds h)] with Y hY _
      exact hY
    · exact Eventually.of_forall fun Y h' => absurd h' h
  filter_upwards [scatter_half hP, hq] with Y h1 h2 v hv
  have h3 : (scatter (wInside lbda 1 X S) Y).PosDef :=
    h1.posDef (hP.smul (by exact_mod_cast (by norm_num : (0 : ℝ) < 1 / 2)))
  by_contra hne
  have h4 := (posDef_iff_dotProduct_mulVec.1 h3).2 hne
  rw [scatter_quad] at h4
  have h5 : ∑ i, wInside lbda 1 X S i * ‖star (sample Y i) ⬝ᵥ v‖ ^ 2 = 0 :=
    Finset.sum_eq_zero fun i _ => by
      unfold wInside
      split_ifs with h
      · rw [hv i (h2 i h), norm_zero]
        ring
      · ring
  rw [h5, mul_zero, RCLike.ofReal_zero] at h4
  exact lt_irrefl _ h4

theorem huber_well_posed {lbda beta : ℝ} (hl : 0 < lbda) (hb : 0 < beta) (hp : 0 < p)
    {X : Matrix (Fin N) (Fin p) 𝕜} (hX : Spans X) {S : Matrix (Fin p) (Fin p) 𝕜} (hS : S.PosDef)
    (hfix : mStep (wHuber lbda beta) X S = S) {ε : ℝ} (hε : 0 < ε) :
    ∃ δ : ℝ, 0 < δ ∧ ∀ Y : Matrix (Fin N) (Fin p) 𝕜, (∀ i j, ‖Y i j - X i j‖ < δ) →
      Spans Y ∧ ∃ Q : Matrix (Fin p) (Fin p) 𝕜, Q.PosDef ∧ mStep (wHuber lbda beta) Y Q = Q ∧
        frob (Q - S) < ε ∧ (InsideSpans lbda X S → InsideSpans lbda Y Q) := by
  obtain ⟨Q, hQ⟩ : ∃ Q : Matrix (Fin N) (Fin p) 𝕜 → Matrix (Fin p) (Fin p) 𝕜, ∀ Y, Spans Y →
      (Q Y).PosDef ∧ mStep (wHuber lbda beta) Y (Q Y) = Q Y := by
    have h : ∀ Y : Matrix (Fin N) (Fin p) 𝕜, ∃ Q : Matrix (Fin p) (Fin p) 𝕜, Spans Y →
        Q.PosDef ∧ mStep (wHuber lbda beta) Y Q = Q := fun Y => by
      by_cases hY : Spans Y
      · obtain ⟨Q, h1, h2⟩ := huber_exists hl hb hp Y hY
        exact ⟨Q, fun _ => ⟨h1, h2⟩⟩
      · exact ⟨0, fun h => absurd h hY⟩
    choose Q hQ using h
    exact ⟨Q, hQ⟩
  have hlim := huber_data_tendsto hl hb hp hX hS hfix Q ((spans_open hX).mono hQ)
  have hin : ∀ᶠ Y in 𝓝 X, InsideSpans lbda X S → InsideSpans lbda Y (Q Y) := by
    by_cases h : InsideSpans lbda X S
    · exact (inside_open hS h hlim).mono fun Y hY _ => hY
    · exact Eventually.of_forall fun Y h' => absurd h' h
  obtain ⟨δ, hδ, h⟩ := nhds_entries ((spans_open hX).and ((frob_eventually hlim hε).and hin))
  refine ⟨δ, hδ, fun Y hY => ?_⟩
  obtain ⟨h1, h2, h3⟩ := h Y hY
  exact ⟨h1, Q Y, (hQ Y h1).1, (hQ Y h1).2, h2, h3⟩

end
end RS
