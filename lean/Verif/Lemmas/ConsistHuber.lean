import Verif.Lemmas.ConsistLaw
import Verif.Lemmas.HuberSandwich

/-! Large samples: weighted second moments of a law, and the Huber iteration. -/
set_option autoImplicit false

namespace RS
open Matrix ComplexOrder Filter Topology MeasureTheory ProbabilityTheory

section
set_option linter.unusedSectionVars false
variable {𝕜 : Type} [RCLike 𝕜] [MeasurableSpace 𝕜] [BorelSpace 𝕜] {N p : ℕ}
variable {Ω : Type*} [MeasurableSpace Ω] {P : Measure Ω} [IsProbabilityMeasure P]
  {x : ℕ → Ω → Fin p → 𝕜} {μ : Measure (Fin p → 𝕜)}

/-- The law of large numbers for a function of the samples. -/
theorem IIDSamples.mean {E : Type*} [NormedAddCommGroup E] [NormedSpace ℝ E] [CompleteSpace E]
    [MeasurableSpace E] [BorelSpace E] [SecondCountableTopology E] (h : IIDSamples P x μ)
    {f : (Fin p → 𝕜) → E} (hf : Measurable f) (hi : Integrable f μ) :
    ∀ᵐ ω ∂P, Tendsto (fun N : ℕ => (N : ℝ)⁻¹ • ∑ i : Fin N, f (x i ω)) atTop (𝓝 (∫ z, f z ∂μ)) := by
  have hident : ∀ i, IdentDistrib (fun ω => f (x i ω)) (fun ω => f (x 0 ω)) P P := fun i =>
    (show IdentDistrib (x i) (x 0) P P from ⟨(h.meas i).aemeasurable, (h.meas 0).aemeasurable,
      (h.law i).trans (h.law 0).symm⟩).comp hf
  have hind : Pairwise (Function.onFun (fun g g' => IndepFun g g' P) fun i ω => f (x i ω)) :=
    fun i j hij => (h.indep.indepFun hij).comp hf hf
  have hint : Integrable (fun ω => f (x 0 ω)) P := by
    have := h.law 0
    rw [← this] at hi
    exact hi.comp_measurable (h.meas 0)
  have hlaw := strong_law_ae (fun i ω => f (x i ω)) hint hind hident
  have hE : ∫ ω, f (x 0 ω) ∂P = ∫ z, f z ∂μ := by
    rw [← h.law 0, integral_map (h.meas 0).aemeasurable hf.aestronglyMeasurable]
  filter_upwards [hlaw] with ω hω
  rw [hE] at hω
  refine hω.congr fun N => ?_
  rw [Finset.sum_range]

/-- The weighted second moments of a law. -/
noncomputable def wMoment (g : (Fin p → 𝕜) → ℝ) (μ : Measure (Fin p → 𝕜)) :
    Matrix (Fin p) (Fin p) 𝕜 := of fun a b => ∫ x, (g x : 𝕜) * (x a * star (x b)) ∂μ

/-- They are finite. -/
def WInt (g : (Fin p → 𝕜) → ℝ) (μ : Measure (Fin p → 𝕜)) : Prop :=
  ∀ a b, Integrable (fun x => (g x : 𝕜) * (x a * star (x b))) μ

theorem raw_measurable' (a b : Fin p) : Measurable fun z : Fin p → 𝕜 => z a * star (z b) := by
  have h : Continuous fun z : Fin p → 𝕜 => z a * star (z b) := by fun_prop
  exact h.measurable

theorem IIDSamples.scatter_limit (h : IIDSamples P x μ) {g : (Fin p → 𝕜) → ℝ} (hg : Measurable g)
    (hi : WInt g μ) :
    ∀ᵐ ω ∂P, Tendsto (fun N => scatter (fun i : Fin N => g (x i ω)) (firstSamples x ω N)) atTop
      (𝓝 (wMoment g μ)) := by
  have hall : ∀ᵐ ω ∂P, ∀ a b, Tendsto (fun N : ℕ => (N : ℝ)⁻¹ •
      ∑ i : Fin N, ((g (x i ω) : ℝ) : 𝕜) * (x i ω a * star (x i ω b)))
      atTop (𝓝 (∫ z, ((g z : ℝ) : 𝕜) * (z a * star (z b)) ∂μ)) := by
    rw [ae_all_iff]; intro a; rw [ae_all_iff]; intro b
    have hm : Measurable fun z : Fin p → 𝕜 => ((g z : ℝ) : 𝕜) * (z a * star (z b)) :=
      (RCLike.continuous_ofReal.measurable.comp hg).mul (raw_measurable' a b)
    have h3 := h.mean hm (hi a b)
    exact h3
  filter_upwards [hall] with ω hω
  refine tendsto_pi_nhds.2 fun a => tendsto_pi_nhds.2 fun b => ?_
  refine (hω a b).congr fun N => ?_
  rw [scatter_apply, RCLike.real_smul_eq_coe_mul]
  push_cast
  rfl

theorem IIDSamples.step_limit (h : IIDSamples P x μ) {w : ℝ → ℝ} (hw : Measurable w)
    {A : Matrix (Fin p) (Fin p) 𝕜} (hi : WInt (fun x => w (qf A x)) μ) :
    ∀ᵐ ω ∂P, Tendsto (fun N => mStep w (firstSamples x ω N) A) atTop
      (𝓝 (wMoment (fun x => w (qf A x)) μ)) := by
  have hm : Measurable fun x : Fin p → 𝕜 => w (qf A x) := hw.comp (continuous_qf A).measurable
  have h3 := h.scatter_limit hm hi
  filter_upwards [h3] with ω hω
  exact hω

/-- The quadratic form of the weighted second moments. -/
theorem wMoment_quad {g : (Fin p → 𝕜) → ℝ} (hi : WInt g μ) (v : Fin p → 𝕜) :
    Integrable (fun x => g x * ‖star x ⬝ᵥ v‖ ^ 2) μ ∧
    star v ⬝ᵥ (wMoment g μ *ᵥ v) = ((∫ x, g x * ‖star x ⬝ᵥ v‖ ^ 2 ∂μ : ℝ) : 𝕜) := by
  have e : ∀ x : Fin p → 𝕜, ((g x * ‖star x ⬝ᵥ v‖ ^ 2 : ℝ) : 𝕜) =
      ∑ a, ∑ b, (star (v a) * v b) * ((g x : 𝕜) * (x a * star (x b))) := fun x => by
    have h1 : ((‖star x ⬝ᵥ v‖ ^ 2 : ℝ) : 𝕜) = star (star x ⬝ᵥ v) * (star x ⬝ᵥ v) := by
      rw [RCLike.star_def, RCLike.conj_mul]; push_cast; rfl
    rw [RCLike.ofReal_mul, h1]
    simp only [dotProduct, star_sum, star_mul', Pi.star_apply, star_star]
    rw [Finset.sum_mul_sum, Finset.mul_sum]
    refine Finset.sum_congr rfl fun a _ => ?_
    rw [Finset.mul_sum]
    refine Finset.sum_congr rfl fun b _ => ?_
    ring
  have hI : ∀ a b, Integrable (fun x : Fin p → 𝕜 =>
      (star (v a) * v b) * ((g x : 𝕜) * (x a * star (x b)))) μ := fun a b => (hi a b).const_mul _
  have hI2 : ∀ a, Integrable (fun x : Fin p → 𝕜 =>
      ∑ b, (star (v a) * v b) * ((g x : 𝕜) * (x a * star (x b)))) μ := fun a =>
    integrable_finsetSum _ fun b _ => hI a b
  have hI3 : Integrable (fun x => ((g x * ‖star x ⬝ᵥ v‖ ^ 2 : ℝ) : 𝕜)) μ := by
    simp only [e]
    exact integrable_finsetSum _ fun a _ => hI2 a
  refine ⟨?_, ?_⟩
  · have := hI3.re
    simpa only [RCLike.ofReal_re] using this
  · rw [← integral_ofReal]
    simp only [e]
    rw [integral_finsetSum _ fun a _ => hI2 a]
    simp only [dotProduct, mulVec, Finset.mul_sum, Pi.star_apply]
    refine Finset.sum_congr rfl fun a _ => ?_
    rw [integral_finsetSum _ fun b _ => hI a b]
    refine Finset.sum_congr rfl fun b _ => ?_
    rw [integral_const_mul, wMoment, of_apply]
    ring

theorem wMoment_herm (g : (Fin p → 𝕜) → ℝ) (μ : Measure (Fin p → 𝕜)) : (wMoment g μ).IsHermitian := by
  ext a b
  rw [conjTranspose_apply, wMoment, of_apply, of_apply, RCLike.star_def, ← integral_conj]
  refine integral_congr_ae (Eventually.of_forall fun x => ?_)
  simp only [map_mul, RCLike.conj_ofReal, RCLike.conj_conj]
  ring

theorem wMoment_posSemidef {g : (Fin p → 𝕜) → ℝ} (hi : WInt g μ) (h0 : ∀ x, 0 ≤ g x) :
    (wMoment g μ).PosSemidef := by
  rw [posSemidef_iff_dotProduct_mulVec]
  refine ⟨wMoment_herm g μ, fun v => ?_⟩
  rw [(wMoment_quad hi v).2, RCLike.ofReal_nonneg]
  exact integral_nonneg fun x => mul_nonneg (h0 x) (sq_nonneg _)

theorem orth_null (hμ : NullSubspaces μ) {v : Fin p → 𝕜} (hv : v ≠ 0) :
    ∀ᵐ x ∂μ, star x ⬝ᵥ v ≠ 0 := by
  let V : Submodule 𝕜 (Fin p → 𝕜) :=
    { carrier := {x | star v ⬝ᵥ x = 0}
      add_mem' := fun {a b} ha hb => by
        simp only [Set.mem_ofPred_eq] at *
        rw [dotProduct_add, ha, hb, add_zero]
      zero_mem' := by simp
      smul_mem' := fun c a ha => by
        simp only [Set.mem_ofPred_eq] at *
        rw [dotProduct_smul, ha, smul_zero] }
  have hV : V ≠ ⊤ := fun h => by
    have : v ∈ V := by rw [h]; trivial
    have h2 : star v ⬝ᵥ v = 0 := this
    exact hv (dotProduct_star_self_eq_zero.1 (by rwa [dotProduct_comm] at h2))
  have h0 := hμ V hV
  rw [ae_iff]
  refine measure_mono_null (fun x hx => ?_) h0
  simp only [ne_eq, not_not, Set.mem_ofPred_eq] at hx
  change star v ⬝ᵥ x = 0
  have := congrArg star hx
  rw [star_dotProduct, star_star, star_zero] at this
  rw [dotProduct_comm]
  exact (dotProduct_comm _ _).trans this

theorem wMoment_posDef {g : (Fin p → 𝕜) → ℝ} (hμ : NullSubspaces μ) (hi : WInt g μ)
    (h0 : ∀ x, 0 ≤ g x) (hpos : ¬ ∀ᵐ x ∂μ, g x = 0) : (wMoment g μ).PosDef := by
  refine PosDef.of_dotProduct_mulVec_pos (wMoment_herm g μ) fun v hv => ?_
  rw [(wMoment_quad hi v).2, RCLike.ofReal_pos]
  have hn : ∀ x, 0 ≤ g x * ‖star x ⬝ᵥ v‖ ^ 2 := fun x => mul_nonneg (h0 x) (sq_nonneg _)
  refine lt_of_le_of_ne (integral_nonneg hn) fun he => hpos ?_
  have := (integral_eq_zero_iff_of_nonneg hn (wMoment_quad hi v).1).1 he.symm
  filter_upwards [this, orth_null hμ hv] with x hx hx'
  exact (mul_eq_zero.1 hx).resolve_right (pow_ne_zero 2 (norm_ne_zero_iff.2 hx'))

theorem wMoment_smul_sub {g g' : (Fin p → 𝕜) → ℝ} (hi : WInt g μ) (hi' : WInt g' μ) (c : ℝ) :
    WInt (fun x => c * g x - g' x) μ ∧
      wMoment (fun x => c * g x - g' x) μ = (c : 𝕜) • wMoment g μ - wMoment g' μ := by
  have e : ∀ (x : Fin p → 𝕜) (a b : Fin p), ((c * g x - g' x : ℝ) : 𝕜) * (x a * star (x b)) =
      (c : 𝕜) * ((g x : 𝕜) * (x a * star (x b))) - (g' x : 𝕜) * (x a * star (x b)) := fun x a b => by
    push_cast; ring
  have h1 : ∀ a b, Integrable (fun x : Fin p → 𝕜 => (c : 𝕜) * ((g x : 𝕜) * (x a * star (x b)))) μ :=
    fun a b => (hi a b).const_mul _
  refine ⟨fun a b => ?_, ?_⟩
  · simp only [e]
    exact (h1 a b).sub (hi' a b)
  · ext a b
    rw [Matrix.sub_apply, Matrix.smul_apply, wMoment, of_apply]
    simp only [e]
    rw [integral_sub (h1 a b) (hi' a b), integral_const_mul]
    rfl

open Classical in
/-- The samples in a set of positive probability span the space in the end. -/
theorem IIDSamples.inside_spans (h : IIDSamples P x μ) (hμ : NullSubspaces μ)
    {A : Set (Fin p → 𝕜)} (hA : MeasurableSet A) (h0 : μ A ≠ 0) :
    ∀ᵐ ω ∂P, ∀ᶠ N : ℕ in atTop, ∀ v : Fin p → 𝕜,
      (∀ i : Fin N, x i ω ∈ A → star (x i ω) ⬝ᵥ v = 0) → v = 0 := by
  have := h.prob
  let g : (Fin p → 𝕜) → ℝ := fun z => if z ∈ A then (1 + ∑ j, ‖z j‖ ^ 2)⁻¹ else 0
  have hs : ∀ z : Fin p → 𝕜, 0 ≤ ∑ j, ‖z j‖ ^ 2 := fun z => Finset.sum_nonneg fun j _ => sq_nonneg _
  have hg0 : ∀ z, 0 ≤ g z := fun z => by
    simp only [g]; split_ifs
    · have := hs z; positivity
    · exact le_rfl
  have hgm : Measurable g := by
    refine Measurable.ite hA ?_ measurable_const
    have : Measurable fun z : Fin p → 𝕜 => ∑ j, ‖z j‖ ^ 2 := by fun_prop
    exact (measurable_const.add this).inv
  have hgi : WInt g μ := fun a b => by
    have hm : Measurable fun z : Fin p → 𝕜 => ((g z : ℝ) : 𝕜) * (z a * star (z b)) :=
      (RCLike.continuous_ofReal.measurable.comp hgm).mul (raw_measurable' a b)
    refine (integrable_const (1 : ℝ)).mono' hm.aestronglyMeasurable (Eventually.of_forall fun z => ?_)
    rw [norm_mul, norm_mul, norm_star, RCLike.norm_ofReal, abs_of_nonneg (hg0 z)]
    have h1 : ‖z a‖ ^ 2 ≤ ∑ j, ‖z j‖ ^ 2 :=
      Finset.single_le_sum (f := fun j => ‖z j‖ ^ 2) (fun j _ => sq_nonneg _) (Finset.mem_univ a)
    have h2 : ‖z b‖ ^ 2 ≤ ∑ j, ‖z j‖ ^ 2 :=
      Finset.single_le_sum (f := fun j => ‖z j‖ ^ 2) (fun j _ => sq_nonneg _) (Finset.mem_univ b)
    have h3 : ‖z a‖ * ‖z b‖ ≤ ∑ j, ‖z j‖ ^ 2 := by nlinarith [sq_nonneg (‖z a‖ - ‖z b‖)]
    simp only [g]
    split_ifs
    · have := hs z
      rw [inv_mul_le_iff₀ (by positivity)]
      linarith
    · rw [zero_mul]; exact zero_le_one
  have hpd : (wMoment g μ).PosDef := wMoment_posDef hμ hgi hg0 fun hae => h0 <| by
    rw [ae_iff] at hae
    refine measure_mono_null (fun z hz => ?_) hae
    have := hs z
    simp only [g, Set.mem_ofPred_eq, if_pos hz]
    positivity
  filter_upwards [h.scatter_limit hgm hgi] with ω hω
  have hev := eventually_squeezed hpd
    (fun k => (scatter_posSemidef _ (fun i => hg0 _) (firstSamples x ω k)).1) hω
    (e := 1 / 2) (by norm_num)
  filter_upwards [hev] with N hN v hv
  have hpos : (((1 - 1 / 2 : ℝ) : 𝕜) • wMoment g μ).PosDef :=
    hpd.smul (by exact_mod_cast (by norm_num : (0 : ℝ) < 1 - 1 / 2))
  have hN' := hN.1.posDef hpos
  by_contra hne
  have h1 := (posDef_iff_dotProduct_mulVec.1 hN').2 hne
  rw [scatter_quad, RCLike.ofReal_pos] at h1
  refine h1.ne' ?_
  rw [Finset.sum_eq_zero, mul_zero]
  intro i _
  by_cases hi : x i ω ∈ A
  · have e : star (sample (firstSamples x ω N) i) ⬝ᵥ v = 0 := hv i hi
    rw [e, norm_zero]; ring
  · have : g (x i ω) = 0 := by simp only [g, if_neg hi]
    rw [this, zero_mul]

theorem wHuber_measurable (lbda beta : ℝ) : Measurable (wHuber lbda beta) := by
  unfold wHuber
  fun_prop

theorem wHuber_nonneg {lbda beta : ℝ} (hb : 0 < beta) (t : ℝ) : 0 ≤ wHuber lbda beta t :=
  mul_nonneg hb.le (zero_le_one.trans (le_max_left _ _))

/-- Finite moments at one matrix give finite moments at its multiples. -/
theorem wHuber_wint {lbda beta : ℝ} (hl : 0 < lbda) (hb : 0 < beta)
    {S : Matrix (Fin p) (Fin p) 𝕜} (hS : S.PosDef)
    (hi : WInt (fun x => wHuber lbda beta (qf S x)) μ) {d : ℝ} (hd : 0 < d) :
    WInt (fun x => wHuber lbda beta (qf ((d : 𝕜) • S) x)) μ := fun a b => by
  have hm : Measurable fun z : Fin p → 𝕜 =>
      ((wHuber lbda beta (qf ((d : 𝕜) • S) z) : ℝ) : 𝕜) * (z a * star (z b)) :=
    (RCLike.continuous_ofReal.measurable.comp
      ((wHuber_measurable lbda beta).comp (continuous_qf _).measurable)).mul (raw_measurable' a b)
  refine Integrable.mono' ((hi a b).norm.const_mul (max 1 d⁻¹)) hm.aestronglyMeasurable
    (Eventually.of_forall fun z => ?_)
  beta_reduce
  rw [norm_mul, norm_mul (((wHuber lbda beta (qf S z) : ℝ) : 𝕜)), RCLike.norm_ofReal,
    RCLike.norm_ofReal, abs_of_nonneg (wHuber_nonneg hb _), abs_of_nonneg (wHuber_nonneg hb _), ← mul_assoc]
  refine mul_le_mul_of_nonneg_right (wHuber_div hl hb (le_max_left _ _) ?_) (norm_nonneg _)
  rw [qf_smul hS hd, div_eq_inv_mul]
  exact mul_le_mul_of_nonneg_right (le_max_right _ _) (qf_nonneg hS z)

/-- One approximation step. -/
theorem IIDSamples.huber_near (h : IIDSamples P x μ) (hμ : NullSubspaces μ) (hp : 0 < p)
    {lbda beta : ℝ} (hl : 0 < lbda) (hb : 0 < beta) {S : Matrix (Fin p) (Fin p) 𝕜} (hS : S.PosDef)
    (hf : PopSolves (wHuber lbda beta) μ S) (hin : μ {x | qf S x < lbda} ≠ 0) {d : ℝ} (hd : 0 < d)
    (hd1 : d < 1) :
    ∀ᵐ ω ∂P, ∀ᶠ N : ℕ in atTop, ∀ Q : Matrix (Fin p) (Fin p) 𝕜, Q.PosDef →
      mStep (wHuber lbda beta) (firstSamples x ω N) Q = Q →
      Loewner ((d : 𝕜) • S) Q ∧ Loewner Q (((d⁻¹ : ℝ) : 𝕜) • S) := by
  have hi : WInt (fun x => wHuber lbda beta (qf S x)) μ := fun a b => (hf a b).1
  have hS' : wMoment (fun x => wHuber lbda beta (qf S x)) μ = S := by
    ext a b; exact (hf a b).2
  have hdi := wHuber_wint hl hb hS hi hd
  have hd' : 1 ≤ d⁻¹ := (one_le_inv₀ hd).2 hd1.le
  -- the population step at `d S`
  obtain ⟨hgi, hge⟩ := wMoment_smul_sub hi hdi d⁻¹
  rw [hS'] at hge
  have hg0 : ∀ z : Fin p → 𝕜, 0 ≤ d⁻¹ * wHuber lbda beta (qf S z) -
      wHuber lbda beta (qf ((d : 𝕜) • S) z) := fun z => sub_nonneg.2 <|
    wHuber_div hl hb hd' (by rw [qf_smul hS hd, div_eq_inv_mul])
  have hpd := wMoment_posDef hμ hgi hg0 fun hae => hin <| by
    rw [ae_iff] at hae
    refine measure_mono_null (fun z (hz : qf S z < lbda) => ?_) hae
    simp only [Set.mem_ofPred_eq]
    refine ne_of_gt (sub_pos.2 ?_)
    have e1 : wHuber lbda beta (qf S z) = beta := by
      unfold wHuber
      rw [max_eq_left ((div_le_one hl).2 hz.le), mul_one]
    rw [e1, qf_smul hS hd, mul_comm]
    unfold wHuber
    refine mul_lt_mul_of_pos_left (max_lt ((one_lt_inv₀ hd).2 hd1) ?_) hb
    rw [div_div, div_lt_iff₀ (mul_pos hd hl), inv_mul_cancel_left₀ hd.ne']
    exact hz
  rw [hge] at hpd
  set M := wMoment (fun x => wHuber lbda beta (qf ((d : 𝕜) • S) x)) μ with hM
  have hMpd : M.PosDef := by
    obtain ⟨k1, k2⟩ := wMoment_smul_sub hdi hi 1
    rw [hS', RCLike.ofReal_one, one_smul] at k2
    have k3 := wMoment_posSemidef k1 fun z => by
      rw [one_mul]
      refine sub_nonneg.2 (wHuber_monotone hl hb ?_)
      rw [qf_smul hS hd, div_eq_inv_mul]
      exact le_mul_of_one_le_left (qf_nonneg hS z) hd'
    rw [k2] at k3
    exact Loewner.posDef k3 hS
  obtain ⟨c1, hc1, k1, -⟩ := exists_between hS hpd
  have hc0 : 0 < c1 := by linarith
  have hk0 : 0 < c1⁻¹ := inv_pos.2 hc0
  have hMle : Loewner M (((d⁻¹ - c1⁻¹ : ℝ) : 𝕜) • S) := by
    unfold Loewner at k1 ⊢
    convert k1 using 1
    rw [RCLike.ofReal_sub, sub_smul]
    abel
  set e := d * c1⁻¹ / 2 with he
  have he0 : 0 < e := by positivity
  set η := min e (1 - d) / 2 with hη
  have hη0 : 0 < η := half_pos (lt_min he0 (by linarith))
  have hη1 : η < e := by
    have := min_le_left e (1 - d); rw [hη]; linarith
  have hη2 : d < 1 - η := by
    have := min_le_right e (1 - d); rw [hη]; linarith
  have hherm : ∀ (A : Matrix (Fin p) (Fin p) 𝕜) (ω : Ω) (k : ℕ),
      (mStep (wHuber lbda beta) (firstSamples x ω k) A).IsHermitian := fun A ω k =>
    (scatter_posSemidef _ (fun i => wHuber_nonneg hb _) (firstSamples x ω k)).1
  have l1 := h.step_limit (wHuber_measurable lbda beta) hdi
  have l2 := h.step_limit (wHuber_measurable lbda beta) hi
  rw [hS'] at l2
  filter_upwards [l1, l2] with ω w1 w2
  filter_upwards [eventually_squeezed hMpd (hherm _ ω) w1 he0,
    eventually_squeezed hS (hherm _ ω) w2 hη0] with N n1 n2 Q hQ hfix
  refine huber_sandwich hl hb hp _ hS hQ hfix hd he0 hη1 hη2 ?_ n2.1
  refine n1.2.trans ((hMle.smul (by linarith)).trans ?_)
  rw [smul_smul, ← RCLike.ofReal_mul]
  refine loewner_smul_le hS.posSemidef ?_
  rw [he]
  have : (1 - d * c1⁻¹ / 2) / d = d⁻¹ - c1⁻¹ / 2 := by field_simp
  rw [this]
  have h5 : d * c1⁻¹ / 2 * d⁻¹ = c1⁻¹ / 2 := by field_simp
  nlinarith [mul_pos (mul_pos hd hk0) hk0]

theorem IIDSamples.huber_consistent (h : IIDSamples P x μ) (hμ : NullSubspaces μ) (hp : 0 < p)
    {lbda beta : ℝ} (hl : 0 < lbda) (hb : 0 < beta) {S : Matrix (Fin p) (Fin p) 𝕜} (hS : S.PosDef)
    (hf : PopSolves (wHuber lbda beta) μ S) (hin : μ {x | qf S x < lbda} ≠ 0) :
    ∀ᵐ ω ∂P, ∀ ε : ℝ, 0 < ε → ∀ᶠ N : ℕ in atTop, Spans (firstSamples x ω N) ∧
      ∀ Q : Matrix (Fin p) (Fin p) 𝕜, Q.PosDef →
      mStep (wHuber lbda beta) (firstSamples x ω N) Q = Q →
      frob (Q - S) < ε ∧ InsideSpans lbda (firstSamples x ω N) Q := by
  let d : ℕ → ℝ := fun n => (1 + 1 / ((n : ℝ) + 1))⁻¹
  have hn : ∀ n : ℕ, (0 : ℝ) < 1 / ((n : ℝ) + 1) := fun n => by positivity
  have hd0 : ∀ n, 0 < d n := fun n => inv_pos.2 (by linarith [hn n])
  have hd1 : ∀ n, d n < 1 := fun n => inv_lt_one_of_one_lt₀ (by linarith [hn n])
  have hdlim : Tendsto d atTop (𝓝 1) := by
    have h1 := (tendsto_one_div_add_atTop_nhds_zero_nat (𝕜 := ℝ)).const_add 1
    rw [add_zero] at h1
    have h2 := h1.inv₀ one_ne_zero
    rwa [inv_one] at h2
  have hmA : ∀ n, MeasurableSet {z : Fin p → 𝕜 | qf S z < d n * lbda} := fun n =>
    measurableSet_lt (continuous_qf S).measurable measurable_const
  -- some of the smaller sets have positive probability
  obtain ⟨n0, hn0⟩ : ∃ n0, μ {z | qf S z < d n0 * lbda} ≠ 0 := by
    by_contra hall
    push Not at hall
    refine hin (measure_mono_null (fun z (hz : qf S z < lbda) => ?_) (measure_iUnion_null hall))
    have h1 : Tendsto (fun n => d n * lbda) atTop (𝓝 lbda) := by
      have := hdlim.mul_const lbda
      rwa [one_mul] at this
    obtain ⟨n, h2⟩ := (h1.eventually (lt_mem_nhds hz)).exists
    exact Set.mem_iUnion.2 ⟨n, h2⟩
  have hdmono : Monotone d := fun m n hmn => by
    refine inv_anti₀ (by linarith [hn n]) ?_
    have := Nat.one_div_le_one_div (α := ℝ) hmn
    linarith
  have hA : ∀ n, n0 ≤ n → μ {z | qf S z < d n * lbda} ≠ 0 := fun n hle h0 =>
    hn0 (measure_mono_null (fun z (hz : qf S z < d n0 * lbda) =>
      lt_of_lt_of_le hz (mul_le_mul_of_nonneg_right (hdmono hle) hl.le)) h0)
  have a1 : ∀ᵐ ω ∂P, ∀ n, ∀ᶠ N : ℕ in atTop, ∀ Q : Matrix (Fin p) (Fin p) 𝕜, Q.PosDef →
      mStep (wHuber lbda beta) (firstSamples x ω N) Q = Q →
      Loewner ((d n : 𝕜) • S) Q ∧ Loewner Q ((((d n)⁻¹ : ℝ) : 𝕜) • S) :=
    ae_all_iff.2 fun n => h.huber_near hμ hp hl hb hS hf hin (hd0 n) (hd1 n)
  have a2 : ∀ᵐ ω ∂P, ∀ n, n0 ≤ n → ∀ᶠ N : ℕ in atTop, ∀ v : Fin p → 𝕜,
      (∀ i : Fin N, x i ω ∈ {z | qf S z < d n * lbda} → star (x i ω) ⬝ᵥ v = 0) → v = 0 := by
    rw [ae_all_iff]; intro n
    by_cases hle : n0 ≤ n
    · filter_upwards [h.inside_spans hμ (hmA n) (hA n hle)] with ω hω _
      exact hω
    · exact Eventually.of_forall fun ω h' => absurd h' hle
  filter_upwards [a1, a2] with ω w1 w2 ε hε
  have htr : 0 ≤ RCLike.re S.trace := (RCLike.nonneg_iff.1 hS.posSemidef.trace_nonneg).1
  obtain ⟨n1, hn1⟩ : ∃ n1 : ℕ, 1 / ((n1 : ℝ) + 1) < ε / (3 * RCLike.re S.trace + 1) :=
    exists_nat_one_div_lt (by positivity)
  set n := max n0 n1
  filter_upwards [w1 n, w2 n (le_max_left _ _)] with N e1 e2
  refine ⟨fun v hv => e2 v fun i _ => hv i, fun Q hQ hfix => ?_⟩
  obtain ⟨k1, k2⟩ := e1 Q hQ hfix
  constructor
  · rw [inv_inv] at k2
    refine lt_of_le_of_lt (frob_squeeze hS (hn n).le k1 k2) ?_
    have h1 : 1 / ((n : ℝ) + 1) ≤ 1 / ((n1 : ℝ) + 1) := Nat.one_div_le_one_div (le_max_right _ _)
    have h2 := lt_of_le_of_lt h1 hn1
    rw [lt_div_iff₀ (by positivity)] at h2
    nlinarith [hn n]
  · intro v hv
    refine e2 v fun i hi => hv i ?_
    have hdS : ((d n : 𝕜) • S).PosDef := hS.smul (by exact_mod_cast hd0 n)
    refine lt_of_le_of_lt (qf_anti hdS k1 _) ?_
    rw [qf_smul hS (hd0 n), div_lt_iff₀ (hd0 n), mul_comm]
    exact hi

end
end RS
