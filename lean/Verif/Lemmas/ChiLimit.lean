import Mathlib.MeasureTheory.Measure.LevyConvergence
import Mathlib.MeasureTheory.Function.ConvergenceInDistribution
import Mathlib.Probability.Distributions.Gaussian.Multivariate

/-! The squared norm of a vector whose projections have normal limits. -/
set_option autoImplicit false

namespace RS
open Filter Topology MeasureTheory ProbabilityTheory

section
variable {Ω : Type*} [MeasurableSpace Ω] {P : Measure Ω} [IsProbabilityMeasure P]
  {E : Type*} [NormedAddCommGroup E] [InnerProductSpace ℝ E] [FiniteDimensional ℝ E] [MeasurableSpace E]
  [BorelSpace E]

/-- If all projections `⟨u, X_N⟩` tend to the centred normal law with variance `c |u|²`, then the
squared norm tends to `c` times a chi-square variable. -/
theorem chi_of_projections {X : ℕ → Ω → E} {c : ℝ} (hc : 0 ≤ c)
    (h : ∀ u : E, TendstoInDistribution (fun N ω => (inner ℝ u (X N ω) : ℝ)) atTop id (fun _ => P)
      (gaussianReal 0 (c * ‖u‖ ^ 2).toNNReal)) {d : ℕ} (hd : Module.finrank ℝ E = d) :
    TendstoInDistribution (fun N ω => ‖X N ω‖ ^ 2) atTop (fun z : Fin d → ℝ => c * ∑ i, z i ^ 2) (fun _ => P)
      (Measure.pi fun _ => gaussianReal 0 1) := by
  subst hd
  have hX : ∀ N, AEMeasurable (X N) P := fun N => by
    have e : X N = fun ω => ∑ i, (inner ℝ (stdOrthonormalBasis ℝ E i) (X N ω) : ℝ) • stdOrthonormalBasis ℝ E i := by
      funext ω
      exact ((stdOrthonormalBasis ℝ E).sum_repr' (X N ω)).symm
    rw [e]
    exact Finset.aemeasurable_fun_sum _ fun i _ => ((h (stdOrthonormalBasis ℝ E i)).forall_aemeasurable N).smul_const _
  have h1 : TendstoInDistribution X atTop (fun x : E => √c • x) (fun _ => P) (stdGaussian E) := by
    refine ⟨hX, by fun_prop, ?_⟩
    refine ProbabilityMeasure.tendsto_of_tendsto_charFun fun u => ?_
    have h1 := (ProbabilityMeasure.tendsto_iff_tendsto_charFun.1 (h u).tendsto) 1
    simp only [ProbabilityMeasure.coe_mk, Measure.map_id, charFun_gaussianReal] at h1
    simp only [ProbabilityMeasure.coe_mk]
    rw [charFun_map_smul, charFun_stdGaussian]
    have e0 : ∀ N, charFun (P.map fun ω => (inner ℝ u (X N ω) : ℝ)) 1 = charFun (P.map (X N)) u := fun N => by
      rw [charFun_apply, charFun_apply, integral_map ((h u).forall_aemeasurable N) (by fun_prop),
        integral_map (hX N) (by fun_prop)]
      refine integral_congr_ae (Eventually.of_forall fun ω => ?_)
      simp only
      rw [real_inner_comm u]
      simp
    refine (h1.congr e0).trans (le_of_eq ?_)
    congr 2
    have e1 : (‖√c • u‖ : ℝ) ^ 2 = c * ‖u‖ ^ 2 := by
      rw [norm_smul, mul_pow, Real.norm_eq_abs, sq_abs, Real.sq_sqrt hc]
    have e2 : ((‖√c • u‖ : ℝ) : ℂ) ^ 2 = ((c * ‖u‖ ^ 2 : ℝ) : ℂ) := by rw [← e1]; push_cast; rfl
    rw [Real.coe_toNNReal _ (by positivity), e2]
    push_cast
    ring
  have h2 := h1.continuous_comp (g := fun x : E => ‖x‖ ^ 2) (by fun_prop)
  have hz : Measurable fun z : Fin (Module.finrank ℝ E) → ℝ => c * ∑ i, z i ^ 2 := by fun_prop
  refine ⟨h2.forall_aemeasurable, hz.aemeasurable, ?_⟩
  have h3 := h2.tendsto
  refine h3.trans (le_of_eq ?_)
  congr 1
  apply Subtype.ext
  simp only
  have hm : Measurable fun x : Fin (Module.finrank ℝ E) → ℝ => ∑ i, x i • stdOrthonormalBasis ℝ E i := by fun_prop
  have hm2 : Measurable ((fun x : E => ‖x‖ ^ 2) ∘ fun x : E => √c • x) := by
    have : Continuous ((fun x : E => ‖x‖ ^ 2) ∘ fun x : E => √c • x) := by fun_prop
    exact this.measurable
  rw [stdGaussian, Measure.map_map hm2 hm]
  congr 1
  funext z
  simp only [Function.comp_apply, norm_smul, mul_pow, Real.norm_eq_abs, sq_abs, Real.sq_sqrt hc]
  congr 1
  rw [← real_inner_self_eq_norm_sq, sum_inner]
  refine Finset.sum_congr rfl fun i _ => ?_
  rw [real_inner_smul_left, (stdOrthonormalBasis ℝ E).orthonormal.inner_right_fintype, pow_two]

theorem chi_null {d : ℕ} (hd : 0 < d) (t : ℝ) :
    (Measure.pi fun _ : Fin d => gaussianReal 0 1) {z | ∑ i, z i ^ 2 = t} = 0 := by
  obtain ⟨n, rfl⟩ : ∃ n, d = n + 1 := ⟨d - 1, by omega⟩
  have hm : MeasurableSet {q : ℝ × (Fin n → ℝ) | q.1 ^ 2 + ∑ i, q.2 i ^ 2 = t} :=
    measurableSet_eq_fun (by fun_prop) measurable_const
  have hp := (measurePreserving_piFinSuccAbove (fun _ : Fin (n + 1) => gaussianReal 0 1) 0).measure_preimage
    hm.nullMeasurableSet
  have he : (MeasurableEquiv.piFinSuccAbove (fun _ : Fin (n + 1) => ℝ) 0) ⁻¹'
      {q : ℝ × (Fin n → ℝ) | q.1 ^ 2 + ∑ i, q.2 i ^ 2 = t} = {z | ∑ i, z i ^ 2 = t} := by
    ext z
    rw [Set.mem_preimage, Set.mem_ofPred_eq, Set.mem_ofPred_eq, Fin.sum_univ_succ]
    rfl
  rw [he] at hp
  rw [hp, Measure.prod_apply_symm hm, lintegral_eq_zero_iff (measurable_measure_prodMk_right hm)]
  refine Eventually.of_forall fun y => ?_
  have hsub : (fun x : ℝ => (x, y)) ⁻¹' {q : ℝ × (Fin n → ℝ) | q.1 ^ 2 + ∑ i, q.2 i ^ 2 = t} ⊆
      {√(t - ∑ i, y i ^ 2), -√(t - ∑ i, y i ^ 2)} := by
    intro x hx
    rw [Set.mem_preimage, Set.mem_ofPred_eq] at hx
    simp only at hx
    have h1 : √(t - ∑ i, y i ^ 2) = |x| := by rw [← hx, add_sub_cancel_right, Real.sqrt_sq_eq_abs]
    rw [h1]
    rcases abs_choice x with h | h <;> rw [h] <;> simp
  have := nullSingletonClass_gaussianReal (μ := 0) (v := 1) one_ne_zero
  exact measure_mono_null hsub (Set.Finite.measure_zero (Set.toFinite _) _)

/-- The probabilities of the tails. -/
theorem chi_tail {Y : ℕ → Ω → ℝ} {d : ℕ} (hd : 0 < d) {c : ℝ} (hc : 0 < c)
    (h : TendstoInDistribution Y atTop (fun z : Fin d → ℝ => c * ∑ i, z i ^ 2) (fun _ => P)
      (Measure.pi fun _ => gaussianReal 0 1)) (t : ℝ) :
    Tendsto (fun N => P {ω | c * t ≤ Y N ω}) atTop
      (𝓝 ((Measure.pi fun _ : Fin d => gaussianReal 0 1) {z | t ≤ ∑ i, z i ^ 2})) := by
  have hz : Measurable fun z : Fin d → ℝ => c * ∑ i, z i ^ 2 := by fun_prop
  have hs : ∀ u : ℝ, (fun z : Fin d → ℝ => c * ∑ i, z i ^ 2) ⁻¹' {c * u} = {z | ∑ i, z i ^ 2 = u} := fun u => by
    ext z
    simp [hc.ne']
  have h1 := ProbabilityMeasure.tendsto_measure_of_null_frontier_of_tendsto' h.tendsto (E := Set.Ici (c * t)) (by
    rw [frontier_Ici]
    simp only [ProbabilityMeasure.coe_mk]
    rw [Measure.map_apply hz (measurableSet_singleton _), hs, chi_null hd])
  simp only [ProbabilityMeasure.coe_mk] at h1
  rw [Measure.map_apply hz measurableSet_Ici] at h1
  have e : (fun z : Fin d → ℝ => c * ∑ i, z i ^ 2) ⁻¹' Set.Ici (c * t) = {z | t ≤ ∑ i, z i ^ 2} := by
    ext z
    simp only [Set.mem_preimage, Set.mem_Ici, Set.mem_ofPred_eq]
    exact mul_le_mul_iff_right₀ hc
  rw [e] at h1
  refine h1.congr fun N => ?_
  rw [Measure.map_apply_of_aemeasurable (h.forall_aemeasurable N) measurableSet_Ici]
  rfl

/-- The tail probabilities decrease strictly. -/
theorem chi_tail_lt {d : ℕ} (hd : 0 < d) {s t : ℝ} (hs : 0 < s) (hst : s < t) :
    (Measure.pi fun _ : Fin d => gaussianReal 0 1) {z | t ≤ ∑ i, z i ^ 2} <
      (Measure.pi fun _ : Fin d => gaussianReal 0 1) {z | s ≤ ∑ i, z i ^ 2} := by
  have hpos : (gaussianReal 0 1).IsOpenPosMeasure :=
    (gaussianReal_absolutelyContinuous' 0 one_ne_zero).isOpenPosMeasure
  have hcont : Continuous fun z : Fin d → ℝ => ∑ i, z i ^ 2 := by fun_prop
  have hopen : IsOpen {z : Fin d → ℝ | s < ∑ i, z i ^ 2 ∧ ∑ i, z i ^ 2 < t} :=
    (isOpen_lt continuous_const hcont).inter (isOpen_lt hcont continuous_const)
  have hne : {z : Fin d → ℝ | s < ∑ i, z i ^ 2 ∧ ∑ i, z i ^ 2 < t}.Nonempty := by
    refine ⟨fun i => if i = ⟨0, hd⟩ then √((s + t) / 2) else 0, ?_⟩
    have : ∑ i : Fin d, (if i = ⟨0, hd⟩ then √((s + t) / 2) else 0) ^ 2 = (s + t) / 2 := by
      rw [Finset.sum_eq_single ⟨0, hd⟩ (fun i _ hi => by simp [hi]) (by simp), if_pos rfl,
        Real.sq_sqrt (by linarith)]
    rw [Set.mem_ofPred_eq, this]
    constructor <;> linarith
  have h1 := hopen.measure_pos (Measure.pi fun _ : Fin d => gaussianReal 0 1) hne
  have hm : MeasurableSet {z : Fin d → ℝ | t ≤ ∑ i, z i ^ 2} := measurableSet_le measurable_const hcont.measurable
  have hdisj : Disjoint {z : Fin d → ℝ | s < ∑ i, z i ^ 2 ∧ ∑ i, z i ^ 2 < t} {z : Fin d → ℝ | t ≤ ∑ i, z i ^ 2} :=
    Set.disjoint_left.2 fun z hz hz' => absurd hz.2 (not_lt.2 hz')
  calc (Measure.pi fun _ : Fin d => gaussianReal 0 1) {z | t ≤ ∑ i, z i ^ 2}
      < (Measure.pi fun _ : Fin d => gaussianReal 0 1) {z : Fin d → ℝ | s < ∑ i, z i ^ 2 ∧ ∑ i, z i ^ 2 < t} +
        (Measure.pi fun _ : Fin d => gaussianReal 0 1) {z | t ≤ ∑ i, z i ^ 2} := by
        rw [add_comm]
        exact ENNReal.lt_add_right (measure_ne_top _ _) h1.ne'
    _ = _ := (measure_union hdisj hm).symm
    _ ≤ _ := measure_mono fun z hz => by
        rcases hz with hz | hz
        · exact hz.1.le
        · exact hst.le.trans hz

end
end RS
