import Verif.Lemmas.ConsistDet
import Verif.Spec.Consist
import Mathlib.Probability.StrongLaw
import Mathlib.Analysis.Normed.Module.FiniteDimension
import Mathlib.MeasureTheory.Integral.DominatedConvergence

/-! Large samples: general position, the population cost, and the uniform law of large numbers for
the cost on a sphere around the population estimate. -/
set_option autoImplicit false

namespace RS
open Matrix ComplexOrder Filter Topology MeasureTheory ProbabilityTheory

section
set_option linter.unusedSectionVars false
variable {𝕜 : Type} [RCLike 𝕜] [MeasurableSpace 𝕜] [BorelSpace 𝕜] {N p : ℕ}
variable {Ω : Type*} [MeasurableSpace Ω] {P : Measure Ω} [IsProbabilityMeasure P]
  {x : ℕ → Ω → Fin p → 𝕜} {μ : Measure (Fin p → 𝕜)}

omit [BorelSpace 𝕜] in
theorem IIDSamples.prob (h : IIDSamples P x μ) : IsProbabilityMeasure μ := by
  rw [← h.law 0]
  exact Measure.isProbabilityMeasure_map (h.meas 0).aemeasurable

omit [IsProbabilityMeasure P] [BorelSpace 𝕜] in
theorem IIDSamples.ae_all (h : IIDSamples P x μ) {s : (Fin p → 𝕜) → Prop}
    (hs : ∀ᵐ y ∂μ, s y) : ∀ᵐ ω ∂P, ∀ i, s (x i ω) := by
  rw [ae_all_iff]
  intro i
  rw [← h.law i] at hs
  exact ae_of_ae_map (h.meas i).aemeasurable hs

/-- At most `p` samples are linearly independent. -/
theorem IIDSamples.independent (h : IIDSamples P x μ) (hμ : NullSubspaces μ) :
    ∀ k : ℕ, k ≤ p → ∀ f : Fin k → ℕ, Function.Injective f →
      ∀ᵐ ω ∂P, LinearIndependent 𝕜 fun i => x (f i) ω := by
  classical
  have := h.prob
  intro k
  induction k with
  | zero => intro _ f _; exact Eventually.of_forall fun ω => linearIndependent_empty_type
  | succ k ih =>
    intro hk f hf
    have h1 := ih (by omega) (fun i => f i.castSucc) fun a b hab =>
      Fin.castSucc_injective k (hf hab)
    let v : Ω → Fin k → Fin p → 𝕜 := fun ω i => x (f i.castSucc) ω
    have hv : Measurable v := measurable_pi_lambda _ fun i => h.meas _
    have hind : IndepFun v (x (f (Fin.last k))) P := by
      let S : Finset ℕ := Finset.univ.image fun i : Fin k => f i.castSucc
      let T : Finset ℕ := {f (Fin.last k)}
      have hST : Disjoint S T := by
        rw [Finset.disjoint_singleton_right, Finset.mem_image]
        rintro ⟨i, -, hi⟩
        exact absurd (hf hi) (Fin.castSucc_lt_last i).ne
      have := h.indep.indepFun_finset S T hST h.meas
      exact this.comp
        (φ := fun (g : S → Fin p → 𝕜) (i : Fin k) =>
          g ⟨f i.castSucc, Finset.mem_image_of_mem _ (Finset.mem_univ i)⟩)
        (ψ := fun (g : T → Fin p → 𝕜) => g ⟨f (Fin.last k), Finset.mem_singleton_self _⟩)
        (measurable_pi_lambda _ fun i => measurable_pi_apply _) (measurable_pi_apply _)
    let B : Set ((Fin k → Fin p → 𝕜) × (Fin p → 𝕜)) :=
      {q | LinearIndependent 𝕜 (Fin.snoc q.1 q.2 : Fin (k + 1) → Fin p → 𝕜)}
    have hcont : Continuous fun q : (Fin k → Fin p → 𝕜) × (Fin p → 𝕜) =>
        (Fin.snoc q.1 q.2 : Fin (k + 1) → Fin p → 𝕜) := by
      refine continuous_pi fun i => ?_
      refine Fin.lastCases ?_ (fun j => ?_) i
      · simpa using continuous_snd
      · simp only [Fin.snoc_castSucc]
        exact (continuous_apply j).comp continuous_fst
    have hB : MeasurableSet B :=
      ((isOpen_setOfPred_linearIndependent (𝕜 := 𝕜) (E := Fin p → 𝕜)).preimage hcont).measurableSet
    have hmap := (indepFun_iff_map_prod_eq_prod_map_map hv.aemeasurable
      (h.meas (f (Fin.last k))).aemeasurable).1 hind
    have hvP : IsProbabilityMeasure (P.map v) := Measure.isProbabilityMeasure_map hv.aemeasurable
    have hnull : (P.map fun ω => (v ω, x (f (Fin.last k)) ω)) Bᶜ = 0 := by
      rw [hmap, h.law, Measure.measure_prod_null hB.compl]
      have hi : ∀ᵐ u ∂(P.map v), LinearIndependent 𝕜 u := by
        rw [ae_map_iff hv.aemeasurable isOpen_setOfPred_linearIndependent.measurableSet]
        exact h1
      filter_upwards [hi] with u hu
      have hsub : Prod.mk u ⁻¹' Bᶜ ⊆ (Submodule.span 𝕜 (Set.range u) : Set (Fin p → 𝕜)) := by
        intro y hy
        by_contra hcon
        exact hy (linearIndependent_finSnoc.2 ⟨hu, hcon⟩)
      refine measure_mono_null hsub (hμ _ fun htop => ?_)
      have h2 := finrank_span_eq_card hu
      rw [htop, finrank_top, Module.finrank_fin_fun, Fintype.card_fin] at h2
      omega
    have h3 : ∀ᵐ ω ∂P, (v ω, x (f (Fin.last k)) ω) ∈ B := by
      rw [Measure.map_apply (hv.prodMk (h.meas _)) hB.compl] at hnull
      exact hnull
    filter_upwards [h3] with ω hω
    have e : (fun i => x (f i) ω) = (Fin.snoc (v ω) (x (f (Fin.last k)) ω) : Fin (k + 1) → Fin p → 𝕜) := by
      funext i
      refine Fin.lastCases ?_ (fun j => ?_) i
      · simp
      · simp [v]
    rw [e]
    exact hω

/-- The samples are almost surely in general position. -/
theorem IIDSamples.generalPosition (h : IIDSamples P x μ) (hμ : NullSubspaces μ) :
    ∀ᵐ ω ∂P, ∀ N, GeneralPosition (firstSamples x ω N) := by
  have h1 : ∀ᵐ ω ∂P, ∀ k : ℕ, k ≤ p → ∀ f : Fin k → ℕ, Function.Injective f →
      LinearIndependent 𝕜 fun i => x (f i) ω := by
    rw [ae_all_iff]; intro k
    by_cases hk : k ≤ p
    · have : ∀ᵐ ω ∂P, ∀ f : Fin k → ℕ, Function.Injective f →
        LinearIndependent 𝕜 fun i => x (f i) ω := by
        rw [ae_all_iff]; intro f
        by_cases hf : Function.Injective f
        · filter_upwards [h.independent hμ k hk f hf] with ω hω _ using hω
        · exact Eventually.of_forall fun ω hf' => absurd hf' hf
      filter_upwards [this] with ω hω _ using hω
    · exact Eventually.of_forall fun ω hk' => absurd hk' hk
  filter_upwards [h1] with ω hω N V hV
  by_contra hcon
  push Not at hcon
  set d := Module.finrank 𝕜 V
  have hd := finrank_lt_p hV
  unfold samplesIn at hcon
  have hfin : Finite {i : Fin N // sample (firstSamples x ω N) i ∈ V} := inferInstance
  have : Fintype {i : Fin N // sample (firstSamples x ω N) i ∈ V} := Fintype.ofFinite _
  rw [Nat.card_eq_fintype_card] at hcon
  obtain ⟨g⟩ : Nonempty (Fin (d + 1) ↪ {i : Fin N // sample (firstSamples x ω N) i ∈ V}) :=
    Function.Embedding.nonempty_of_card_le (by rw [Fintype.card_fin]; omega)
  have hli := hω (d + 1) (by omega) (fun i => ((g i).1 : ℕ)) fun a b hab =>
    g.injective (Subtype.ext (Fin.ext hab))
  have hli' : LinearIndependent 𝕜 fun i : Fin (d + 1) =>
      (⟨x ((g i).1 : ℕ) ω, (g i).2⟩ : V) := LinearIndependent.of_comp V.subtype hli
  have := hli'.fintype_card_le_finrank
  rw [Fintype.card_fin] at this
  omega

omit [BorelSpace 𝕜] [MeasurableSpace 𝕜] in
theorem continuous_qf (S : Matrix (Fin p) (Fin p) 𝕜) : Continuous (qf S) := by
  unfold qf
  exact RCLike.continuous_re.comp (continuous_id.star.dotProduct
    (Continuous.matrix_mulVec continuous_const continuous_id))

theorem psi_measurable (nu : ℝ) (U R : Matrix (Fin p) (Fin p) 𝕜) (m : Fin p → ℝ) :
    Measurable fun x : Fin p → 𝕜 => psi nu U m (R *ᵥ x) := by
  have hc : ∀ A : Matrix (Fin p) (Fin p) 𝕜, ∀ j, Measurable fun x : Fin p → 𝕜 => ‖(A *ᵥ x) j‖ :=
    fun A j => ((continuous_apply j).comp
      (Continuous.matrix_mulVec continuous_const continuous_id)).norm.measurable
  have e : (fun x : Fin p → 𝕜 => psi nu U m (R *ᵥ x)) = fun x =>
      (nu + p) * (Real.log (nu + ∑ j, ‖((Uᴴ * R) *ᵥ x) j‖ ^ 2 * Real.exp (-m j)) -
      Real.log (nu + ∑ j, ‖(R *ᵥ x) j‖ ^ 2)) + ∑ j, m j := by
    funext x; unfold psi; rw [mulVec_mulVec]
  rw [e]
  have h1 := fun j => (hc (Uᴴ * R) j)
  have h2 := fun j => (hc R j)
  fun_prop

theorem psi_integrable [IsProbabilityMeasure μ] {nu : ℝ} (hnu : 0 ≤ nu)
    {U : Matrix (Fin p) (Fin p) 𝕜} (hU : Uᴴ * U = 1) (R : Matrix (Fin p) (Fin p) 𝕜) (m : Fin p → ℝ)
    (hpos : ∀ᵐ x ∂μ, 0 < nu + ∑ j, ‖(R *ᵥ x) j‖ ^ 2) :
    Integrable (fun x => psi nu U m (R *ᵥ x)) μ := by
  refine (integrable_const ((nu + p) * ‖m‖ + |∑ j, m j|)).mono'
    (psi_measurable nu U R m).aestronglyMeasurable ?_
  filter_upwards [hpos] with x hx
  exact psi_bound hnu hU m _ hx

/-- The law of large numbers for the cost, uniformly over a sphere around the population estimate. -/
theorem IIDSamples.sphere (h : IIDSamples P x μ) {nu : ℝ} (hnu : 0 ≤ nu)
    (R : Matrix (Fin p) (Fin p) 𝕜) (hpos : ∀ᵐ x ∂μ, 0 < nu + ∑ j, ‖(R *ᵥ x) j‖ ^ 2)
    (M : Submodule ℝ (Fin p → ℝ)) {δ : ℝ}
    (hpop : ∀ (U : Matrix (Fin p) (Fin p) 𝕜) (m : Fin p → ℝ), Uᴴ * U = 1 → m ∈ M → ‖m‖ = δ →
      0 < ∫ x, psi nu U m (R *ᵥ x) ∂μ) :
    ∀ᵐ ω ∂P, ∀ᶠ N : ℕ in atTop, ∀ (U : Matrix (Fin p) (Fin p) 𝕜) (m : Fin p → ℝ), Uᴴ * U = 1 →
      m ∈ M → ‖m‖ = δ → 0 < ∑ i ∈ Finset.range N, psi nu U m (R *ᵥ x i ω) := by
  have := h.prob
  have key := (isCompact_sphere_param (𝕜 := 𝕜) M δ).induction_on
    (p := fun s => ∀ᵐ ω ∂P, ∀ᶠ N : ℕ in atTop, ∀ z ∈ s, z.1ᴴ * z.1 = 1 → z.2 ∈ M → ‖z.2‖ = δ →
      0 < ∑ i ∈ Finset.range N, psi nu z.1 z.2 (R *ᵥ x i ω))
    (Eventually.of_forall fun ω => Eventually.of_forall fun N z hz => absurd hz (Set.notMem_empty z))
    (fun s t hst ht => by
      filter_upwards [ht] with ω hω
      filter_upwards [hω] with N hN z hz using hN z (hst hz))
    (fun s t hs ht => by
      filter_upwards [hs, ht] with ω h1 h2
      filter_upwards [h1, h2] with N h1 h2 z hz
      rcases hz with hz | hz
      · exact h1 z hz
      · exact h2 z hz)
    ?_
  · filter_upwards [key] with ω hω
    filter_upwards [hω] with N hN U m hU hm hd using hN (U, m) ⟨hU, hm, hd⟩ hU hm hd
  · rintro ⟨U₀, m₀⟩ ⟨hU₀, hm₀, hd₀⟩
    have hI := hpop U₀ m₀ hU₀ hm₀ hd₀
    set I := ∫ x, psi nu U₀ m₀ (R *ᵥ x) ∂μ with hIdef
    refine ⟨_, mem_nhdsWithin_of_mem_nhds (psi_uniform hnu U₀ hU₀ m₀ (half_pos hI)), ?_⟩
    have hmeas := psi_measurable nu U₀ R m₀
    have hint := psi_integrable hnu hU₀ R m₀ hpos
    have hslln := strong_law_ae_real (μ := P) (fun i ω => psi nu U₀ m₀ (R *ᵥ x i ω))
      (by
        have := hint
        rw [← h.law 0] at this
        exact this.comp_measurable (h.meas 0))
      (fun i j hij => (h.indep.indepFun hij).comp hmeas hmeas)
      (fun i => (IdentDistrib.mk (h.meas i).aemeasurable (h.meas 0).aemeasurable
        (by rw [h.law i, h.law 0])).comp hmeas)
    have hmean : ∫ ω, psi nu U₀ m₀ (R *ᵥ x 0 ω) ∂P = I := by
      rw [hIdef, ← h.law 0, integral_map (h.meas 0).aemeasurable hmeas.aestronglyMeasurable]
    filter_upwards [hslln, h.ae_all hpos] with ω hω hall
    rw [hmean] at hω
    have hev := hω.eventually (lt_mem_nhds (half_lt_self hI))
    filter_upwards [hev, eventually_gt_atTop 0] with N hN hN0 z hz hzU _ _
    have hN' : (0 : ℝ) < N := by exact_mod_cast hN0
    rw [lt_div_iff₀ hN'] at hN
    have hle : ∑ i ∈ Finset.range N, psi nu U₀ m₀ (R *ᵥ x i ω) ≤
        ∑ i ∈ Finset.range N, (psi nu z.1 z.2 (R *ᵥ x i ω) + I / 2) :=
      Finset.sum_le_sum fun i _ => by
        have := (abs_le.1 (hz hzU (R *ᵥ x i ω) (hall i))).1
        linarith
    rw [Finset.sum_add_distrib, Finset.sum_const, Finset.card_range, nsmul_eq_mul] at hle
    linarith

theorem ne_zero_ae (hμ : NullSubspaces μ) (hp : 0 < p) : ∀ᵐ x ∂μ, x ≠ 0 := by
  have hb : (⊥ : Submodule 𝕜 (Fin p → 𝕜)) ≠ ⊤ := by
    have : Nonempty (Fin p) := ⟨⟨0, hp⟩⟩
    exact bot_ne_top
  have h0 := hμ ⊥ hb
  rw [ae_iff]
  simpa using h0

theorem nsq_pos {nu : ℝ} (hnu : 0 ≤ nu) {R : Matrix (Fin p) (Fin p) 𝕜} (hR : IsUnit R)
    {x : Fin p → 𝕜} (hx : x ≠ 0) : 0 < nu + ∑ j, ‖(R⁻¹ *ᵥ x) j‖ ^ 2 := by
  have hy : R⁻¹ *ᵥ x ≠ 0 := fun h => hx <| by
    have : x = R *ᵥ (R⁻¹ *ᵥ x) := by
      rw [mulVec_mulVec, Matrix.mul_nonsing_inv R ((Matrix.isUnit_iff_isUnit_det R).1 hR), one_mulVec]
    rw [this, h, mulVec_zero]
  obtain ⟨j, hj⟩ := Function.ne_iff.1 hy
  have : 0 < ∑ j, ‖(R⁻¹ *ᵥ x) j‖ ^ 2 := Finset.sum_pos' (fun j _ => sq_nonneg _)
    ⟨j, Finset.mem_univ j, pow_pos (norm_pos_iff.2 hj) 2⟩
  linarith

theorem qf_factor {R : Matrix (Fin p) (Fin p) 𝕜} (hR : IsUnit R) (x : Fin p → 𝕜) :
    qf (R * Rᴴ) x = ∑ j, ‖(R⁻¹ *ᵥ x) j‖ ^ 2 := by
  have := param_qf hR (U := 1) (by simp) 0 x
  simpa using this

/-- The weighted second moments of all linear images of the whitened sample come from one matrix. -/
theorem pop_lin (μ : Measure (Fin p → 𝕜)) [IsProbabilityMeasure μ] {nu : ℝ} (hnu : 0 ≤ nu)
    (R : Matrix (Fin p) (Fin p) 𝕜) :
    ∃ Γ : Matrix (Fin p) (Fin p) 𝕜, ∀ (A : Matrix (Fin p) (Fin p) 𝕜) (a b : Fin p),
      Integrable (fun x => (((nu + p) / (nu + ∑ k, ‖(R⁻¹ *ᵥ x) k‖ ^ 2) : ℝ) : 𝕜) *
        ((A *ᵥ (R⁻¹ *ᵥ x)) a * star ((A *ᵥ (R⁻¹ *ᵥ x)) b))) μ ∧
      ∫ x, (((nu + p) / (nu + ∑ k, ‖(R⁻¹ *ᵥ x) k‖ ^ 2) : ℝ) : 𝕜) *
        ((A *ᵥ (R⁻¹ *ᵥ x)) a * star ((A *ᵥ (R⁻¹ *ᵥ x)) b)) ∂μ = (A * Γ * Aᴴ) a b := by
  let w : (Fin p → 𝕜) → ℝ := fun x => (nu + p) / (nu + ∑ k, ‖(R⁻¹ *ᵥ x) k‖ ^ 2)
  let g : Fin p → Fin p → (Fin p → 𝕜) → 𝕜 := fun c d x =>
    (w x : 𝕜) * ((R⁻¹ *ᵥ x) c * star ((R⁻¹ *ᵥ x) d))
  have hcoord : ∀ c, Measurable fun x : Fin p → 𝕜 => (R⁻¹ *ᵥ x) c := fun c =>
    ((continuous_apply c).comp (Continuous.matrix_mulVec continuous_const continuous_id)).measurable
  have hw : Measurable w := by
    have := fun c => (hcoord c).norm
    simp only [w]
    fun_prop
  have hgm : ∀ c d, Measurable (g c d) := fun c d => by
    have h1 := hcoord c
    have h2 : Measurable fun x : Fin p → 𝕜 => star ((R⁻¹ *ᵥ x) d) :=
      continuous_star.measurable.comp (hcoord d)
    have h3 : Measurable fun x : Fin p → 𝕜 => (w x : 𝕜) := RCLike.continuous_ofReal.measurable.comp hw
    exact h3.mul (h1.mul h2)
  have hgb : ∀ c d x, ‖g c d x‖ ≤ nu + p := fun c d x => by
    have h1 : ‖(R⁻¹ *ᵥ x) c‖ ^ 2 ≤ ∑ j, ‖(R⁻¹ *ᵥ x) j‖ ^ 2 := Finset.single_le_sum
      (f := fun j => ‖(R⁻¹ *ᵥ x) j‖ ^ 2) (fun j _ => sq_nonneg _) (Finset.mem_univ c)
    have h2 : ‖(R⁻¹ *ᵥ x) d‖ ^ 2 ≤ ∑ j, ‖(R⁻¹ *ᵥ x) j‖ ^ 2 := Finset.single_le_sum
      (f := fun j => ‖(R⁻¹ *ᵥ x) j‖ ^ 2) (fun j _ => sq_nonneg _) (Finset.mem_univ d)
    have h3 : ‖(R⁻¹ *ᵥ x) c‖ * ‖(R⁻¹ *ᵥ x) d‖ ≤ nu + ∑ j, ‖(R⁻¹ *ᵥ x) j‖ ^ 2 := by
      nlinarith [sq_nonneg (‖(R⁻¹ *ᵥ x) c‖ - ‖(R⁻¹ *ᵥ x) d‖)]
    have hs : 0 ≤ nu + ∑ j, ‖(R⁻¹ *ᵥ x) j‖ ^ 2 :=
      add_nonneg hnu (Finset.sum_nonneg fun j _ => sq_nonneg _)
    simp only [g, norm_mul, norm_star, RCLike.norm_ofReal, w]
    rw [abs_of_nonneg (div_nonneg (by positivity) hs), div_mul_eq_mul_div]
    exact div_le_of_le_mul₀ hs (by positivity) (mul_le_mul_of_nonneg_left h3 (by positivity))
  have hgi : ∀ c d, Integrable (g c d) μ := fun c d =>
    (integrable_const (nu + p : ℝ)).mono' (hgm c d).aestronglyMeasurable
      (Eventually.of_forall fun x => hgb c d x)
  let Γ : Matrix (Fin p) (Fin p) 𝕜 := Matrix.of fun c d => ∫ x, g c d x ∂μ
  have hexp : ∀ (A : Matrix (Fin p) (Fin p) 𝕜) a b x,
      (w x : 𝕜) * ((A *ᵥ (R⁻¹ *ᵥ x)) a * star ((A *ᵥ (R⁻¹ *ᵥ x)) b)) =
        ∑ c, ∑ d, A a c * star (A b d) * g c d x := fun A a b x => by
    rw [show (A *ᵥ (R⁻¹ *ᵥ x)) a = ∑ c, A a c * (R⁻¹ *ᵥ x) c from rfl,
      show (A *ᵥ (R⁻¹ *ᵥ x)) b = ∑ d, A b d * (R⁻¹ *ᵥ x) d from rfl, star_sum,
      Finset.sum_mul_sum, Finset.mul_sum]
    refine Finset.sum_congr rfl fun c _ => ?_
    rw [Finset.mul_sum]
    refine Finset.sum_congr rfl fun d _ => ?_
    simp only [g, star_mul']
    ring
  have hlin : ∀ (A : Matrix (Fin p) (Fin p) 𝕜) a b,
      Integrable (fun x => (w x : 𝕜) * ((A *ᵥ (R⁻¹ *ᵥ x)) a * star ((A *ᵥ (R⁻¹ *ᵥ x)) b))) μ ∧
      ∫ x, (w x : 𝕜) * ((A *ᵥ (R⁻¹ *ᵥ x)) a * star ((A *ᵥ (R⁻¹ *ᵥ x)) b)) ∂μ = (A * Γ * Aᴴ) a b := by
    intro A a b
    simp only [hexp]
    refine ⟨integrable_finsetSum _ fun c _ => integrable_finsetSum _ fun d _ =>
      (hgi c d).const_mul _, ?_⟩
    rw [integral_finsetSum _ fun c _ => integrable_finsetSum _ fun d _ => (hgi c d).const_mul _]
    simp only [Matrix.mul_apply, conjTranspose_apply, Finset.sum_mul]
    rw [Finset.sum_comm]
    refine Finset.sum_congr rfl fun c _ => ?_
    rw [integral_finsetSum _ fun d _ => (hgi c d).const_mul _]
    refine Finset.sum_congr rfl fun d _ => ?_
    rw [integral_const_mul]
    simp only [Γ, Matrix.of_apply]
    ring
  exact ⟨Γ, hlin⟩

/-- The population equation in whitened coordinates. -/
theorem pop_white [IsProbabilityMeasure μ] {nu : ℝ} (hnu : 0 ≤ nu)
    {R : Matrix (Fin p) (Fin p) 𝕜} (hR : IsUnit R) (hf : PopFixed nu μ (R * Rᴴ))
    {U : Matrix (Fin p) (Fin p) 𝕜} (hU : Uᴴ * U = 1) (j : Fin p) :
    Integrable (fun x => (nu + p) / (nu + ∑ k, ‖(R⁻¹ *ᵥ x) k‖ ^ 2) *
      ‖(Uᴴ *ᵥ (R⁻¹ *ᵥ x)) j‖ ^ 2) μ ∧
    ∫ x, (nu + p) / (nu + ∑ k, ‖(R⁻¹ *ᵥ x) k‖ ^ 2) * ‖(Uᴴ *ᵥ (R⁻¹ *ᵥ x)) j‖ ^ 2 ∂μ = 1 := by
  have hRd := (Matrix.isUnit_iff_isUnit_det R).1 hR
  let w : (Fin p → 𝕜) → ℝ := fun x => (nu + p) / (nu + ∑ k, ‖(R⁻¹ *ᵥ x) k‖ ^ 2)
  obtain ⟨Γ, hlin⟩ := pop_lin μ hnu R
  have hG : R * Γ * Rᴴ = R * Rᴴ := by
    ext a b
    rw [← (hlin R a b).2, ← hf a b]
    refine integral_congr_ae (Eventually.of_forall fun x => ?_)
    simp only
    rw [mulVec_mulVec, Matrix.mul_nonsing_inv R hRd, one_mulVec, qf_factor hR]
  have hG1 : Γ = 1 := by
    have h1 : R⁻¹ * R = 1 := Matrix.nonsing_inv_mul R hRd
    have h2 : Rᴴ * R⁻¹ᴴ = 1 := by rw [← conjTranspose_mul, h1, conjTranspose_one]
    calc Γ = (R⁻¹ * R) * Γ * (Rᴴ * R⁻¹ᴴ) := by rw [h1, h2, Matrix.one_mul, Matrix.mul_one]
      _ = R⁻¹ * (R * Γ * Rᴴ) * R⁻¹ᴴ := by simp only [Matrix.mul_assoc]
      _ = (R⁻¹ * R) * (Rᴴ * R⁻¹ᴴ) := by rw [hG]; simp only [Matrix.mul_assoc]
      _ = 1 := by rw [h1, h2, Matrix.one_mul]
  obtain ⟨hi, he⟩ := hlin Uᴴ j j
  rw [hG1, Matrix.mul_one, conjTranspose_conjTranspose, hU, one_apply_eq] at he
  have e : ∀ x, (w x : 𝕜) * ((Uᴴ *ᵥ (R⁻¹ *ᵥ x)) j * star ((Uᴴ *ᵥ (R⁻¹ *ᵥ x)) j)) =
      ((w x * ‖(Uᴴ *ᵥ (R⁻¹ *ᵥ x)) j‖ ^ 2 : ℝ) : 𝕜) := fun x => by
    rw [RCLike.star_def, RCLike.mul_conj]; push_cast; rfl
  rw [integral_congr_ae (Eventually.of_forall e)] at he
  replace hi := hi.congr (Eventually.of_forall e)
  have hi' : Integrable (fun x => w x * ‖(Uᴴ *ᵥ (R⁻¹ *ᵥ x)) j‖ ^ 2) μ := by
    have := hi.re
    simpa only [RCLike.ofReal_re] using this
  refine ⟨hi', ?_⟩
  rw [integral_ofReal] at he
  exact_mod_cast he

/-- The population cost is strictly larger away from the solution of the population equation. -/
theorem pop_pos [IsProbabilityMeasure μ] {nu : ℝ} (hnu : 0 ≤ nu) (hμ : NullSubspaces μ) (hp : 0 < p)
    {R : Matrix (Fin p) (Fin p) 𝕜} (hR : IsUnit R) (hf : PopFixed nu μ (R * Rᴴ))
    {U : Matrix (Fin p) (Fin p) 𝕜} (hU : Uᴴ * U = 1) {m : Fin p → ℝ} (hm : m ≠ 0)
    (hs : 0 < nu ∨ ∑ j, m j = 0) : 0 < ∫ x, psi nu U m (R⁻¹ *ᵥ x) ∂μ := by
  have hne := ne_zero_ae hμ hp
  have hpos : ∀ᵐ x ∂μ, 0 < nu + ∑ j, ‖(R⁻¹ *ᵥ x) j‖ ^ 2 := by
    filter_upwards [hne] with x hx using nsq_pos hnu hR hx
  have hint := psi_integrable hnu hU R⁻¹ m hpos
  let low : (Fin p → 𝕜) → ℝ := fun x => ∑ j, m j * (1 -
    (nu + p) / (nu + ∑ k, ‖(R⁻¹ *ᵥ x) k‖ ^ 2) * ‖(Uᴴ *ᵥ (R⁻¹ *ᵥ x)) j‖ ^ 2)
  have hli : ∀ j, Integrable (fun x => m j * (1 -
      (nu + p) / (nu + ∑ k, ‖(R⁻¹ *ᵥ x) k‖ ^ 2) * ‖(Uᴴ *ᵥ (R⁻¹ *ᵥ x)) j‖ ^ 2)) μ := fun j =>
    ((integrable_const 1).sub (pop_white hnu hR hf hU j).1).const_mul _
  have hlow : ∫ x, low x ∂μ = 0 := by
    simp only [low]
    rw [integral_finsetSum _ fun j _ => hli j]
    refine Finset.sum_eq_zero fun j _ => ?_
    rw [integral_const_mul, integral_sub (integrable_const 1) (pop_white hnu hR hf hU j).1,
      (pop_white hnu hR hf hU j).2]
    simp
  have hlowi : Integrable low μ := integrable_finsetSum _ fun j _ => hli j
  have hexp : ∀ x, ∑ j, ‖(Uᴴ *ᵥ (R⁻¹ *ᵥ x)) j‖ ^ 2 * Real.exp (-m j) =
      ∑ j, ‖(Uᴴ *ᵥ (R⁻¹ *ᵥ x)) j‖ ^ 2 / Real.exp (m j) := fun x => by
    simp only [Real.exp_neg, div_eq_mul_inv]
  have hlow_eq : ∀ x, low x = ∑ j, m j - (nu + p) * ((∑ j, ‖(Uᴴ *ᵥ (R⁻¹ *ᵥ x)) j‖ ^ 2 *
      Real.log (Real.exp (m j))) / (nu + ∑ k, ‖(R⁻¹ *ᵥ x) k‖ ^ 2)) := fun x => by
    simp only [low, Real.log_exp]
    rw [Finset.sum_div, Finset.mul_sum, ← Finset.sum_sub_distrib]
    refine Finset.sum_congr rfl fun j _ => ?_
    ring
  have hge : ∀ᵐ x ∂μ, 0 ≤ psi nu U m (R⁻¹ *ᵥ x) - low x := by
    filter_upwards [hpos] with x hx
    have hx' : 0 < nu + ∑ j, ‖(Uᴴ *ᵥ (R⁻¹ *ᵥ x)) j‖ ^ 2 := by rwa [unitary_nsq hU]
    have hj := jensen_log hnu (fun j => ‖(Uᴴ *ᵥ (R⁻¹ *ᵥ x)) j‖ ^ 2) (fun j => Real.exp (m j))
      (fun j => sq_nonneg _) (fun j => Real.exp_pos _) hx'
    rw [unitary_nsq hU] at hj
    have := mul_le_mul_of_nonneg_left hj (by positivity : 0 ≤ nu + (p : ℝ))
    rw [hlow_eq]
    unfold psi
    rw [hexp]
    linarith
  by_contra hcon
  push Not at hcon
  have hz : ∫ x, (psi nu U m (R⁻¹ *ᵥ x) - low x) ∂μ = 0 := by
    refine le_antisymm ?_ (integral_nonneg_of_ae hge)
    rw [integral_sub hint hlowi, hlow, sub_zero]
    exact hcon
  have hae := (integral_eq_zero_iff_of_nonneg_ae hge (hint.sub hlowi)).1 hz
  have hcoord : ∀ᵐ x ∂μ, ∀ j, (Uᴴ *ᵥ (R⁻¹ *ᵥ x)) j ≠ 0 := by
    rw [ae_all_iff]
    intro j
    let f : (Fin p → 𝕜) →ₗ[𝕜] 𝕜 := (LinearMap.proj j).comp (Matrix.mulVecLin (Uᴴ * R⁻¹))
    have hV : LinearMap.ker f ≠ ⊤ := fun h => by
      have h1 : f (R *ᵥ (U *ᵥ Pi.single j 1)) = 0 := by
        have : R *ᵥ (U *ᵥ Pi.single j 1) ∈ LinearMap.ker f := by rw [h]; trivial
        exact this
      have h2 : f (R *ᵥ (U *ᵥ Pi.single j 1)) = 1 := by
        simp only [f, LinearMap.comp_apply, Matrix.mulVecLin_apply, LinearMap.proj_apply]
        rw [mulVec_mulVec, mulVec_mulVec, Matrix.mul_assoc, Matrix.mul_assoc, ← Matrix.mul_assoc R⁻¹,
          Matrix.nonsing_inv_mul R ((Matrix.isUnit_iff_isUnit_det R).1 hR), Matrix.one_mul, hU,
          one_mulVec, Pi.single_eq_same]
      rw [h1] at h2
      exact zero_ne_one h2
    have := hμ _ hV
    rw [ae_iff]
    refine measure_mono_null (fun x hx => ?_) this
    simp only [Set.mem_ofPred_eq, not_not] at hx
    simp only [SetLike.mem_coe, LinearMap.mem_ker, f, LinearMap.comp_apply, Matrix.mulVecLin_apply,
      LinearMap.proj_apply]
    rw [← mulVec_mulVec]
    exact hx
  have hex : ∃ x, 0 < nu + ∑ j, ‖(R⁻¹ *ᵥ x) j‖ ^ 2 ∧ psi nu U m (R⁻¹ *ᵥ x) - low x = 0 ∧
      ∀ j, (Uᴴ *ᵥ (R⁻¹ *ᵥ x)) j ≠ 0 := by
    have : ∀ᵐ x ∂μ, 0 < nu + ∑ j, ‖(R⁻¹ *ᵥ x) j‖ ^ 2 ∧ psi nu U m (R⁻¹ *ᵥ x) - low x = 0 ∧
      ∀ j, (Uᴴ *ᵥ (R⁻¹ *ᵥ x)) j ≠ 0 := by
      filter_upwards [hpos, hae, hcoord] with x h1 h2 h3 using ⟨h1, h2, h3⟩
    exact this.exists
  obtain ⟨x, hx, heq, hall⟩ := hex
  have hx' : 0 < nu + ∑ j, ‖(Uᴴ *ᵥ (R⁻¹ *ᵥ x)) j‖ ^ 2 := by rwa [unitary_nsq hU]
  have hnp : 0 < nu + (p : ℝ) := by
    have : (0 : ℝ) < p := by exact_mod_cast hp
    linarith
  obtain ⟨r, hr, hrj, hr1⟩ := jensen_log_eq hnu (fun j => ‖(Uᴴ *ᵥ (R⁻¹ *ᵥ x)) j‖ ^ 2)
    (fun j => Real.exp (m j)) (fun j => sq_nonneg _) (fun j => Real.exp_pos _) hx' (by
      rw [unitary_nsq hU]
      rw [hlow_eq] at heq
      unfold psi at heq
      rw [hexp] at heq
      nlinarith)
  have hmr : ∀ j, m j = Real.log r := fun j => by
    have := hrj j (pow_pos (norm_pos_iff.2 (hall j)) 2)
    rw [← this, Real.log_exp]
  have hr0 : Real.log r = 0 := by
    rcases hs with h | h
    · rw [hr1 h, Real.log_one]
    · simp only [hmr, Finset.sum_const, Finset.card_univ, Fintype.card_fin, nsmul_eq_mul] at h
      rcases mul_eq_zero.1 h with h | h
      · exfalso
        have : (p : ℝ) ≠ 0 := by exact_mod_cast hp.ne'
        exact this h
      · exact h
  exact hm (funext fun j => by rw [hmr j, hr0]; rfl)

/-- The sum of the samples as the cost sees it. -/
theorem cost_psi_range (x : ℕ → Ω → Fin p → 𝕜) (ω : Ω) (N : ℕ) {nu : ℝ}
    {R U : Matrix (Fin p) (Fin p) 𝕜} (hR : IsUnit R) (hU : Uᴴ * U = 1) (m : Fin p → ℝ) :
    studentCost nu (firstSamples x ω N)
      (R * (U * diagonal (fun j => ((Real.exp (m j) : ℝ) : 𝕜)) * Uᴴ) * Rᴴ) -
      studentCost nu (firstSamples x ω N) (R * Rᴴ) =
      ∑ i ∈ Finset.range N, psi nu U m (R⁻¹ *ᵥ x i ω) := by
  rw [cost_psi _ hR hU, Finset.sum_range]
  rfl

theorem sphere_to_ball {nu : ℝ} (hnu : 0 ≤ nu) {R U : Matrix (Fin p) (Fin p) 𝕜}
    (hU : Uᴴ * U = 1) {y : ℕ → Fin p → 𝕜} {N : ℕ} (hy : ∀ i, 0 < nu + ∑ j, ‖(R *ᵥ y i) j‖ ^ 2)
    {M : Submodule ℝ (Fin p → ℝ)} {δ : ℝ} (hδ : 0 < δ)
    (hs : ∀ m ∈ M, ‖m‖ = δ → 0 < ∑ i ∈ Finset.range N, psi nu U m (R *ᵥ y i))
    {m : Fin p → ℝ} (hm : m ∈ M) (hle : ∑ i ∈ Finset.range N, psi nu U m (R *ᵥ y i) ≤ 0) :
    ‖m‖ < δ := by
  by_contra hcon
  push Not at hcon
  have hm0 : 0 < ‖m‖ := hδ.trans_le hcon
  have ht0 : 0 ≤ δ / ‖m‖ := (div_pos hδ hm0).le
  have h1 := hs ((δ / ‖m‖) • m) (M.smul_mem _ hm) (by
    rw [norm_smul, Real.norm_of_nonneg ht0, div_mul_cancel₀ _ hm0.ne'])
  have h2 : ∑ i ∈ Finset.range N, psi nu U ((δ / ‖m‖) • m) (R *ᵥ y i) ≤
      ∑ i ∈ Finset.range N, δ / ‖m‖ * psi nu U m (R *ᵥ y i) :=
    Finset.sum_le_sum fun i _ => psi_convex hnu hU m _ (hy i) ht0 ((div_le_one hm0).2 hcon)
  rw [← Finset.mul_sum] at h2
  have := mul_nonpos_of_nonneg_of_nonpos ht0 hle
  linarith

/-- Matrices with small logarithmic coordinates are close to the reference. -/
theorem param_tendsto {ι : Type} {f : Filter ι} (R : Matrix (Fin p) (Fin p) 𝕜)
    {U : ι → Matrix (Fin p) (Fin p) 𝕜} (hU : ∀ k, (U k)ᴴ * U k = 1) {m : ι → Fin p → ℝ}
    (hm : Tendsto m f (𝓝 0)) :
    Tendsto (fun k => R * (U k * diagonal (fun j => ((Real.exp (m k j) : ℝ) : 𝕜)) * (U k)ᴴ) * Rᴴ)
      f (𝓝 (R * Rᴴ)) := by
  have hd : ∀ j, Tendsto (fun k => ((Real.exp (m k j) - 1 : ℝ) : 𝕜)) f (𝓝 0) := fun j => by
    have h1 : Tendsto (fun k => m k j) f (𝓝 0) := by
      have := (continuous_apply j).tendsto (0 : Fin p → ℝ) |>.comp hm
      exact this
    have h2 : Tendsto (fun k => Real.exp (m k j) - 1) f (𝓝 0) := by
      have := (Real.continuous_exp.tendsto 0).comp h1
      rw [Real.exp_zero] at this
      simpa using this.sub_const 1
    have := (RCLike.continuous_ofReal (K := 𝕜)).tendsto 0 |>.comp h2
    rw [RCLike.ofReal_zero] at this
    exact this
  have hC : Tendsto (fun k => U k * diagonal (fun j => ((Real.exp (m k j) - 1 : ℝ) : 𝕜)) * (U k)ᴴ)
      f (𝓝 0) := by
    refine tendsto_pi_nhds.2 fun a => tendsto_pi_nhds.2 fun b => ?_
    have e : ∀ k, (U k * diagonal (fun j => ((Real.exp (m k j) - 1 : ℝ) : 𝕜)) * (U k)ᴴ) a b =
        ∑ j, ((Real.exp (m k j) - 1 : ℝ) : 𝕜) * (U k a j * star (U k b j)) := fun k => by
      rw [Matrix.mul_apply]
      simp only [mul_diagonal, conjTranspose_apply]
      exact Finset.sum_congr rfl fun j _ => by ring
    simp only [e]
    have h0 : (0 : Matrix (Fin p) (Fin p) 𝕜) a b = ∑ _j : Fin p, (0 : 𝕜) := by simp
    rw [h0]
    refine tendsto_finsetSum _ fun j _ => ?_
    have hb : ∀ k, ‖U k a j * star (U k b j)‖ ≤ 1 := fun k => by
      have hen : ∀ c, ‖U k c j‖ ≤ 1 := fun c => by
        have h1 : ((U k)ᴴ * U k) j j = 1 := by rw [hU, one_apply_eq]
        rw [Matrix.mul_apply] at h1
        have h2 := congrArg RCLike.re h1
        simp only [conjTranspose_apply, RCLike.star_def, RCLike.conj_mul, map_sum, RCLike.one_re,
          ← RCLike.ofReal_pow, RCLike.ofReal_re] at h2
        have h3 := Finset.single_le_sum (f := fun i => ‖U k i j‖ ^ 2) (fun i _ => sq_nonneg _)
          (Finset.mem_univ c)
        rw [h2] at h3
        exact (sq_le_one_iff₀ (norm_nonneg _)).1 h3
      rw [norm_mul, norm_star]
      exact mul_le_one₀ (hen a) (norm_nonneg _) (hen b)
    rw [tendsto_zero_iff_norm_tendsto_zero]
    refine squeeze_zero (fun k => norm_nonneg _) (fun k => ?_)
      (tendsto_zero_iff_norm_tendsto_zero.1 (hd j))
    rw [norm_mul]
    exact mul_le_of_le_one_right (norm_nonneg _) (hb k)
  have e : ∀ k, R * (U k * diagonal (fun j => ((Real.exp (m k j) : ℝ) : 𝕜)) * (U k)ᴴ) * Rᴴ =
      R * (U k * diagonal (fun j => ((Real.exp (m k j) - 1 : ℝ) : 𝕜)) * (U k)ᴴ) * Rᴴ + R * Rᴴ := by
    intro k
    have e1 : (diagonal (fun j => ((Real.exp (m k j) - 1 : ℝ) : 𝕜)) : Matrix (Fin p) (Fin p) 𝕜) =
        diagonal (fun j => ((Real.exp (m k j) : ℝ) : 𝕜)) - 1 := by
      rw [← diagonal_one, diagonal_sub]
      congr 1; funext j; push_cast; rfl
    rw [e1, Matrix.mul_sub, Matrix.mul_one, Matrix.sub_mul, mul_eq_one_comm.1 (hU k), Matrix.mul_sub,
      Matrix.mul_one, Matrix.sub_mul, sub_add_cancel]
  simp only [e]
  have hcont : Continuous fun C : Matrix (Fin p) (Fin p) 𝕜 => R * C * Rᴴ + R * Rᴴ := by fun_prop
  have := (hcont.tendsto 0).comp hC
  rw [Matrix.mul_zero, Matrix.zero_mul, zero_add] at this
  exact this

/-- Solutions of the sample equation whose logarithmic coordinates lie in `M`, once rescaled,
converge to the solution of the population equation. -/
theorem IIDSamples.consistent (h : IIDSamples P x μ) (hμ : NullSubspaces μ) (hp : 0 < p) {nu : ℝ}
    (hnu : 0 ≤ nu) {S : Matrix (Fin p) (Fin p) 𝕜} (hS : S.PosDef) (hf : PopFixed nu μ S)
    (M : Submodule ℝ (Fin p → ℝ)) (hM : ∀ m ∈ M, 0 < nu ∨ ∑ j, m j = 0) :
    ∀ᵐ ω ∂P, ∀ Q : ℕ → Matrix (Fin p) (Fin p) 𝕜,
      (∀ᶠ N in atTop, (Q N).PosDef ∧
        studentCost nu (firstSamples x ω N) (Q N) ≤ studentCost nu (firstSamples x ω N) S ∧
        ∀ (R : Matrix (Fin p) (Fin p) 𝕜), IsUnit R → S = R * Rᴴ →
        ∀ (U : Matrix (Fin p) (Fin p) 𝕜) (m : Fin p → ℝ), Uᴴ * U = 1 →
          Q N = R * (U * diagonal (fun j => ((Real.exp (m j) : ℝ) : 𝕜)) * Uᴴ) * Rᴴ → m ∈ M) →
      Tendsto Q atTop (𝓝 S) := by
  classical
  have := h.prob
  obtain ⟨V, l, hV, hl, hSe⟩ := spectral_exists S hS
  set R : Matrix (Fin p) (Fin p) 𝕜 := V * diagonal (fun j => ((Real.sqrt (l j) : ℝ) : 𝕜)) with hRdef
  have hRS : S = R * Rᴴ := by
    rw [hSe, hRdef, conjTranspose_mul, diagonal_conjTranspose, Matrix.mul_assoc, Matrix.mul_assoc V,
      ← Matrix.mul_assoc (diagonal _) (diagonal _), diagonal_mul_diagonal]
    congr 3
    funext j
    simp only [Pi.star_apply, RCLike.star_def, RCLike.conj_ofReal]
    rw [← RCLike.ofReal_mul, Real.mul_self_sqrt (hl j).le]
  have hR : IsUnit R := by
    rw [Matrix.isUnit_iff_isUnit_det, isUnit_iff_ne_zero]
    intro h0
    have := (posDef_det_pos hS).1
    rw [hRS, det_mul, h0, zero_mul, map_zero] at this
    exact lt_irrefl _ this
  have hpos : ∀ᵐ x ∂μ, 0 < nu + ∑ j, ‖(R⁻¹ *ᵥ x) j‖ ^ 2 := by
    filter_upwards [ne_zero_ae hμ hp] with x hx using nsq_pos hnu hR hx
  have hall : ∀ᵐ ω ∂P, ∀ n : ℕ, ∀ᶠ N : ℕ in atTop, ∀ (U : Matrix (Fin p) (Fin p) 𝕜)
      (m : Fin p → ℝ), Uᴴ * U = 1 → m ∈ M → ‖m‖ = 1 / ((n : ℝ) + 1) →
      0 < ∑ i ∈ Finset.range N, psi nu U m (R⁻¹ *ᵥ x i ω) := by
    rw [ae_all_iff]
    intro n
    refine h.sphere hnu R⁻¹ hpos M fun U m hU hm hd => ?_
    refine pop_pos hnu hμ hp hR (hRS ▸ hf) hU (fun h0 => ?_) (hM m hm)
    rw [h0, norm_zero] at hd
    have : (0 : ℝ) < 1 / ((n : ℝ) + 1) := by positivity
    linarith
  filter_upwards [hall, h.ae_all hpos] with ω hω hy Q hQ
  have hex : ∀ N, ∃ (U : Matrix (Fin p) (Fin p) 𝕜) (m : Fin p → ℝ), Uᴴ * U = 1 ∧
      ((Q N).PosDef → Q N = R * (U * diagonal (fun j => ((Real.exp (m j) : ℝ) : 𝕜)) * Uᴴ) * Rᴴ) := by
    intro N
    by_cases hN : (Q N).PosDef
    · obtain ⟨U, m, hU, he⟩ := param_exists hR hN
      exact ⟨U, m, hU, fun _ => he⟩
    · exact ⟨1, 0, by simp, fun h => absurd h hN⟩
  choose U m hU hQe using hex
  have hm : Tendsto m atTop (𝓝 0) := by
    rw [tendsto_zero_iff_norm_tendsto_zero, Metric.tendsto_atTop]
    intro ε hε
    obtain ⟨n, hn⟩ := exists_nat_one_div_lt hε
    obtain ⟨N₀, hN₀⟩ := eventually_atTop.1 ((hω n).and hQ)
    refine ⟨N₀, fun N hN => ?_⟩
    obtain ⟨h1, h2, h3, h4⟩ := hN₀ N hN
    have hmM := h4 R hR hRS (U N) (m N) (hU N) (hQe N h2)
    have hle : ∑ i ∈ Finset.range N, psi nu (U N) (m N) (R⁻¹ *ᵥ x i ω) ≤ 0 := by
      rw [← cost_psi_range x ω N hR (hU N) (m N), ← hRS, ← hQe N h2]
      linarith
    have := sphere_to_ball hnu (hU N) hy (by positivity : (0 : ℝ) < 1 / ((n : ℝ) + 1))
      (fun m hm hd => h1 (U N) m (hU N) hm hd) hmM hle
    simp only [dist_zero_right, norm_norm]
    linarith
  have hlim := param_tendsto R hU hm
  rw [← hRS] at hlim
  refine hlim.congr' ?_
  filter_upwards [hQ] with N hN
  exact (hQe N hN.1).symm

/-- The Student estimator. -/
theorem IIDSamples.student_consistent (h : IIDSamples P x μ) (hμ : NullSubspaces μ) (hp : 0 < p)
    {nu : ℝ} (hnu : 0 < nu) {S : Matrix (Fin p) (Fin p) 𝕜} (hS : S.PosDef) (hf : PopFixed nu μ S) :
    ∀ᵐ ω ∂P, ∀ Q : ℕ → Matrix (Fin p) (Fin p) 𝕜,
      (∀ᶠ N in atTop, (Q N).PosDef ∧ mStep (wStudent nu p) (firstSamples x ω N) (Q N) = Q N) →
      Tendsto Q atTop (𝓝 S) := by
  filter_upwards [h.consistent hμ hp hnu.le hS hf ⊤ fun _ _ => Or.inl hnu] with ω hω Q hQ
  refine hω Q ?_
  filter_upwards [hQ] with N hN
  exact ⟨hN.1, fixed_point_minimises hnu.le _ _ _ hN.1 hS
    (fun i => by linarith [qf_nonneg hN.1 (sample (firstSamples x ω N) i)]) hN.2,
    fun _ _ _ _ _ _ _ => trivial⟩

/-- The log-coordinates that do not change the determinant. -/
noncomputable def traceless (p : ℕ) : Submodule ℝ (Fin p → ℝ) where
  carrier := {m | ∑ j, m j = 0}
  add_mem' := fun {a b} ha hb => by
    simp only [Set.mem_ofPred_eq, Pi.add_apply, Finset.sum_add_distrib] at *
    rw [ha, hb, add_zero]
  zero_mem' := by simp
  smul_mem' := fun c a ha => by
    simp only [Set.mem_ofPred_eq, Pi.smul_apply, smul_eq_mul, ← Finset.mul_sum] at *
    rw [ha, mul_zero]

/-- Tyler's estimator: some rescaling of the solutions converges. -/
theorem IIDSamples.tyler_consistent (h : IIDSamples P x μ) (hμ : NullSubspaces μ) (hp : 0 < p)
    {S : Matrix (Fin p) (Fin p) 𝕜} (hS : S.PosDef) (hf : PopFixed 0 μ S) :
    ∀ᵐ ω ∂P, ∀ Q : ℕ → Matrix (Fin p) (Fin p) 𝕜,
      (∀ᶠ N in atTop, (Q N).PosDef ∧ mStep (wTyler p) (firstSamples x ω N) (Q N) = Q N) →
      ∃ c : ℕ → ℝ, (∀ N, 0 < c N) ∧ Tendsto (fun N => (c N : 𝕜) • Q N) atTop (𝓝 S) := by
  classical
  have hp' : (0 : ℝ) < p := by exact_mod_cast hp
  filter_upwards [h.consistent hμ hp le_rfl hS hf (traceless p) fun m hm => Or.inr hm,
    h.ae_all (ne_zero_ae hμ hp)] with ω hω hne Q hQ
  have hn : ∀ N, NonzeroSamples (firstSamples x ω N) := fun N i => hne i
  -- rescale to the determinant of `S`
  let c : ℕ → ℝ := fun N => Real.exp ((Real.log (RCLike.re S.det) - Real.log (RCLike.re (Q N).det)) / p)
  have hc : ∀ N, 0 < c N := fun N => Real.exp_pos _
  refine ⟨c, hc, hω _ ?_⟩
  filter_upwards [hQ] with N hN
  have hcP : ((c N : 𝕜) • Q N).PosDef := hN.1.smul (by exact_mod_cast hc N)
  refine ⟨hcP, ?_, ?_⟩
  · have h1 := fixed_point_minimises le_rfl (firstSamples x ω N) (Q N) S hN.1 hS
      (fun i => by rw [zero_add]; exact qf_pos hN.1 (hn N i)) (by rw [← wTyler_eq]; exact hN.2)
    rw [← tylerCost_eq, ← tylerCost_eq] at h1 ⊢
    rw [tylerCost_smul (hn N) hN.1 (hc N)]
    exact h1
  · intro R hR hRS U m hU he
    have h1 := param_logdet hR hU m
    rw [← he, ← hRS, det_smul, Fintype.card_fin, ← RCLike.ofReal_pow, RCLike.re_ofReal_mul,
      Real.log_mul (pow_pos (hc N) p).ne' (posDef_det_pos hN.1).1.ne', Real.log_pow, Real.log_exp,
      mul_div_cancel₀ _ hp'.ne'] at h1
    show ∑ j, m j = 0
    linarith

end
end RS
