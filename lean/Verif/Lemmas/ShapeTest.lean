import Verif.Spec.ShapeTest
import Verif.Lemmas.ChiLimit
import Verif.Lemmas.Delta
import Verif.Lemmas.Corr
import Verif.Lemmas.ConsistEll
import Mathlib.Data.Sym.Card
import Mathlib.Analysis.InnerProductSpace.Projection.FiniteDimensional

/-! Coordinates of Hermitian matrices, and the limit law of the distance of shapes. -/
set_option autoImplicit false

namespace RS
open Matrix ComplexOrder Filter Topology MeasureTheory ProbabilityTheory

section
variable {𝕜 : Type} [RCLike 𝕜] {p : ℕ} {ι : Type} [Fintype ι]

/-- Orthonormal coordinates of the Hermitian matrices. -/
structure HermCoords (𝕜 : Type) [RCLike 𝕜] (p : ℕ) (ι : Type) [Fintype ι] where
  Φ : EuclideanSpace ℝ ι → Matrix (Fin p) (Fin p) 𝕜
  herm : ∀ v, (Φ v).IsHermitian
  inner : ∀ v w, RCLike.re (Φ v * Φ w).trace = (inner ℝ v w : ℝ)
  surj : ∀ D : Matrix (Fin p) (Fin p) 𝕜, D.IsHermitian → ∃ v, Φ v = D

theorem posDef_root {S : Matrix (Fin p) (Fin p) 𝕜} (hS : S.PosDef) :
    ∃ L : Matrix (Fin p) (Fin p) 𝕜, Lᴴ * L = S⁻¹ ∧ L * S * Lᴴ = 1 := by
  obtain ⟨R, -, hR⟩ := root_exists hS.inv
  refine ⟨Rᴴ, by rw [conjTranspose_conjTranspose, ← hR], ?_⟩
  have : R * (Rᴴ * S) = 1 := by
    rw [← Matrix.mul_assoc, ← hR, Matrix.nonsing_inv_mul S ((isUnit_iff_isUnit_det _).1 hS.isUnit)]
  rw [conjTranspose_conjTranspose]
  exact mul_eq_one_comm.1 this

theorem shape_trace_pos (hp : 0 < p) {S T : Matrix (Fin p) (Fin p) 𝕜} (hS : S.PosDef) (hT : T.PosDef) :
    0 < RCLike.re (S⁻¹ * T).trace := by
  have : Nonempty (Fin p) := ⟨⟨0, hp⟩⟩
  obtain ⟨L, hL1, hL2⟩ := posDef_root hS
  have hpd : (L * T * Lᴴ).PosDef := hT.mul_mul_conjTranspose_same
    (vecMul_injective_of_isUnit ((IsUnit.of_mul_eq_one (S * Lᴴ)) (by rw [← Matrix.mul_assoc, hL2])))
  rw [← hL1, Matrix.mul_assoc, trace_mul_comm]
  exact (RCLike.pos_iff.1 hpd.trace_pos).1

/-- The scale-free linear functions of a matrix. -/
noncomputable def shapeFn (S H T : Matrix (Fin p) (Fin p) 𝕜) : ℝ :=
  RCLike.re (H * T).trace * (p / RCLike.re (S⁻¹ * T).trace)

theorem shapeFn_measurable [MeasurableSpace 𝕜] [BorelSpace 𝕜] (S H : Matrix (Fin p) (Fin p) 𝕜) :
    Measurable (fun a : Fin p → Fin p → 𝕜 => shapeFn S H (of a)) := by
  have h : ∀ M : Matrix (Fin p) (Fin p) 𝕜,
      Measurable (fun a : Fin p → Fin p → 𝕜 => RCLike.re (M * of a).trace) := fun M => by
    have : Continuous (fun a : Fin p → Fin p → 𝕜 => RCLike.re (M * of a).trace) := by
      refine RCLike.continuous_re.comp (Continuous.matrix_trace (continuous_const.matrix_mul ?_))
      exact continuous_id
    exact this.measurable
  exact (h H).mul (measurable_const.div (h _))

theorem shapeFn_hasGrad (hp : 0 < p) {S H : Matrix (Fin p) (Fin p) 𝕜} (hS : S.PosDef)
    (h0 : RCLike.re (H * S).trace = 0) : HasGrad (shapeFn S H) S H := by
  have hp' : (0 : ℝ) < p := by exact_mod_cast hp
  have h1 : RCLike.re (S⁻¹ * S).trace = p := by
    rw [Matrix.nonsing_inv_mul S ((isUnit_iff_isUnit_det _).1 hS.isUnit), trace_one, Fintype.card_fin, RCLike.natCast_re]
  let l : Matrix (Fin p) (Fin p) 𝕜 → (Fin p → Fin p → 𝕜) →L[ℝ] ℝ := fun M =>
    LinearMap.toContinuousLinearMap
      { toFun := fun a => RCLike.re (M * of a).trace
        map_add' := fun a b => by
          rw [show of (a + b) = of a + of b from rfl, Matrix.mul_add, trace_add, map_add]
        map_smul' := fun c a => by
          rw [show of (c • a) = c • of a from rfl, Matrix.mul_smul, trace_smul, RCLike.smul_re]
          rfl }
  have hl : ∀ M (a : Fin p → Fin p → 𝕜), l M a = RCLike.re (M * of a).trace := fun M a => rfl
  have d1 : HasFDerivAt (fun a : Fin p → Fin p → 𝕜 => RCLike.re (H * of a).trace) (l H) (fun i j => S i j) :=
    (l H).hasFDerivAt
  have d2 : HasFDerivAt (fun a : Fin p → Fin p → 𝕜 => RCLike.re (S⁻¹ * of a).trace) (l S⁻¹) (fun i j => S i j) :=
    (l S⁻¹).hasFDerivAt
  have hne : RCLike.re (S⁻¹ * of fun i j => S i j).trace ≠ 0 := by
    change RCLike.re (S⁻¹ * S).trace ≠ 0
    rw [h1]
    exact hp'.ne'
  have d3 := d1.mul ((fderiv_inv' d2 hne).const_mul (p : ℝ))
  refine ⟨_, d3.congr_of_eventuallyEq (Eventually.of_forall fun a => ?_), fun D hD => ?_⟩
  · simp only [shapeFn, div_eq_mul_inv, Pi.mul_apply]
  · have e1 : RCLike.re (H * of fun i j => S i j).trace = 0 := h0
    have e2 : RCLike.re (S⁻¹ * of fun i j => S i j).trace = p := h1
    simp only [e1, e2, zero_smul, zero_add, _root_.smul_apply, hl, smul_eq_mul]
    rw [mul_inv_cancel₀ hp'.ne', one_mul]
    rfl

variable {Ω : Type*} [MeasurableSpace Ω] {P : Measure Ω} [IsProbabilityMeasure P] [MeasurableSpace 𝕜] [BorelSpace 𝕜]

/-- The limit law of the distance of shapes, from the limits of the smooth functions. -/
theorem shape_limit_core (K : HermCoords 𝕜 p ι) {d : ℕ} (hd : Fintype.card ι = d + 1) (hp : 0 < p)
    {S : Matrix (Fin p) (Fin p) 𝕜} (hS : S.PosDef) {T : ℕ → Ω → Matrix (Fin p) (Fin p) 𝕜}
    (hT : ∀ N ω, (T N ω).IsHermitian) {c : ℝ} (hc : 0 ≤ c)
    (h : ∀ (g : Matrix (Fin p) (Fin p) 𝕜 → ℝ) (H : Matrix (Fin p) (Fin p) 𝕜), H.IsHermitian →
        Measurable (fun a : Fin p → Fin p → 𝕜 => g (of a)) → HasGrad g S H → RCLike.re (H * S).trace = 0 →
        TendstoInDistribution (fun (N : ℕ) ω => √N * (g (T N ω) - g S)) atTop id (fun _ => P)
          (gaussianReal 0 (c * RCLike.re (H * S * (H * S)).trace).toNNReal)) :
    ∃ Y : ℕ → Ω → ℝ, (∀ N ω, RCLike.re (S⁻¹ * T N ω).trace ≠ 0 → Y N ω = N * shapeStat S (T N ω)) ∧
      TendstoInDistribution Y atTop (fun z : Fin d → ℝ => c * ∑ i, z i ^ 2) (fun _ => P)
        (Measure.pi fun _ => gaussianReal 0 1) := by
  have hp' : (0 : ℝ) < p := by exact_mod_cast hp
  obtain ⟨L, hL1, hL2⟩ := posDef_root hS
  obtain ⟨δ, hδ⟩ := K.surj 1 isHermitian_one
  have htr : ∀ v, RCLike.re (K.Φ v).trace = (inner ℝ v δ : ℝ) := fun v => by
    rw [← K.inner, hδ, Matrix.mul_one]
  have hδ0 : δ ≠ 0 := by
    rintro rfl
    have := htr 0
    rw [hδ, trace_one, Fintype.card_fin, RCLike.natCast_re, inner_zero_left] at this
    linarith
  have hfact : Fact (Module.finrank ℝ (EuclideanSpace ℝ ι) = d + 1) := ⟨by rw [finrank_euclideanSpace, hd]⟩
  have hdim : Module.finrank ℝ (ℝ ∙ δ)ᗮ = d := Submodule.finrank_orthogonal_span_singleton hδ0
  have hmem : ∀ v, v ∈ (ℝ ∙ δ)ᗮ ↔ RCLike.re (K.Φ v).trace = 0 := fun v => by
    rw [Submodule.mem_orthogonal_singleton_iff_inner_left, htr]
  -- the whitened shape
  set r : Matrix (Fin p) (Fin p) 𝕜 → ℝ := fun T => p / RCLike.re (S⁻¹ * T).trace with hr
  set D : Matrix (Fin p) (Fin p) 𝕜 → Matrix (Fin p) (Fin p) 𝕜 := fun T => (r T : 𝕜) • (L * T * Lᴴ) - 1 with hD
  have hDherm : ∀ T : Matrix (Fin p) (Fin p) 𝕜, T.IsHermitian → (D T).IsHermitian := fun T hT => by
    rw [IsHermitian, hD, conjTranspose_sub, conjTranspose_one, conjTranspose_smul, conjTranspose_mul,
      conjTranspose_mul, conjTranspose_conjTranspose, hT.eq, RCLike.star_def, RCLike.conj_ofReal, ← Matrix.mul_assoc]
  have htrL : ∀ T : Matrix (Fin p) (Fin p) 𝕜, (L * T * Lᴴ).trace = (S⁻¹ * T).trace := fun T => by
    rw [trace_mul_comm, ← Matrix.mul_assoc, hL1]
  have hDtr : ∀ T : Matrix (Fin p) (Fin p) 𝕜, RCLike.re (S⁻¹ * T).trace ≠ 0 → RCLike.re (D T).trace = 0 :=
    fun T hpos => by
      rw [hD, trace_sub, trace_smul, trace_one, Fintype.card_fin, smul_eq_mul, htrL, map_sub, RCLike.re_ofReal_mul,
        RCLike.natCast_re, hr, div_mul_cancel₀ _ hpos, sub_self]
  choose V hV using fun T : {T : Matrix (Fin p) (Fin p) 𝕜 // T.IsHermitian} => K.surj (D T.1) (hDherm T.1 T.2)
  let X : ℕ → Ω → (ℝ ∙ δ)ᗮ := fun N ω => √N • (ℝ ∙ δ)ᗮ.orthogonalProjectionOnto (V ⟨T N ω, hT N ω⟩)
  have key := chi_of_projections (X := X) (P := P) hc (fun u => ?_) hdim
  · refine ⟨_, fun N ω hne => ?_, key⟩
    have hpr : (((ℝ ∙ δ)ᗮ.orthogonalProjectionOnto (V ⟨T N ω, hT N ω⟩) : (ℝ ∙ δ)ᗮ) : EuclideanSpace ℝ ι) =
        V ⟨T N ω, hT N ω⟩ := Submodule.starProjection_eq_self_iff.2 ((hmem _).2 (by rw [hV]; exact hDtr _ hne))
    simp only [X, norm_smul, mul_pow, Real.norm_eq_abs, sq_abs]
    rw [Real.sq_sqrt (Nat.cast_nonneg N), Submodule.coe_norm, hpr, ← real_inner_self_eq_norm_sq,
      ← K.inner, hV, shapeStat]
    congr 2
    change ((D (T N ω)) * (D (T N ω))).trace = _
    have hs : (L * T N ω * Lᴴ * (L * T N ω * Lᴴ)).trace = (S⁻¹ * T N ω * (S⁻¹ * T N ω)).trace := by
      rw [show L * T N ω * Lᴴ * (L * T N ω * Lᴴ) = L * (T N ω * (S⁻¹ * T N ω)) * Lᴴ by
        rw [← hL1]; simp only [Matrix.mul_assoc], htrL, Matrix.mul_assoc]
    simp only [hD, Matrix.sub_mul, Matrix.mul_sub, Matrix.smul_mul, Matrix.mul_smul, Matrix.one_mul, Matrix.mul_one,
      trace_sub, trace_smul, htrL, hs, hr]
  · have hu : RCLike.re (K.Φ (u : EuclideanSpace ℝ ι)).trace = 0 := (hmem _).1 u.2
    set H := Lᴴ * K.Φ (u : EuclideanSpace ℝ ι) * L with hH
    have hHh : H.IsHermitian := by
      rw [IsHermitian, hH, conjTranspose_mul, conjTranspose_mul, conjTranspose_conjTranspose, (K.herm _).eq,
        Matrix.mul_assoc]
    have hHT : ∀ T : Matrix (Fin p) (Fin p) 𝕜, (H * T).trace = (K.Φ (u : EuclideanSpace ℝ ι) * (L * T * Lᴴ)).trace :=
      fun T => by
        rw [hH, Matrix.mul_assoc, Matrix.mul_assoc, trace_mul_comm]
        simp only [Matrix.mul_assoc]
    have h0 : RCLike.re (H * S).trace = 0 := by rw [hHT, hL2, Matrix.mul_one, hu]
    have h2 : RCLike.re (H * S * (H * S)).trace = ‖u‖ ^ 2 := by
      have : (H * S * (H * S)).trace = (K.Φ (u : EuclideanSpace ℝ ι) * K.Φ (u : EuclideanSpace ℝ ι)).trace := by
        rw [Matrix.mul_assoc, hHT]
        rw [show L * (S * (H * S)) * Lᴴ = (L * S * Lᴴ) * K.Φ (u : EuclideanSpace ℝ ι) * (L * S * Lᴴ) by
          rw [hH]; simp only [Matrix.mul_assoc], hL2, Matrix.one_mul, Matrix.mul_one]
      rw [this, K.inner, real_inner_self_eq_norm_sq, Submodule.coe_norm]
    have hg := h (shapeFn S H) H hHh (shapeFn_measurable S H) (shapeFn_hasGrad hp hS h0) h0
    rw [h2] at hg
    have hgS : shapeFn S H S = 0 := by rw [shapeFn, h0, zero_mul]
    refine hg.congr (fun N => Eventually.of_forall fun ω => ?_) (EventuallyEq.refl _ _)
    simp only [hgS, sub_zero, X]
    rw [real_inner_smul_right, Submodule.inner_orthogonalProjectionOnto_eq_of_mem_left, ← K.inner, hV]
    simp only [hD, Matrix.mul_sub, Matrix.mul_smul, Matrix.mul_one, trace_sub, trace_smul, smul_eq_mul, map_sub,
      RCLike.re_ofReal_mul, hu, sub_zero, ← hHT, shapeFn, hr]
    ring

theorem shape_limit (K : HermCoords 𝕜 p ι) {d : ℕ} (hd : Fintype.card ι = d + 1) (hp : 0 < p)
    {S : Matrix (Fin p) (Fin p) 𝕜} (hS : S.PosDef) {T : ℕ → Ω → Matrix (Fin p) (Fin p) 𝕜}
    (hT : ∀ N ω, (T N ω).PosDef) {c : ℝ} (hc : 0 ≤ c)
    (h : ∀ (g : Matrix (Fin p) (Fin p) 𝕜 → ℝ) (H : Matrix (Fin p) (Fin p) 𝕜), H.IsHermitian →
        Measurable (fun a : Fin p → Fin p → 𝕜 => g (of a)) → HasGrad g S H → RCLike.re (H * S).trace = 0 →
        TendstoInDistribution (fun (N : ℕ) ω => √N * (g (T N ω) - g S)) atTop id (fun _ => P)
          (gaussianReal 0 (c * RCLike.re (H * S * (H * S)).trace).toNNReal)) :
    TendstoInDistribution (fun (N : ℕ) ω => N * shapeStat S (T N ω)) atTop
      (fun z : Fin d → ℝ => c * ∑ i, z i ^ 2) (fun _ => P) (Measure.pi fun _ => gaussianReal 0 1) := by
  obtain ⟨Y, h1, h2⟩ := shape_limit_core K hd hp hS (fun N ω => (hT N ω).isHermitian) hc h
  exact h2.congr (fun N => Eventually.of_forall fun ω => h1 N ω (shape_trace_pos hp hS (hT N ω)).ne')
    (EventuallyEq.refl _ _)

/-- The same for Hermitian estimates that converge to the matrix. -/
theorem shape_limit_herm (K : HermCoords 𝕜 p ι) {d : ℕ} (hd : Fintype.card ι = d + 1) (hp : 0 < p)
    {S : Matrix (Fin p) (Fin p) 𝕜} (hS : S.PosDef) {T : ℕ → Ω → Matrix (Fin p) (Fin p) 𝕜}
    (hT : ∀ N ω, (T N ω).IsHermitian) (hlim : ∀ᵐ ω ∂P, Tendsto (fun N => T N ω) atTop (𝓝 S))
    (hm : ∀ N, AEMeasurable (fun ω => shapeStat S (T N ω)) P) {c : ℝ} (hc : 0 ≤ c)
    (h : ∀ (g : Matrix (Fin p) (Fin p) 𝕜 → ℝ) (H : Matrix (Fin p) (Fin p) 𝕜), H.IsHermitian →
        Measurable (fun a : Fin p → Fin p → 𝕜 => g (of a)) → HasGrad g S H → RCLike.re (H * S).trace = 0 →
        TendstoInDistribution (fun (N : ℕ) ω => √N * (g (T N ω) - g S)) atTop id (fun _ => P)
          (gaussianReal 0 (c * RCLike.re (H * S * (H * S)).trace).toNNReal)) :
    TendstoInDistribution (fun (N : ℕ) ω => N * shapeStat S (T N ω)) atTop
      (fun z : Fin d → ℝ => c * ∑ i, z i ^ 2) (fun _ => P) (Measure.pi fun _ => gaussianReal 0 1) := by
  obtain ⟨Y, h1, h2⟩ := shape_limit_core K hd hp hS hT hc h
  have hm' : ∀ N : ℕ, AEMeasurable (fun ω => N * shapeStat S (T N ω)) P := fun N => (hm N).const_mul _
  refine tendstoInDistribution_of_tendstoInMeasure_sub _ _ h2 ?_ hm'
  refine tendstoInMeasure_of_tendsto_ae (fun N => ((hm' N).sub (h2.forall_aemeasurable N)).aestronglyMeasurable) ?_
  filter_upwards [hlim] with ω hω
  have hc1 : Tendsto (fun N => S⁻¹ * T N ω) atTop (𝓝 (S⁻¹ * S)) :=
    ((continuous_const (y := S⁻¹)).matrix_mul continuous_id).continuousAt.tendsto.comp hω
  have hc2 : Tendsto (fun N => RCLike.re (S⁻¹ * T N ω).trace) atTop (𝓝 (RCLike.re (S⁻¹ * S).trace)) :=
    (RCLike.continuous_re.comp continuous_id.matrix_trace).continuousAt.tendsto.comp hc1
  refine tendsto_const_nhds.congr' ?_
  filter_upwards [hc2.eventually_ne (shape_trace_pos hp hS hS).ne'] with N hN
  simp only [Pi.sub_apply, h1 N ω hN, sub_self, Pi.zero_apply]

end

/-- The coordinates of the complex Hermitian matrices. -/
noncomputable def hermCoordsComplex (p : ℕ) : HermCoords ℂ p (Fin p × Fin p) where
  Φ v := of fun i j => ⟨(v (i, j) + v (j, i)) / 2, (v (i, j) - v (j, i)) / 2⟩
  herm v := by
    refine IsHermitian.ext fun i j => Complex.ext ?_ ?_
    · simp only [of_apply, RCLike.star_def, Complex.conj_re]
      ring
    · simp only [of_apply, RCLike.star_def, Complex.conj_im]
      ring
  inner v w := by
    have hs : ∑ i : Fin p, ∑ j : Fin p, v (j, i) * w (j, i) = ∑ i : Fin p, ∑ j : Fin p, v (i, j) * w (i, j) :=
      Finset.sum_comm
    have h1 : RCLike.re ((of fun i j => (⟨(v (i, j) + v (j, i)) / 2, (v (i, j) - v (j, i)) / 2⟩ : ℂ)) *
        (of fun i j => (⟨(w (i, j) + w (j, i)) / 2, (w (i, j) - w (j, i)) / 2⟩ : ℂ)) :
          Matrix (Fin p) (Fin p) ℂ).trace =
        ∑ i : Fin p, ∑ j : Fin p, (v (i, j) * w (i, j) / 2 + v (j, i) * w (j, i) / 2) := by
      simp only [Matrix.trace, Matrix.diag, Matrix.mul_apply, of_apply, map_sum]
      refine Finset.sum_congr rfl fun i _ => Finset.sum_congr rfl fun j _ => ?_
      rw [RCLike.re_to_complex, Complex.mul_re]
      ring
    rw [h1]
    simp only [Finset.sum_add_distrib, ← Finset.sum_div, hs]
    rw [add_halves, PiLp.inner_apply, Fintype.sum_prod_type]
    simp only [RCLike.inner_apply, conj_trivial, mul_comm]
  surj D hD := by
    refine ⟨WithLp.toLp 2 fun q => (D q.1 q.2).re + (D q.1 q.2).im, ?_⟩
    ext i j
    have h : D j i = star (D i j) := (hD.apply j i).symm
    apply Complex.ext
    · simp only [of_apply, h, RCLike.star_def, Complex.conj_re, Complex.conj_im]
      ring
    · simp only [of_apply, h, RCLike.star_def, Complex.conj_re, Complex.conj_im]
      ring

/-- The coordinates of the real symmetric matrices. -/
noncomputable def hermCoordsReal (p : ℕ) : HermCoords ℝ p (Sym2 (Fin p)) where
  Φ v := of fun i j => if i = j then v s(i, j) else v s(i, j) / √2
  herm v := by
    refine IsHermitian.ext fun i j => ?_
    simp only [of_apply, star_trivial, Sym2.eq_swap (a := j), eq_comm (a := j)]
  inner v w := by
    have h1 : RCLike.re ((of fun i j => if i = j then v s(i, j) else v s(i, j) / √2) *
        (of fun i j => if i = j then w s(i, j) else w s(i, j) / √2) : Matrix (Fin p) (Fin p) ℝ).trace =
        ∑ q : Fin p × Fin p, if q.1 = q.2 then v s(q.1, q.2) * w s(q.1, q.2) else v s(q.1, q.2) * w s(q.1, q.2) / 2 := by
      simp only [Matrix.trace, Matrix.diag, Matrix.mul_apply, of_apply, RCLike.re_to_real, Fintype.sum_prod_type]
      refine Finset.sum_congr rfl fun i _ => Finset.sum_congr rfl fun j _ => ?_
      rw [Sym2.eq_swap (a := j)]
      by_cases hij : i = j
      · simp [hij]
      · rw [if_neg hij, if_neg (Ne.symm hij), if_neg hij, div_mul_div_comm, Real.mul_self_sqrt zero_le_two]
    rw [h1, ← Finset.sum_fiberwise Finset.univ (fun q : Fin p × Fin p => s(q.1, q.2)), PiLp.inner_apply]
    refine Finset.sum_congr rfl fun s _ => ?_
    simp only [RCLike.inner_apply, conj_trivial]
    induction s with
    | _ i j =>
      have hf : Finset.univ.filter (fun q : Fin p × Fin p => s(q.1, q.2) = s(i, j)) = {(i, j), (j, i)} := by
        ext ⟨a, b⟩
        simp
      rw [hf]
      by_cases hij : i = j
      · subst hij
        simp [mul_comm]
      · rw [Finset.sum_pair (by simp [hij]), if_neg hij, if_neg (Ne.symm hij), Sym2.eq_swap (a := j)]
        ring
  surj D hD := by
    refine ⟨WithLp.toLp 2 fun s => Sym2.lift ⟨fun i j => if i = j then D i j else √2 * D i j, fun i j => ?_⟩ s, ?_⟩
    · have h : D j i = D i j := hD.apply i j
      simp only [h, eq_comm (a := j)]
    · ext i j
      simp only [of_apply, Sym2.lift_mk]
      split_ifs with h
      · rfl
      · exact mul_div_cancel_left₀ _ (Real.sqrt_pos.2 two_pos).ne'

theorem sym2_card {p : ℕ} (hp : 0 < p) : Fintype.card (Sym2 (Fin p)) = p * (p + 1) / 2 - 1 + 1 := by
  rw [Sym2.card, Fintype.card_fin, Nat.choose_two_right, Nat.add_sub_cancel, mul_comm (p + 1)]
  have : 1 ≤ p * (p + 1) / 2 := by
    rw [Nat.le_div_iff_mul_le two_pos]
    nlinarith
  omega

end RS
