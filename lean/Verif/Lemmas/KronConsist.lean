import Verif.Lemmas.DataCont
import Verif.Lemmas.KronExist
import Verif.Props.Cost
import Verif.Props.Converge

/-!
# Large samples and the Kronecker estimate
-/
set_option autoImplicit false
namespace RS
open Matrix ComplexOrder Filter Topology MeasureTheory

section
variable {𝕜 : Type} [RCLike 𝕜] {p a b : ℕ}

section
variable [MeasurableSpace 𝕜] [BorelSpace 𝕜] {Ω : Type*} [MeasurableSpace Ω] {P : Measure Ω}
  [IsProbabilityMeasure P] {x : ℕ → Ω → Fin p → 𝕜} {μ : Measure (Fin p → 𝕜)}

/-- Matrices whose cost is at most that of the population solution converge to it, once rescaled. -/
theorem IIDSamples.cost_consistent (h : IIDSamples P x μ) (hμ : NullSubspaces μ) (hp : 0 < p)
    {S : Matrix (Fin p) (Fin p) 𝕜} (hS : S.PosDef) (hf : PopFixed 0 μ S) :
    ∀ᵐ ω ∂P, ∀ Q : ℕ → Matrix (Fin p) (Fin p) 𝕜,
      (∀ᶠ N in atTop, (Q N).PosDef ∧
        tylerCost (firstSamples x ω N) (Q N) ≤ tylerCost (firstSamples x ω N) S) →
      ∃ c : ℕ → ℝ, (∀ N, 0 < c N) ∧ Tendsto (fun N => (c N : 𝕜) • Q N) atTop (𝓝 S) := by
  classical
  have hp' : (0 : ℝ) < p := by exact_mod_cast hp
  filter_upwards [h.consistent hμ hp le_rfl hS hf (traceless p) fun m hm => Or.inr hm,
    h.ae_all (ne_zero_ae hμ hp)] with ω hω hne Q hQ
  have hn : ∀ N, NonzeroSamples (firstSamples x ω N) := fun N i => hne i
  let c : ℕ → ℝ := fun N => Real.exp ((Real.log (RCLike.re S.det) - Real.log (RCLike.re (Q N).det)) / p)
  have hc : ∀ N, 0 < c N := fun N => Real.exp_pos _
  refine ⟨c, hc, hω _ ?_⟩
  filter_upwards [hQ] with N hN
  have hcP : ((c N : 𝕜) • Q N).PosDef := hN.1.smul (by exact_mod_cast hc N)
  refine ⟨hcP, ?_, ?_⟩
  · rw [← tylerCost_eq, ← tylerCost_eq, tylerCost_smul (hn N) hN.1 (hc N)]
    exact hN.2
  · intro R hR hRS U m hU he
    have h1 := param_logdet hR hU m
    rw [← he, ← hRS, det_smul, Fintype.card_fin, ← RCLike.ofReal_pow, RCLike.re_ofReal_mul,
      Real.log_mul (pow_pos (hc N) p).ne' (posDef_det_pos hN.1).1.ne', Real.log_pow, Real.log_exp,
      mul_div_cancel₀ _ hp'.ne'] at h1
    show ∑ j, m j = 0
    linarith

end

/-! ## Matrices divided by their trace -/

theorem trace_ne_zero_of_posDef {S : Matrix (Fin p) (Fin p) 𝕜} (hS : S.PosDef) (hp : 0 < p) :
    trace S ≠ 0 := by
  have : Nonempty (Fin p) := ⟨⟨0, hp⟩⟩
  exact hS.trace_pos.ne'

theorem unitTrace_smul (S : Matrix (Fin p) (Fin p) 𝕜) {c : 𝕜} (hc : c ≠ 0) :
    unitTrace (c • S) = unitTrace S := by
  unfold unitTrace
  rw [trace_smul, smul_eq_mul, mul_inv, smul_smul, mul_comm c⁻¹, mul_assoc, inv_mul_cancel₀ hc, mul_one]

theorem unitTrace_transpose (S : Matrix (Fin p) (Fin p) 𝕜) : unitTrace Sᵀ = (unitTrace S)ᵀ := by
  unfold unitTrace
  rw [trace_transpose, transpose_smul]

theorem unitTrace_continuousAt {S : Matrix (Fin p) (Fin p) 𝕜} (hS : trace S ≠ 0) :
    ContinuousAt unitTrace S := by
  unfold unitTrace
  have h1 : Continuous fun A : Matrix (Fin p) (Fin p) 𝕜 => trace A := by fun_prop
  exact (h1.continuousAt.inv₀ hS).smul continuousAt_id

/-! ## Kronecker products -/

theorem kron_transpose (A : Matrix (Fin a) (Fin a) 𝕜) (B : Matrix (Fin b) (Fin b) 𝕜) :
    (kron A B)ᵀ = kron Aᵀ Bᵀ := by
  ext i j; simp [kron]

theorem kron_smul_smul (A : Matrix (Fin a) (Fin a) 𝕜) (B : Matrix (Fin b) (Fin b) 𝕜) (s t : 𝕜) :
    kron (s • A) (t • B) = (s * t) • kron A B := by
  ext i j; simp [kron]; ring

theorem trace_kron' (A : Matrix (Fin a) (Fin a) 𝕜) (B : Matrix (Fin b) (Fin b) 𝕜) :
    trace (kron A B) = trace A * trace B := by
  rw [← trace_kronecker]
  unfold kron trace
  exact finProdFinEquiv.symm.sum_comp fun i => (kroneckerMap (fun x1 x2 => x1 * x2) A B).diag i

theorem unitTrace_kron (A : Matrix (Fin a) (Fin a) 𝕜) (B : Matrix (Fin b) (Fin b) 𝕜) :
    unitTrace (kron A B) = kron (unitTrace A) (unitTrace B) := by
  unfold unitTrace
  rw [kron_smul_smul, trace_kron', mul_inv]

theorem kron_continuous : Continuous fun z : Matrix (Fin a) (Fin a) 𝕜 × Matrix (Fin b) (Fin b) 𝕜 =>
    kron z.1 z.2 := by
  refine continuous_matrix fun i j => ?_
  simp only [kron, submatrix_apply, kroneckerMap_apply]
  fun_prop

theorem tendsto_kron {ι : Type*} {f : Filter ι} {u : ι → Matrix (Fin a) (Fin a) 𝕜}
    {v : ι → Matrix (Fin b) (Fin b) 𝕜} {A : Matrix (Fin a) (Fin a) 𝕜} {B : Matrix (Fin b) (Fin b) 𝕜}
    (hu : Tendsto u f (𝓝 A)) (hv : Tendsto v f (𝓝 B)) :
    Tendsto (fun i => kron (u i) (v i)) f (𝓝 (kron A B)) := by
  have h1 := (kron_continuous (𝕜 := 𝕜) (a := a) (b := b)).tendsto (A, B)
  have h2 := h1.comp (hu.prodMk_nhds hv)
  simpa only [Function.comp_def] using h2

/-- The two partial traces. -/
def leftTrace (C : Matrix (Fin (a * b)) (Fin (a * b)) 𝕜) : Matrix (Fin a) (Fin a) 𝕜 :=
  of fun i j => ∑ r : Fin b, C (finProdFinEquiv (i, r)) (finProdFinEquiv (j, r))

def rightTrace (C : Matrix (Fin (a * b)) (Fin (a * b)) 𝕜) : Matrix (Fin b) (Fin b) 𝕜 :=
  of fun i j => ∑ c : Fin a, C (finProdFinEquiv (c, i)) (finProdFinEquiv (c, j))

theorem leftTrace_kron (A : Matrix (Fin a) (Fin a) 𝕜) (B : Matrix (Fin b) (Fin b) 𝕜) :
    leftTrace (kron A B) = trace B • A := by
  ext i j
  simp [leftTrace, kron, trace, ← Finset.mul_sum, mul_comm]

theorem rightTrace_kron (A : Matrix (Fin a) (Fin a) 𝕜) (B : Matrix (Fin b) (Fin b) 𝕜) :
    rightTrace (kron A B) = trace A • B := by
  ext i j
  simp [rightTrace, kron, trace, ← Finset.sum_mul]

theorem leftTrace_smul (c : 𝕜) (C : Matrix (Fin (a * b)) (Fin (a * b)) 𝕜) :
    leftTrace (c • C) = c • leftTrace C := by
  ext i j; simp [leftTrace, Finset.mul_sum]

theorem rightTrace_smul (c : 𝕜) (C : Matrix (Fin (a * b)) (Fin (a * b)) 𝕜) :
    rightTrace (c • C) = c • rightTrace C := by
  ext i j; simp [rightTrace, Finset.mul_sum]

theorem leftTrace_continuous :
    Continuous (leftTrace : Matrix (Fin (a * b)) (Fin (a * b)) 𝕜 → Matrix (Fin a) (Fin a) 𝕜) := by
  refine continuous_matrix fun i j => ?_
  simp only [leftTrace, of_apply]
  fun_prop

theorem rightTrace_continuous :
    Continuous (rightTrace : Matrix (Fin (a * b)) (Fin (a * b)) 𝕜 → Matrix (Fin b) (Fin b) 𝕜) := by
  refine continuous_matrix fun i j => ?_
  simp only [rightTrace, of_apply]
  fun_prop

/-- When multiples of Kronecker products converge, so do the factors divided by their traces. -/
theorem factors_tendsto (ha : 0 < a) (hb : 0 < b) {A : Matrix (Fin a) (Fin a) 𝕜}
    {B : Matrix (Fin b) (Fin b) 𝕜} (hA : A.PosDef) (hB : B.PosDef)
    {An : ℕ → Matrix (Fin a) (Fin a) 𝕜} {Bn : ℕ → Matrix (Fin b) (Fin b) 𝕜}
    (hAn : ∀ N, (An N).PosDef) (hBn : ∀ N, (Bn N).PosDef) {c : ℕ → ℝ} (hc : ∀ N, 0 < c N)
    (h : Tendsto (fun N => (c N : 𝕜) • kron (An N) (Bn N)) atTop (𝓝 (kron A B))) :
    Tendsto (fun N => unitTrace (An N)) atTop (𝓝 (unitTrace A)) ∧
      Tendsto (fun N => unitTrace (Bn N)) atTop (𝓝 (unitTrace B)) := by
  have hc' : ∀ N, (c N : 𝕜) ≠ 0 := fun N => by exact_mod_cast (hc N).ne'
  have tA := trace_ne_zero_of_posDef hA ha
  have tB := trace_ne_zero_of_posDef hB hb
  constructor
  · have h1 := (leftTrace_continuous.tendsto _).comp h
    rw [leftTrace_kron] at h1
    have h2 := (unitTrace_continuousAt (S := trace B • A) (by
      rw [trace_smul]; exact mul_ne_zero tB tA)).tendsto.comp h1
    rw [unitTrace_smul _ tB] at h2
    refine h2.congr fun N => ?_
    simp only [Function.comp, leftTrace_smul, leftTrace_kron]
    rw [unitTrace_smul _ (hc' N), unitTrace_smul _ (trace_ne_zero_of_posDef (hBn N) hb)]
  · have h1 := (rightTrace_continuous.tendsto _).comp h
    rw [rightTrace_kron] at h1
    have h2 := (unitTrace_continuousAt (S := trace A • B) (by
      rw [trace_smul]; exact mul_ne_zero tA tB)).tendsto.comp h1
    rw [unitTrace_smul _ tA] at h2
    refine h2.congr fun N => ?_
    simp only [Function.comp, rightTrace_smul, rightTrace_kron]
    rw [unitTrace_smul _ (hc' N), unitTrace_smul _ (trace_ne_zero_of_posDef (hAn N) ha)]

/-- A condition that holds around `(A, B)` holds for all pairs close to it. -/
theorem close_pair {A : Matrix (Fin a) (Fin a) 𝕜} {B : Matrix (Fin b) (Fin b) 𝕜}
    {C : Matrix (Fin a) (Fin a) 𝕜 × Matrix (Fin b) (Fin b) 𝕜 → Prop} (h : ∀ᶠ z in 𝓝 (A, B), C z) :
    ∃ δ : ℝ, 0 < δ ∧ ∀ A' B', frobDist A' A < δ → frobDist B' B < δ → C (A', B') := by
  rw [nhds_prod_eq, eventually_prod_iff] at h
  obtain ⟨pa, h1, pb, h2, h3⟩ := h
  obtain ⟨δ₁, hd1, h1⟩ := nhds_entries h1
  obtain ⟨δ₂, hd2, h2⟩ := nhds_entries h2
  refine ⟨min δ₁ δ₂, lt_min hd1 hd2, fun A' B' hA hB => h3 (h1 A' fun i j => ?_) (h2 B' fun i j => ?_)⟩
  · exact (norm_entry_le (A' - A) i j).trans_lt (hA.trans_le (min_le_left _ _))
  · exact (norm_entry_le (B' - B) i j).trans_lt (hB.trans_le (min_le_right _ _))

end
end RS
