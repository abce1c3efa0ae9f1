import Verif.Lemmas.Fisher
import Verif.Props.Product
import Verif.Spec.Fisher
import Verif.Spec.Structured
import Verif.Lemmas.Structured

/-! C140: the metric of `KroneckerStudent` and the Fisher information of the complex t laws. -/
set_option autoImplicit false

namespace RS
open Matrix ComplexOrder Filter Topology MeasureTheory ProbabilityTheory Kronecker

/-- The Fisher information of the complex t laws with `df` degrees of freedom and scatter matrix
`S` of size `p`, for all differentiable curves through `S` with directions `D` and `E`:
`α tr(S⁻¹ D S⁻¹ E) + (α - 1) tr(S⁻¹ D) tr(S⁻¹ E)` with `α = (df + 2p)/(df + 2p + 2)`. -/
theorem C140_fisher {p : ℕ} (hp : 0 < p) {df : ℝ} (hdf : 0 < df) {c d : ℝ → Matrix (Fin p) (Fin p) ℂ}
    {S D E : Matrix (Fin p) (Fin p) ℂ} (hS : S.PosDef) (hc : c 0 = S) (hd : d 0 = S)
    (hD : D.IsHermitian) (hE : E.IsHermitian) (hcD : CurveDeriv c D 0) (hdE : CurveDeriv d E 0) :
    FisherIs df c d ((df + 2 * p) / (df + 2 * p + 2) * (S⁻¹ * D * (S⁻¹ * E)).trace.re +
      ((df + 2 * p) / (df + 2 * p + 2) - 1) * ((S⁻¹ * D).trace.re * (S⁻¹ * E).trace.re)) := by
  have h1 := fun z => ctScore_deriv hdf (hc ▸ hS) hcD z
  have h2 := fun z => ctScore_deriv hdf (hd ▸ hS) hdE z
  rw [hc] at h1
  rw [hd] at h2
  have e1 : ∀ z, deriv (fun t => ctLogDensity df 0 (c t) z) 0 = ctScore df S D z := fun z => (h1 z).deriv
  have e2 : ∀ z, deriv (fun t => ctLogDensity df 0 (d t) z) 0 = ctScore df S E z := fun z => (h2 z).deriv
  refine ⟨hc.trans hd.symm, fun z => (h1 z).differentiableAt, fun z => (h2 z).differentiableAt, ?_, ?_⟩
  · simp only [e1, e2, hc]
    exact ctScore_integrable hdf hS hD hE
  · simp only [e1, e2, hc]
    rw [ctScore_mul hdf hp hS hD hE]
    have : (df / 2 + p) / (df / 2 + p + 1) = (df + 2 * p) / (df + 2 * p + 2) := by
      have : 0 < df / 2 + p := by positivity
      field_simp
    rw [this]

/-- The straight line from the pair `θ` in direction `ξ`, as a curve of Kronecker products. -/
noncomputable def kronLine {a b : ℕ} (θ ξ : Matrix (Fin a) (Fin a) ℂ × Matrix (Fin b) (Fin b) ℂ) (t : ℝ) :
    Matrix (Fin (a * b)) (Fin (a * b)) ℂ :=
  kron (θ.1 + t • ξ.1) (θ.2 + t • ξ.2)

theorem kronLine_zero {a b : ℕ} (θ ξ : Matrix (Fin a) (Fin a) ℂ × Matrix (Fin b) (Fin b) ℂ) :
    kronLine θ ξ 0 = kron θ.1 θ.2 := by
  simp [kronLine]

theorem kronLine_deriv (K : KronM) (θ ξ : K.Pair) :
    CurveDeriv (kronLine θ ξ) (kron ξ.1 θ.2 + kron θ.1 ξ.2) 0 := fun i j =>
  kron_differential K θ ξ (finProdFinEquiv.symm i) (finProdFinEquiv.symm j)

theorem kron_isHermitian {a b : ℕ} {A : Matrix (Fin a) (Fin a) ℂ} {B : Matrix (Fin b) (Fin b) ℂ}
    (hA : A.IsHermitian) (hB : B.IsHermitian) : (kron A B).IsHermitian := by
  unfold kron
  refine IsHermitian.submatrix ?_ _
  rw [IsHermitian, conjTranspose_kronecker, hA.eq, hB.eq]

theorem trace_reindexed {a b : ℕ} (M : Matrix (Fin a × Fin b) (Fin a × Fin b) ℂ) :
    (M.submatrix finProdFinEquiv.symm finProdFinEquiv.symm).trace = M.trace := by
  simp only [trace, diag_apply, submatrix_apply]
  exact Equiv.sum_comp finProdFinEquiv.symm fun x => M x x

/-- The metric of `KroneckerStudent(a, b, df)` is the Fisher information of the complex t laws with
`2 df` degrees of freedom. Missing for the full claim: the cost of this estimator is the likelihood
of the laws with `df` degrees of freedom, for which see `C140_violated`. -/
theorem C140_partial (a b : ℕ) (ha : 0 < a) (hb : 0 < b) (df : ℝ) (hdf : 0 < df)
    (θ ξ η : (kronStudent a b df).Pair) (hA : θ.1.PosDef) (hB : θ.2.PosDef)
    (hξ : KronTangent (kronStudent a b df) θ ξ) (hη : KronTangent (kronStudent a b df) θ η) :
    FisherIs (2 * df) (kronLine θ ξ) (kronLine θ η) ((kronStudent a b df).inner θ ξ η) := by
  have hS : (kron θ.1 θ.2).PosDef := kron_posDef hA hB
  have hD : ∀ z : (kronStudent a b df).Pair, KronTangent (kronStudent a b df) θ z →
      (kron z.1 θ.2 + kron θ.1 z.2).IsHermitian := fun z hz =>
    (kron_isHermitian hz.1 hB.1).add (kron_isHermitian hA.1 hz.2.2)
  have h := C140_fisher (p := a * b) (by positivity) (df := 2 * df) (by positivity) hS
    (kronLine_zero θ ξ) (kronLine_zero θ η) (hD ξ hξ) (hD η hη)
    (kronLine_deriv (kronStudent a b df) θ ξ) (kronLine_deriv (kronStudent a b df) θ η)
  have hSi : ∀ z : (kronStudent a b df).Pair,
      (kron θ.1 θ.2)⁻¹ * (kron z.1 θ.2 + kron θ.1 z.2) =
      ((θ.1 ⊗ₖ θ.2)⁻¹ * (z.1 ⊗ₖ θ.2 + θ.1 ⊗ₖ z.2)).submatrix finProdFinEquiv.symm
        finProdFinEquiv.symm := fun z => by
    have e : kron z.1 θ.2 + kron θ.1 z.2 = (z.1 ⊗ₖ θ.2 + θ.1 ⊗ₖ z.2).submatrix finProdFinEquiv.symm
        finProdFinEquiv.symm := rfl
    rw [e]
    unfold kron
    rw [inv_submatrix_equiv, submatrix_mul_equiv]
  have htr : ∀ z : (kronStudent a b df).Pair, KronTangent (kronStudent a b df) θ z →
      ((θ.1 ⊗ₖ θ.2)⁻¹ * (z.1 ⊗ₖ θ.2 + θ.1 ⊗ₖ z.2)).trace =
      (((kron θ.1 θ.2)⁻¹ * (kron z.1 θ.2 + kron θ.1 z.2)).trace.re : ℂ) := fun z hz => by
    rw [trace_inv_mul_real hS (hD z hz), hSi, trace_reindexed]
  have htr2 : ((kron θ.1 θ.2)⁻¹ * (kron ξ.1 θ.2 + kron θ.1 ξ.2) *
      ((kron θ.1 θ.2)⁻¹ * (kron η.1 θ.2 + kron θ.1 η.2))).trace =
      (((θ.1 ⊗ₖ θ.2)⁻¹ * (ξ.1 ⊗ₖ θ.2 + θ.1 ⊗ₖ ξ.2)) *
        ((θ.1 ⊗ₖ θ.2)⁻¹ * (η.1 ⊗ₖ θ.2 + θ.1 ⊗ₖ η.2))).trace := by
    rw [hSi, hSi, submatrix_mul_equiv, trace_reindexed]
  have e : (2 * df + 2 * ((a * b : ℕ) : ℝ)) / (2 * df + 2 * ((a * b : ℕ) : ℝ) + 2) =
      (df + a * b) / (df + a * b + 1) := by
    push_cast
    have : 0 < df + (a : ℝ) * b := by positivity
    field_simp
  rw [e] at h
  refine (congrArg (FisherIs (2 * df) (kronLine θ ξ) (kronLine θ η)) ?_).mpr h
  refine (C59_student a b df θ ξ η hA hB hξ hη).trans ?_
  rw [htr ξ hξ, htr η hη, ← Complex.ofReal_mul, Complex.ofReal_re]
  exact congrArg₂ (· + ·) (congrArg (_ * ·) (congrArg Complex.re htr2.symm)) rfl

/-- In every direction but zero, the metric of `KroneckerStudent(a, b, df)` is larger than the
Fisher information of the laws whose likelihood the estimator maximises. -/
theorem C140_violated (a b : ℕ) (ha : 0 < a) (hb : 0 < b) (df : ℝ) (hdf : 0 < df)
    (θ ξ : (kronStudent a b df).Pair) (hA : θ.1.PosDef) (hB : θ.2.PosDef)
    (hξ : KronTangent (kronStudent a b df) θ ξ) (h0 : ξ ≠ 0) :
    ∃ v, FisherIs df (kronLine θ ξ) (kronLine θ ξ) v ∧ v < (kronStudent a b df).inner θ ξ ξ := by
  have hh : 0 < df / 2 := by positivity
  have h1 := C140_partial a b ha hb (df / 2) hh θ ξ ξ hA hB hξ hξ
  rw [show 2 * (df / 2) = df by ring] at h1
  refine ⟨_, h1, ?_⟩
  obtain ⟨p1, p2⟩ := C59_posDef a b ha hb df hdf θ ξ hA hB hξ
  have hpos : 0 < (kronStudent a b df).inner θ ξ ξ := lt_of_le_of_ne p1 fun h => h0 (p2.1 h.symm)
  have s1 := C59_student a b df θ ξ ξ hA hB hξ hξ
  have s2 := C59_student a b (df / 2) θ ξ ξ hA hB hξ hξ
  have hsq : 0 ≤ (((θ.1 ⊗ₖ θ.2)⁻¹ * (ξ.1 ⊗ₖ θ.2 + θ.1 ⊗ₖ ξ.2)).trace *
        ((θ.1 ⊗ₖ θ.2)⁻¹ * (ξ.1 ⊗ₖ θ.2 + θ.1 ⊗ₖ ξ.2)).trace).re := by
    have hS : (θ.1 ⊗ₖ θ.2).PosDef := hA.kronecker hB
    have hDh : (ξ.1 ⊗ₖ θ.2 + θ.1 ⊗ₖ ξ.2).IsHermitian := by
      rw [IsHermitian, conjTranspose_add, conjTranspose_kronecker, conjTranspose_kronecker, hξ.1.eq,
        hB.1.eq, hA.1.eq, hξ.2.2.eq]
    have : star ((θ.1 ⊗ₖ θ.2)⁻¹ * (ξ.1 ⊗ₖ θ.2 + θ.1 ⊗ₖ ξ.2)).trace =
        ((θ.1 ⊗ₖ θ.2)⁻¹ * (ξ.1 ⊗ₖ θ.2 + θ.1 ⊗ₖ ξ.2)).trace := by
      rw [← trace_conjTranspose, conjTranspose_mul, hDh.eq, hS.inv.1.eq, trace_mul_comm]
    rw [← Complex.conj_eq_iff_re.1 this, ← Complex.ofReal_mul, Complex.ofReal_re]
    exact mul_self_nonneg _
  rw [s1] at hpos ⊢
  refine lt_of_eq_of_lt s2 ?_
  set Q := (((θ.1 ⊗ₖ θ.2)⁻¹ * (ξ.1 ⊗ₖ θ.2 + θ.1 ⊗ₖ ξ.2)) *
        ((θ.1 ⊗ₖ θ.2)⁻¹ * (ξ.1 ⊗ₖ θ.2 + θ.1 ⊗ₖ ξ.2))).trace.re
  set T := (((θ.1 ⊗ₖ θ.2)⁻¹ * (ξ.1 ⊗ₖ θ.2 + θ.1 ⊗ₖ ξ.2)).trace *
        ((θ.1 ⊗ₖ θ.2)⁻¹ * (ξ.1 ⊗ₖ θ.2 + θ.1 ⊗ₖ ξ.2)).trace).re
  have hab : (0 : ℝ) < a * b := by positivity
  have hα0 : 0 < (df + a * b) / (df + a * b + 1) := by positivity
  have hα1 : (df + a * b) / (df + a * b + 1) < 1 := by
    rw [div_lt_one (by positivity)]; linarith
  have hlt : (df / 2 + a * b) / (df / 2 + a * b + 1) < (df + a * b) / (df + a * b + 1) := by
    rw [div_lt_div_iff₀ (by positivity) (by positivity)]; nlinarith
  have hQ : 0 < Q := by
    by_contra hn
    push Not at hn
    nlinarith [mul_nonneg hα0.le (neg_nonneg.2 hn), mul_nonneg (sub_nonneg.2 hα1.le) hsq]
  change (df / 2 + a * b) / (df / 2 + a * b + 1) * Q +
    ((df / 2 + a * b) / (df / 2 + a * b + 1) - 1) * T < _
  nlinarith [mul_pos (sub_pos.2 hlt) hQ, mul_nonneg (sub_nonneg.2 hlt.le) hsq]

/-- Sizes, a point and a tangent direction as in C140. -/
example : ∃ θ ξ : (kronStudent 2 3 3).Pair, θ.1.PosDef ∧ θ.2.PosDef ∧
    KronTangent (kronStudent 2 3 3) θ ξ ∧ ξ ≠ 0 ∧
    FisherIs 6 (kronLine θ ξ) (kronLine θ ξ) ((kronStudent 2 3 3).inner θ ξ ξ) := by
  have ht : KronTangent (kronStudent 2 3 3) (1, 1) (0, 1) :=
    ⟨isHermitian_zero, by simp, isHermitian_one⟩
  have h := C140_partial 2 3 (by norm_num) (by norm_num) 3 (by norm_num) (1, 1) (0, 1) (0, 1)
    PosDef.one PosDef.one ht ht
  rw [show (2 : ℝ) * 3 = 6 by norm_num] at h
  refine ⟨(1, 1), (0, 1), PosDef.one, PosDef.one, ht, ?_, h⟩
  intro h
  have := congrFun (congrFun (congrArg Prod.snd h) (0 : Fin 3)) (0 : Fin 3)
  change (1 : Matrix (Fin 3) (Fin 3) ℂ) 0 0 = 0 at this
  simp at this

end RS
