import Verif.Spec.Rvs
import Verif.Props.Linalg
import Mathlib.Probability.Distributions.Gaussian.Real
import Mathlib.Probability.Independence.InfinitePi
import Mathlib.Probability.Independence.Integration

/-! A sampler that meets the contract of the draws: independent standard normal variables, shaped
by a square root of the covariance. It shows that the hypotheses of C64 can be met. -/
set_option autoImplicit false
namespace RS
open Matrix MeasureTheory ProbabilityTheory

/-- Independent standard normal variables. -/
noncomputable def gaussSeq : Measure (ℕ → ℝ) := Measure.infinitePi fun _ => gaussianReal 0 1

instance : IsProbabilityMeasure gaussSeq := by unfold gaussSeq; infer_instance

theorem gaussSeq_eval (k : ℕ) : MeasurePreserving (fun w : ℕ → ℝ => w k) gaussSeq
    (gaussianReal 0 1) := measurePreserving_eval_infinitePi (fun _ : ℕ => gaussianReal 0 1) k

theorem gaussSeq_indep : iIndepFun (fun (k : ℕ) (w : ℕ → ℝ) => w k) gaussSeq :=
  iIndepFun_infinitePi (P := fun _ : ℕ => gaussianReal 0 1) (X := fun _ => id)
    (fun _ => measurable_id)

theorem gaussSeq_memLp (k : ℕ) : MemLp (fun w : ℕ → ℝ => w k) 2 gaussSeq :=
  (memLp_id_gaussianReal (μ := 0) (v := 1) 2).comp_measurePreserving (gaussSeq_eval k)

theorem gaussSeq_integrable (k : ℕ) : Integrable (fun w : ℕ → ℝ => w k) gaussSeq :=
  (gaussSeq_memLp k).integrable (by norm_num)

theorem gaussSeq_mean (k : ℕ) : ∫ w, w k ∂gaussSeq = 0 := by
  have h1 : ∫ w : ℕ → ℝ, (fun x : ℝ => x) (w k) ∂gaussSeq = ∫ x, x ∂gaussianReal 0 1 := by
    rw [← (gaussSeq_eval k).map_eq, integral_map (gaussSeq_eval k).measurable.aemeasurable
      (by fun_prop)]
  exact h1.trans integral_id_gaussianReal

theorem gaussSeq_mul_integrable (k l : ℕ) :
    Integrable (fun w : ℕ → ℝ => w k * w l) gaussSeq :=
  (gaussSeq_memLp k).integrable_mul (gaussSeq_memLp l)

theorem gaussSeq_cov (k l : ℕ) : ∫ w, w k * w l ∂gaussSeq = if k = l then 1 else 0 := by
  split_ifs with h
  · subst h
    have h1 : ∫ w : ℕ → ℝ, (fun x : ℝ => x * x) (w k) ∂gaussSeq =
        ∫ x, x * x ∂gaussianReal 0 1 := by
      rw [← (gaussSeq_eval k).map_eq, integral_map (gaussSeq_eval k).measurable.aemeasurable
        (by fun_prop)]
    have h2 := variance_fun_id_gaussianReal (μ := 0) (v := 1)
    rw [variance_eq_integral measurable_id'.aemeasurable] at h2
    simp only [integral_id_gaussianReal, sub_zero, NNReal.coe_one, sq] at h2
    exact h1.trans h2
  · have := (gaussSeq_indep.indepFun h).integral_fun_mul_eq_mul_integral
      (gaussSeq_integrable k).1 (gaussSeq_integrable l).1
    rw [this, gaussSeq_mean, zero_mul]

theorem exists_factor {d : ℕ} (C : Matrix (Fin d) (Fin d) ℝ) :
    ∃ A : Matrix (Fin d) (Fin d) ℝ, C.PosDef → A * Aᵀ = C := by
  by_cases h : C.PosDef
  · obtain ⟨e, he⟩ := eigh_exists (ι := Fin d) (𝕜 := ℝ)
    have hs := C08_sqrtm_posDef e he C h
    refine ⟨sqrtm e C, fun _ => ?_⟩
    have : (sqrtm e C)ᵀ = sqrtm e C := by
      rw [← conjTranspose_eq_transpose_of_trivial]; exact hs.1
    rw [this]
    exact C08_sqrtm_mul_self e he C h.posSemidef
  · exact ⟨0, fun h' => absurd h' h⟩

/-- Draws of the normal law from independent standard normal variables. -/
noncomputable def gaussSampler (size : ℕ) (w : ℕ → ℝ) (P : MvParams) :
    Matrix (Fin size) (Fin P.dim) ℝ :=
  Matrix.of fun i a => P.mean a +
    ∑ b : Fin P.dim, (exists_factor P.cov).choose a b * w (Nat.pair i b)

theorem gaussSampler_ok (size : ℕ) : SamplerOk gaussSeq 1 (gaussSampler size) := by
  have hlin : ∀ (P : MvParams) (i : Fin size) (a : Fin P.dim), Integrable
      (fun w : ℕ → ℝ => ∑ b : Fin P.dim, (exists_factor P.cov).choose a b * w (Nat.pair i b))
      gaussSeq := fun P i a =>
    integrable_finsetSum _ fun b _ => (gaussSeq_integrable _).const_mul _
  refine ⟨fun P hP i a => ⟨?_, ?_⟩, fun P hP i a b => ?_⟩
  · exact (integrable_const _).add (hlin P i a)
  · simp only [gaussSampler, of_apply]
    rw [integral_add (integrable_const _) (hlin P i a),
      integral_finsetSum _ fun b _ => (gaussSeq_integrable _).const_mul _]
    simp [integral_const_mul, gaussSeq_mean]
  · set A := (exists_factor P.cov).choose with hA
    have hAA : A * Aᵀ = P.cov := (exists_factor P.cov).choose_spec hP
    have e : (fun w : ℕ → ℝ => (gaussSampler size w P i a - P.mean a) *
        (gaussSampler size w P i b - P.mean b)) = fun w =>
        ∑ k : Fin P.dim, ∑ l : Fin P.dim, (A a k * A b l) *
          (w (Nat.pair i k) * w (Nat.pair i l)) := by
      funext w
      simp only [gaussSampler, of_apply, add_sub_cancel_left, ← hA, Finset.sum_mul_sum]
      refine Finset.sum_congr rfl fun k _ => Finset.sum_congr rfl fun l _ => by ring
    rw [e]
    have hint : ∀ k l : Fin P.dim, Integrable (fun w : ℕ → ℝ => (A a k * A b l) *
        (w (Nat.pair i k) * w (Nat.pair i l))) gaussSeq := fun k l =>
      (gaussSeq_mul_integrable _ _).const_mul _
    refine ⟨integrable_finsetSum _ fun k _ => integrable_finsetSum _ fun l _ => hint k l, ?_⟩
    rw [integral_finsetSum _ fun k _ => integrable_finsetSum _ fun l _ => hint k l]
    simp only [integral_finsetSum _ fun l _ => hint _ l, integral_const_mul, gaussSeq_cov,
      Nat.pair_eq_pair, true_and, Fin.val_inj, mul_ite, mul_one, mul_zero, Finset.sum_ite_eq,
      Finset.mem_univ, if_true, one_mul]
    rw [← hAA, Matrix.mul_apply]
    rfl

theorem gaussSampler_normal (size : ℕ) (P : MvParams) (hP : P.cov.PosDef) (i : Fin size) :
    NormalRow gaussSeq (fun w => gaussSampler size w P i) P.mean P.cov := by
  intro t
  set A := (exists_factor P.cov).choose with hA
  have hAA : A * Aᵀ = P.cov := (exists_factor P.cov).choose_spec hP
  set c : Fin P.dim → ℝ := Aᵀ *ᵥ t with hc
  have e : ∀ w : ℕ → ℝ, t ⬝ᵥ gaussSampler size w P i =
      t ⬝ᵥ P.mean + ∑ k, c k * w (Nat.pair i k) := fun w => by
    have : gaussSampler size w P i = P.mean + A *ᵥ fun k => w (Nat.pair i k) := by
      funext a; simp [gaussSampler, mulVec, dotProduct, ← hA]
    rw [this, dotProduct_add, dotProduct_mulVec, ← mulVec_transpose]
    rfl
  have hq : t ⬝ᵥ (P.cov *ᵥ t) = ∑ k, c k ^ 2 := by
    rw [← hAA, ← mulVec_mulVec, dotProduct_mulVec, ← mulVec_transpose, ← hc]
    simp [dotProduct, sq]
  have e2 : ∀ w : ℕ → ℝ, Complex.exp (Complex.I * ((t ⬝ᵥ gaussSampler size w P i : ℝ) : ℂ)) =
      Complex.exp (Complex.I * ((t ⬝ᵥ P.mean : ℝ) : ℂ)) *
        ∏ k, Complex.exp ((c k : ℂ) * (w (Nat.pair i k) : ℂ) * Complex.I) := fun w => by
    rw [e, ← Complex.exp_sum, ← Complex.exp_add]
    congr 1
    push_cast
    rw [mul_add, Finset.mul_sum]
    congr 1
    exact Finset.sum_congr rfl fun k _ => by ring
  simp only [e2]
  rw [integral_const_mul]
  have hinj : Function.Injective fun k : Fin P.dim => Nat.pair i k := fun k l h => by
    simpa [Nat.pair_eq_pair, Fin.val_inj] using h
  have hind : iIndepFun (fun (k : Fin P.dim) (w : ℕ → ℝ) => w (Nat.pair i k)) gaussSeq :=
    gaussSeq_indep.precomp hinj
  have := hind.integral_fun_prod_comp
    (f := fun k (x : ℝ) => Complex.exp ((c k : ℂ) * (x : ℂ) * Complex.I))
    (fun k => (gaussSeq_eval _).measurable.aemeasurable)
    (fun k => (by fun_prop : Continuous fun x : ℝ =>
      Complex.exp ((c k : ℂ) * (x : ℂ) * Complex.I)).aestronglyMeasurable)
  rw [this]
  have hk : ∀ k, ∫ w : ℕ → ℝ, Complex.exp ((c k : ℂ) * (w (Nat.pair i k) : ℂ) * Complex.I)
      ∂gaussSeq = Complex.exp (-((c k ^ 2 / 2 : ℝ) : ℂ)) := fun k => by
    have h1 := charFun_gaussianReal (μ := 0) (v := 1) (c k)
    rw [charFun_apply_real, ← (gaussSeq_eval (Nat.pair i k)).map_eq, integral_map
      (gaussSeq_eval _).measurable.aemeasurable (by fun_prop)] at h1
    rw [h1]
    congr 1
    push_cast
    simp
  simp only [hk]
  rw [← Complex.exp_sum, ← Complex.exp_add, hq]
  congr 1
  push_cast
  rw [Finset.sum_div, Finset.sum_neg_distrib]
  ring

end RS
