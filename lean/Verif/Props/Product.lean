import Mathlib.Algebra.Order.Chebyshev
import Mathlib.LinearAlgebra.Matrix.Kronecker
import Verif.Props.HPDDist
import Verif.Props.SPV
import Verif.Model.Structured

/-
Weighted products and the Kronecker manifold, C58 to C60.
-/
set_option autoImplicit false

namespace RS
open Matrix ComplexOrder

/-! ## C58 -/
section C58
variable {m : ℕ} (M : Fin m → Mfd)

/-- `T` describes the tangent vectors and `E` the Euclidean inner product for which the component's
`egrad2rgrad` is the Riemannian gradient of its metric. -/
structure Mfd.GradOk (M : Mfd) (P : M.Pt → Prop) (T : M.Pt → M.Vec → Prop)
    (E : M.Vec → M.Vec → ℝ) : Prop where
  grad : ∀ x g v, P x → T x v → M.inner x (M.egrad2rgrad x g) v = E g v
  homog : ∀ x c u v, P x → M.inner x (M.smul c u) v = c * M.inner x u v
  symm : ∀ x u v, M.inner x u v = M.inner x v u

/-- With non-zero weights `egrad2rgrad` of the product is the Riemannian gradient of the weighted
metric: its inner product with every tangent vector is the sum of the Euclidean ones. -/
theorem C58_gradient (w : Fin m → ℝ) (hw : ∀ i, w i ≠ 0) (P : ∀ i, (M i).Pt → Prop)
    (T : ∀ i, (M i).Pt → (M i).Vec → Prop) (E : ∀ i, (M i).Vec → (M i).Vec → ℝ)
    (hM : ∀ i, (M i).GradOk (P i) (T i) (E i)) (X : ∀ i, (M i).Pt) (G H : ∀ i, (M i).Vec)
    (hX : ∀ i, P i (X i)) (hH : ∀ i, T i (X i) (H i)) :
    WeightedProduct.inner M w X (WeightedProduct.egrad2rgrad M w X G) H = ∑ i, E i (G i) (H i) := by
  unfold WeightedProduct.inner WeightedProduct.egrad2rgrad
  refine Finset.sum_congr rfl fun i _ => ?_
  rw [(hM i).homog _ _ _ _ (hX i), (hM i).grad _ _ _ (hX i) (hH i), ← mul_assoc,
    mul_one_div_cancel (hw i), one_mul]

/-- A comprehension over the components returns `r` when every component returns its entry. -/
theorem comprehension_ok : ∀ {m : ℕ} {V : Fin m → Type} (f : ∀ i, Py (V i)) (r : ∀ i, V i),
    WeightedProduct.comprehension f = .ok r ↔ ∀ i, f i = .ok (r i)
  | 0, _, _, r => by
      simp only [WeightedProduct.comprehension, Except.ok.injEq]
      exact ⟨fun _ i => i.elim0, fun _ => funext fun i => i.elim0⟩
  | m + 1, V, f, r => by
      have ih := comprehension_ok (fun i : Fin m => f i.succ) (fun i => r i.succ)
      rw [WeightedProduct.comprehension, Fin.forall_fin_succ, ← ih]
      cases h0 : f 0 with
      | error e => simp [bind, Except.bind]
      | ok a =>
        cases h1 : WeightedProduct.comprehension (fun i : Fin m => f i.succ) with
        | error e => simp [bind, Except.bind]
        | ok t =>
          simp only [bind, Except.bind, pure, Except.pure, Except.ok.injEq]
          constructor
          · rintro rfl
            exact ⟨rfl, rfl⟩
          · rintro ⟨rfl, rfl⟩
            exact Fin.cons_self_tail r

/-- It raises the exception of the first component that raises. -/
theorem comprehension_error : ∀ {m : ℕ} {V : Fin m → Type} (f : ∀ i, Py (V i)) (e : PyErr),
    WeightedProduct.comprehension f = .error e ↔
      ∃ i, f i = .error e ∧ ∀ j < i, ∃ a, f j = .ok a
  | 0, _, _, e => by
      simp only [WeightedProduct.comprehension, reduceCtorEq, false_iff]
      rintro ⟨i, _⟩
      exact i.elim0
  | m + 1, V, f, e => by
      have ih := comprehension_error (fun i : Fin m => f i.succ) e
      rw [WeightedProduct.comprehension, Fin.exists_fin_succ]
      cases h0 : f 0 with
      | error e' =>
        simp only [bind, Except.bind, Except.error.injEq, Fin.not_lt_zero, false_imp_iff,
          implies_true, and_true]
        constructor
        · exact Or.inl
        · rintro (h | ⟨i, _, h⟩)
          · exact h
          · obtain ⟨a, ha⟩ := h 0 (Fin.succ_pos i)
            rw [h0] at ha
            cases ha
      | ok a =>
        have e1 : (∃ i : Fin m, f i.succ = .error e ∧ ∀ j < i.succ, ∃ a, f j = .ok a) ↔
            ∃ i : Fin m, f i.succ = .error e ∧ ∀ j < i, ∃ a, f j.succ = .ok a := by
          refine exists_congr fun i => and_congr_right fun _ => ?_
          constructor
          · intro h j hj
            exact h j.succ (Fin.succ_lt_succ_iff.2 hj)
          · intro h j
            refine Fin.cases (fun _ => ⟨a, h0⟩) (fun j hj => ?_) j
            exact h j (Fin.succ_lt_succ_iff.1 hj)
        rw [e1, ← ih]
        cases h1 : WeightedProduct.comprehension (fun i : Fin m => f i.succ) with
        | error e' => simp [bind, Except.bind]
        | ok t => simp [bind, Except.bind, pure, Except.pure]

/-- The same for `ehess2rhess` of components that return `r`. -/
theorem C58_hessian (w : Fin m → ℝ) (hw : ∀ i, w i ≠ 0) (P : ∀ i, (M i).Pt → Prop)
    (T : ∀ i, (M i).Pt → (M i).Vec → Prop) (E : ∀ i, (M i).Vec → (M i).Vec → ℝ)
    (hM : ∀ i, (M i).GradOk (P i) (T i) (E i)) (X : ∀ i, (M i).Pt)
    (g h H K r : ∀ i, (M i).Vec) (hX : ∀ i, P i (X i))
    (hr : ∀ i, (M i).ehess2rhess (X i) (g i) (h i) (H i) = .ok (r i)) :
    ∃ R, WeightedProduct.ehess2rhess M w X g h H = .ok R ∧
      WeightedProduct.inner M w X R K = ∑ i, (M i).inner (X i) (r i) (K i) := by
  refine ⟨fun i => (M i).smul (1 / w i) (r i), (comprehension_ok _ _).2 fun i => ?_, ?_⟩
  · rw [hr i]; rfl
  unfold WeightedProduct.inner
  refine Finset.sum_congr rfl fun i _ => ?_
  rw [(hM i).homog _ _ _ _ (hX i), ← mul_assoc, mul_one_div_cancel (hw i), one_mul]

/-- `ehess2rhess` raises the exception of the first component whose own `ehess2rhess` raises. -/
theorem C58_hessian_raises (w : Fin m → ℝ) (X : ∀ i, (M i).Pt) (g h H : ∀ i, (M i).Vec)
    (e : PyErr) :
    WeightedProduct.ehess2rhess M w X g h H = .error e ↔
      ∃ i, (M i).ehess2rhess (X i) (g i) (h i) (H i) = .error e ∧
        ∀ j < i, ∃ r, (M j).ehess2rhess (X j) (g j) (h j) (H j) = .ok r := by
  unfold WeightedProduct.ehess2rhess
  rw [comprehension_error]
  refine exists_congr fun i => and_congr ?_ (forall₂_congr fun j _ => ?_)
  · cases (M i).ehess2rhess (X i) (g i) (h i) (H i) <;> simp [bind, Except.bind, pure, Except.pure]
  · cases (M j).ehess2rhess (X j) (g j) (h j) (H j) <;> simp [bind, Except.bind, pure, Except.pure]

theorem C58_default_weights : WeightedProduct.weights (m := m) none = fun _ => 1 := rfl

/-- For positive weights `inner` is positive definite when the components are. -/
theorem C58_inner_posDef (w : Fin m → ℝ) (hw : ∀ i, 0 < w i) (X : ∀ i, (M i).Pt)
    (G : ∀ i, (M i).Vec) (h0 : ∀ i, 0 ≤ (M i).inner (X i) (G i) (G i)) :
    0 ≤ WeightedProduct.inner M w X G G ∧
    (WeightedProduct.inner M w X G G = 0 ↔ ∀ i, (M i).inner (X i) (G i) (G i) = 0) := by
  have hnn : ∀ i, 0 ≤ w i * (M i).inner (X i) (G i) (G i) := fun i => mul_nonneg (hw i).le (h0 i)
  unfold WeightedProduct.inner
  refine ⟨Finset.sum_nonneg fun i _ => hnn i, fun h i => ?_, fun h => ?_⟩
  · have := (Finset.sum_eq_zero_iff_of_nonneg fun i _ => hnn i).1 h i (Finset.mem_univ i)
    exact (mul_eq_zero.1 this).resolve_left (hw i).ne'
  · simp [h]

theorem C58_dist_sq (w : Fin m → ℝ) (hw : ∀ i, 0 ≤ w i) (X Y : ∀ i, (M i).Pt) :
    0 ≤ WeightedProduct.dist M w X Y ∧
    WeightedProduct.dist M w X Y ^ 2 = ∑ i, w i * (M i).dist (X i) (Y i) ^ 2 :=
  ⟨Real.sqrt_nonneg _, Real.sq_sqrt (Finset.sum_nonneg fun i _ => mul_nonneg (hw i) (sq_nonneg _))⟩

theorem C58_dist_symm (w : Fin m → ℝ) (X Y : ∀ i, (M i).Pt)
    (h : ∀ i, (M i).dist (X i) (Y i) = (M i).dist (Y i) (X i)) :
    WeightedProduct.dist M w X Y = WeightedProduct.dist M w Y X := by
  unfold WeightedProduct.dist
  simp only [h]

theorem C58_dist_zero_iff (w : Fin m → ℝ) (hw : ∀ i, 0 < w i) (X Y : ∀ i, (M i).Pt) :
    WeightedProduct.dist M w X Y = 0 ↔ ∀ i, (M i).dist (X i) (Y i) = 0 := by
  have hnn : ∀ i, 0 ≤ w i * (M i).dist (X i) (Y i) ^ 2 := fun i =>
    mul_nonneg (hw i).le (sq_nonneg _)
  unfold WeightedProduct.dist
  rw [Real.sqrt_eq_zero (Finset.sum_nonneg fun i _ => hnn i),
    Finset.sum_eq_zero_iff_of_nonneg fun i _ => hnn i]
  constructor
  · intro h i
    have := (mul_eq_zero.1 (h i (Finset.mem_univ i))).resolve_left (hw i).ne'
    exact pow_eq_zero_iff (by norm_num) |>.1 this
  · intro h i _
    rw [h i]; ring

/-- The triangle inequality passes from the components to the product. -/
theorem C58_dist_triangle (w : Fin m → ℝ) (hw : ∀ i, 0 ≤ w i) (X Y Z : ∀ i, (M i).Pt)
    (h0 : ∀ i, 0 ≤ (M i).dist (X i) (Z i))
    (h : ∀ i, (M i).dist (X i) (Z i) ≤ (M i).dist (X i) (Y i) + (M i).dist (Y i) (Z i)) :
    WeightedProduct.dist M w X Z ≤ WeightedProduct.dist M w X Y + WeightedProduct.dist M w Y Z := by
  set a : Fin m → ℝ := fun i => Real.sqrt (w i) * (M i).dist (X i) (Y i)
  set b : Fin m → ℝ := fun i => Real.sqrt (w i) * (M i).dist (Y i) (Z i)
  have e : ∀ (t : Fin m → ℝ), Real.sqrt (∑ i, w i * t i ^ 2) =
      ‖(WithLp.toLp 2 fun i => Real.sqrt (w i) * t i : EuclideanSpace ℝ (Fin m))‖ := fun t => by
    rw [EuclideanSpace.norm_eq]
    congr 1
    refine Finset.sum_congr rfl fun i _ => ?_
    rw [Real.norm_eq_abs, sq_abs, mul_pow, Real.sq_sqrt (hw i)]
  unfold WeightedProduct.dist
  refine le_trans ?_ (le_of_le_of_eq (norm_add_le
    (WithLp.toLp 2 a : EuclideanSpace ℝ (Fin m)) (WithLp.toLp 2 b)) ?_)
  · rw [e, EuclideanSpace.norm_eq, EuclideanSpace.norm_eq]
    refine Real.sqrt_le_sqrt (Finset.sum_le_sum fun i _ => ?_)
    rw [Real.norm_eq_abs, Real.norm_eq_abs, sq_abs, sq_abs]
    have h1 : Real.sqrt (w i) * (M i).dist (X i) (Z i) ≤ a i + b i := by
      rw [← mul_add]; exact mul_le_mul_of_nonneg_left (h i) (Real.sqrt_nonneg _)
    exact pow_le_pow_left₀ (mul_nonneg (Real.sqrt_nonneg _) (h0 i)) h1 2
  · rw [e fun i => (M i).dist (X i) (Y i), e fun i => (M i).dist (Y i) (Z i)]

/-- The exact norm of what `randvec` returns when every component returns a unit vector: the root
mean square of the weights. -/
theorem C58_randvec_norm (w : Fin m → ℝ) (hw : ∀ i, 0 < w i) (P : ∀ i, (M i).Pt → Prop)
    (T : ∀ i, (M i).Pt → (M i).Vec → Prop) (E : ∀ i, (M i).Vec → (M i).Vec → ℝ)
    (hM : ∀ i, (M i).GradOk (P i) (T i) (E i)) (X : ∀ i, (M i).Pt) (u : ∀ i, (M i).Vec)
    (hX : ∀ i, P i (X i)) (hu : ∀ i, (M i).inner (X i) (u i) (u i) = 1) :
    WeightedProduct.norm M w X (WeightedProduct.randvec M w u) =
      Real.sqrt ((∑ i, w i ^ 2) / m) := by
  unfold WeightedProduct.norm
  congr 1
  unfold WeightedProduct.inner WeightedProduct.randvec
  rw [Finset.sum_div]
  refine Finset.sum_congr rfl fun i _ => ?_
  set s := (m : ℝ) ^ (-1 / 2 : ℝ) * (1 / w i ^ (-1 / 2 : ℝ)) with hs
  rw [(hM i).homog _ _ _ _ (hX i), (hM i).symm, (hM i).homog _ _ _ _ (hX i), hu i]
  have hm : (0 : ℝ) < m := by exact_mod_cast Fin.pos i
  have h1 : ((m : ℝ) ^ (-1 / 2 : ℝ)) ^ 2 = 1 / m := by
    rw [← Real.rpow_natCast, ← Real.rpow_mul hm.le]
    norm_num [Real.rpow_neg_one]
  have h2 : (w i ^ (-1 / 2 : ℝ)) ^ 2 = 1 / w i := by
    rw [← Real.rpow_natCast, ← Real.rpow_mul (hw i).le]
    norm_num [Real.rpow_neg_one]
  have h3 : s ^ 2 = w i / m := by
    rw [hs, mul_pow, div_pow, one_pow, h1, h2]
    have := (hw i).ne'
    field_simp
  have hne : w i ≠ 0 := (hw i).ne'
  calc w i * (s * (s * 1)) = w i * s ^ 2 := by ring
    _ = _ := by rw [h3]; field_simp

/-- Unit norm holds exactly when the mean of the squared weights is 1. -/
theorem C58_randvec_iff (hm : 0 < m) (w : Fin m → ℝ) (hw : ∀ i, 0 < w i)
    (P : ∀ i, (M i).Pt → Prop) (T : ∀ i, (M i).Pt → (M i).Vec → Prop)
    (E : ∀ i, (M i).Vec → (M i).Vec → ℝ) (hM : ∀ i, (M i).GradOk (P i) (T i) (E i))
    (X : ∀ i, (M i).Pt) (u : ∀ i, (M i).Vec) (hX : ∀ i, P i (X i))
    (hu : ∀ i, (M i).inner (X i) (u i) (u i) = 1) :
    WeightedProduct.norm M w X (WeightedProduct.randvec M w u) = 1 ↔ ∑ i, w i ^ 2 = m := by
  rw [C58_randvec_norm M w hw P T E hM X u hX hu, Real.sqrt_eq_one]
  have : (0 : ℝ) < m := by exact_mod_cast hm
  rw [div_eq_one_iff_eq this.ne']

/-- The part of the claim that holds: the default weights. -/
theorem C58_randvec_partial (hm : 0 < m) (P : ∀ i, (M i).Pt → Prop)
    (T : ∀ i, (M i).Pt → (M i).Vec → Prop) (E : ∀ i, (M i).Vec → (M i).Vec → ℝ)
    (hM : ∀ i, (M i).GradOk (P i) (T i) (E i)) (X : ∀ i, (M i).Pt) (u : ∀ i, (M i).Vec)
    (hX : ∀ i, P i (X i)) (hu : ∀ i, (M i).inner (X i) (u i) (u i) = 1) :
    WeightedProduct.norm M (WeightedProduct.weights none) X
      (WeightedProduct.randvec M (WeightedProduct.weights none) u) = 1 := by
  rw [C58_randvec_iff M hm _ (fun i => by rw [C58_default_weights]; exact one_pos) P T E hM X u hX hu]
  simp [C58_default_weights]

end C58

/-- The three manifolds of the package meet the requirements on components. -/
theorem gradOk_spv (n : ℕ) : (Mfd.spv n).GradOk (fun x => Positive (x : Matrix (Fin n) (Fin 1) ℝ))
    (fun _ _ => True) (fun g v => ∑ i, (g : Matrix (Fin n) (Fin 1) ℝ) i 0 *
      (v : Matrix (Fin n) (Fin 1) ℝ) i 0) where
  grad x g v hx _ := C51_gradient x g v hx 0
  homog x c u v _ := by
    have h := congrFun (C51_inner_linear (k := 1) x u 0 v c) 0
    have h0 : SPV.inner (k := 1) x 0 v 0 = 0 := by simp [SPV.inner]
    rw [add_zero] at h
    rw [Pi.add_apply, h0, add_zero] at h
    exact h
  symm x u v := congrFun (C51_inner_symm x u v) 0

theorem hpd_inner_homog {n k : ℕ} (x u v : Stack n k) (c : ℝ) :
    HPD.inner x ((c : ℂ) • u) v = c * HPD.inner x u v := by
  have h := C54_bilinear x u 0 v c
  have hz : HPD.inner x 0 v = 0 := by rw [hpd_inner_eq]; simp
  rwa [add_zero, hz, add_zero] at h

theorem gradOk_hpd (n k : ℕ) (eigh : Eigh (Fin n) ℂ)
    (chol back : Matrix (Fin n) (Fin n) ℂ → Matrix (Fin n) (Fin n) ℂ) :
    (Mfd.hpd n k eigh chol back).GradOk (fun x => ∀ i, ((x : Stack n k) i).PosDef)
      (fun _ v => ∀ i, ((v : Stack n k) i).IsHermitian) (fun g v => euclid (n := n) (k := k) g v) where
  grad x g v hx hv := (C54_gradient x g v hx hv).2
  homog x c u v _ := hpd_inner_homog x u v c
  symm x u v := C54_symm x u v

theorem gradOk_shpd (n k : ℕ) (hn : 0 < n) (eigh : Eigh (Fin n) ℂ)
    (chol back : Matrix (Fin n) (Fin n) ℂ → Matrix (Fin n) (Fin n) ℂ) :
    (Mfd.shpd n k eigh chol back).GradOk (fun x => ∀ i, ((x : Stack n k) i).PosDef)
      (fun x v => ShpdTangent (n := n) (k := k) x v) (fun g v => euclid (n := n) (k := k) g v) where
  grad x g v hx hv := (C56_gradient hn x g v hx hv).2
  homog x c u v _ := hpd_inner_homog x u v c
  symm x u v := C54_symm x u v

/-- `randvec` with weights other than 1 is not a unit vector: strictly positive vectors of length
one with weight 2, where `randvec` has norm 2. -/
theorem C58_randvec_violated : ∃ (M : Fin 1 → Mfd) (w : Fin 1 → ℝ) (X : ∀ i, (M i).Pt)
    (u : ∀ i, (M i).Vec), (∀ i, 0 < w i) ∧ (∀ i, (M i).inner (X i) (u i) (u i) = 1) ∧
      WeightedProduct.norm M w X (WeightedProduct.randvec M w u) = 2 := by
  have hu : ∀ i : Fin 1, (Mfd.spv 1).inner (fun _ _ => (1 : ℝ)) (fun _ _ => (1 : ℝ))
      (fun _ _ => (1 : ℝ)) = 1 := fun _ => by simp [Mfd.spv, SPV.inner]
  refine ⟨fun _ => Mfd.spv 1, fun _ => 2, fun _ _ _ => (1 : ℝ), fun _ _ _ => (1 : ℝ),
    fun _ => by norm_num, hu, ?_⟩
  rw [C58_randvec_norm (fun _ : Fin 1 => Mfd.spv 1) _ (fun _ => by norm_num) _ _ _
    (fun _ => gradOk_spv 1) _ _ (fun _ _ _ => by norm_num) hu]
  rw [Real.sqrt_eq_iff_mul_self_eq (by norm_num) (by norm_num)]
  norm_num

/-! ## C59 -/
section C59
open Kronecker
variable (K : KronM)

/-- The inner product of the Kronecker manifold through traces. -/
theorem kron_inner_eq (theta xi eta : K.Pair) : K.inner theta xi eta =
    K.alpha * K.b * (theta.1⁻¹ * xi.1 * (theta.1⁻¹ * eta.1)).trace.re +
    K.alpha * K.a * (theta.2⁻¹ * xi.2 * (theta.2⁻¹ * eta.2)).trace.re +
    (K.alpha - 1) * (K.a : ℝ) ^ 2 * ((theta.2⁻¹ * xi.2).trace * (theta.2⁻¹ * eta.2).trace).re := by
  unfold KronM.inner KronM.weight0 KronM.weight1
  simp only
  rw [hpd_inner_eq, Fin.sum_univ_one, add_assoc]
  congr 4

/-- A tangent vector of the Kronecker manifold. -/
def KronTangent (theta xi : K.Pair) : Prop :=
  xi.1.IsHermitian ∧ (theta.1⁻¹ * xi.1).trace = 0 ∧ xi.2.IsHermitian

/-- `ξ_A ⊗ B + A ⊗ ξ_B` is the derivative of `A ⊗ B` in direction `ξ`. -/
theorem kron_differential (theta xi : K.Pair) (p q : Fin K.a × Fin K.b) :
    HasDerivAt (fun t : ℝ => ((theta.1 + t • xi.1) ⊗ₖ (theta.2 + t • xi.2)) p q)
      ((xi.1 ⊗ₖ theta.2 + theta.1 ⊗ₖ xi.2) p q) 0 := by
  have h1 : HasDerivAt (fun t : ℝ => (theta.1 + t • xi.1) p.1 q.1) (xi.1 p.1 q.1) 0 := by
    have := ((CurveDeriv.const theta.1 0).add (CurveDeriv.smul_const xi.1 0)) p.1 q.1
    simpa using this
  have h2 : HasDerivAt (fun t : ℝ => (theta.2 + t • xi.2) p.2 q.2) (xi.2 p.2 q.2) 0 := by
    have := ((CurveDeriv.const theta.2 0).add (CurveDeriv.smul_const xi.2 0)) p.2 q.2
    simpa using this
  have := h1.fun_mul h2
  simp only [zero_smul, add_zero] at this
  exact this

/-- `inner` is the Fisher metric of the elliptical model at `S = A ⊗ B`, for tangent vectors. -/
theorem C59_fisher (theta xi eta : K.Pair) (hA : theta.1.PosDef) (hB : theta.2.PosDef)
    (hxi : KronTangent K theta xi) (heta : KronTangent K theta eta) :
    K.inner theta xi eta =
      K.alpha * (((theta.1 ⊗ₖ theta.2)⁻¹ * (xi.1 ⊗ₖ theta.2 + theta.1 ⊗ₖ xi.2)) *
        ((theta.1 ⊗ₖ theta.2)⁻¹ * (eta.1 ⊗ₖ theta.2 + theta.1 ⊗ₖ eta.2))).trace.re +
      (K.alpha - 1) * (((theta.1 ⊗ₖ theta.2)⁻¹ * (xi.1 ⊗ₖ theta.2 + theta.1 ⊗ₖ xi.2)).trace *
        ((theta.1 ⊗ₖ theta.2)⁻¹ * (eta.1 ⊗ₖ theta.2 + theta.1 ⊗ₖ eta.2)).trace).re := by
  have hdA := (isUnit_iff_isUnit_det _).1 hA.isUnit
  have hdB := (isUnit_iff_isUnit_det _).1 hB.isUnit
  have hS : (theta.1 ⊗ₖ theta.2)⁻¹ = theta.1⁻¹ ⊗ₖ theta.2⁻¹ := by
    apply inv_eq_left_inv
    rw [← mul_kronecker_mul, nonsing_inv_mul _ hdA, nonsing_inv_mul _ hdB, one_kronecker_one]
  have key : ∀ z : K.Pair, (theta.1 ⊗ₖ theta.2)⁻¹ * (z.1 ⊗ₖ theta.2 + theta.1 ⊗ₖ z.2) =
      (theta.1⁻¹ * z.1) ⊗ₖ (1 : Matrix (Fin K.b) (Fin K.b) ℂ) +
      (1 : Matrix (Fin K.a) (Fin K.a) ℂ) ⊗ₖ (theta.2⁻¹ * z.2) := fun z => by
    rw [hS, mul_add, ← mul_kronecker_mul, ← mul_kronecker_mul, nonsing_inv_mul _ hdA,
      nonsing_inv_mul _ hdB]
  rw [key, key, kron_inner_eq]
  set Xa := theta.1⁻¹ * xi.1
  set Xb := theta.2⁻¹ * xi.2
  set Ya := theta.1⁻¹ * eta.1
  set Yb := theta.2⁻¹ * eta.2
  have hXa : Xa.trace = 0 := hxi.2.1
  have hYa : Ya.trace = 0 := heta.2.1
  rw [mul_add, add_mul, add_mul]
  simp only [← mul_kronecker_mul, trace_add, trace_kronecker, Matrix.one_mul, mul_one, trace_one,
    Fintype.card_fin, hXa, hYa, zero_mul, zero_add, add_zero]
  have e1 : (((Xa * Ya).trace * (K.b : ℂ) + (K.a : ℂ) * (Xb * Yb).trace)).re =
      K.b * (Xa * Ya).trace.re + K.a * (Xb * Yb).trace.re := by
    rw [Complex.add_re]; simp [Complex.mul_re]; ring
  have e2 : ((K.a : ℂ) * Xb.trace * ((K.a : ℂ) * Yb.trace)).re =
      (K.a : ℝ) ^ 2 * (Xb.trace * Yb.trace).re := by
    have : (K.a : ℂ) * Xb.trace * ((K.a : ℂ) * Yb.trace) =
        (((K.a : ℝ) ^ 2 : ℝ) : ℂ) * (Xb.trace * Yb.trace) := by push_cast; ring
    rw [this, Complex.re_ofReal_mul]
  rw [e1, e2]
  ring

/-- structured.py:351-353 the manifold of `KroneckerStudent(a, b, df)`. -/
noncomputable def kronStudent (a b : ℕ) (df : ℝ) : KronM :=
  ⟨a, b, KronStudentParams.alpha ⟨a, b, df, true⟩⟩

/-- The metric which `KroneckerStudent` chooses: the Fisher metric of a complex elliptical model
with coefficient `(df + p)/(df + p + 1)`, `p = ab`. -/
theorem C59_student (a b : ℕ) (df : ℝ) (theta xi eta : (kronStudent a b df).Pair)
    (hA : theta.1.PosDef) (hB : theta.2.PosDef) (hxi : KronTangent (kronStudent a b df) theta xi)
    (heta : KronTangent (kronStudent a b df) theta eta) :
    (kronStudent a b df).inner theta xi eta =
      (df + a * b) / (df + a * b + 1) *
        (((theta.1 ⊗ₖ theta.2)⁻¹ * (xi.1 ⊗ₖ theta.2 + theta.1 ⊗ₖ xi.2)) *
        ((theta.1 ⊗ₖ theta.2)⁻¹ * (eta.1 ⊗ₖ theta.2 + theta.1 ⊗ₖ eta.2))).trace.re +
      ((df + a * b) / (df + a * b + 1) - 1) *
        (((theta.1 ⊗ₖ theta.2)⁻¹ * (xi.1 ⊗ₖ theta.2 + theta.1 ⊗ₖ xi.2)).trace *
        ((theta.1 ⊗ₖ theta.2)⁻¹ * (eta.1 ⊗ₖ theta.2 + theta.1 ⊗ₖ eta.2)).trace).re :=
  C59_fisher (kronStudent a b df) theta xi eta hA hB hxi heta

/-- `(tr Z)² ≤ b ‖Z‖²` for Hermitian `Z`. -/
theorem trace_sq_le {b : ℕ} {Z : Matrix (Fin b) (Fin b) ℂ} :
    Z.trace.re ^ 2 ≤ b * ∑ p, ∑ q, ‖Z p q‖ ^ 2 := by
  have h1 : Z.trace.re = ∑ p, (Z p p).re := by rw [Matrix.trace, Complex.re_sum]; rfl
  have h2 : (∑ p, (Z p p).re) ^ 2 ≤ b * ∑ p, (Z p p).re ^ 2 := by
    have := sq_sum_le_card_mul_sum_sq (s := (Finset.univ : Finset (Fin b))) (f := fun p => (Z p p).re)
    simpa using this
  rw [h1]
  refine h2.trans (mul_le_mul_of_nonneg_left (Finset.sum_le_sum fun p _ => ?_) (Nat.cast_nonneg b))
  have h3 : (Z p p).re ^ 2 ≤ ‖Z p p‖ ^ 2 := by
    rw [← sq_abs]; exact pow_le_pow_left₀ (abs_nonneg _) (Complex.abs_re_le_norm _) 2
  exact h3.trans (Finset.single_le_sum (f := fun q => ‖Z p q‖ ^ 2) (fun q _ => sq_nonneg _)
    (Finset.mem_univ p))

/-- For `df > 0` the metric chosen by `KroneckerStudent` is positive definite. -/
theorem C59_posDef (a b : ℕ) (ha : 0 < a) (hb : 0 < b) (df : ℝ) (hdf : 0 < df)
    (theta xi : (kronStudent a b df).Pair) (hA : theta.1.PosDef) (hB : theta.2.PosDef)
    (hxi : KronTangent (kronStudent a b df) theta xi) :
    0 ≤ (kronStudent a b df).inner theta xi xi ∧
    ((kronStudent a b df).inner theta xi xi = 0 ↔ xi = 0) := by
  obtain ⟨h1, -, h2⟩ := hxi
  obtain ⟨S, R, hr⟩ := exists_root hA
  obtain ⟨S', R', hr'⟩ := exists_root hB
  have haR : (0 : ℝ) < a := by exact_mod_cast ha
  have hbR : (0 : ℝ) < b := by exact_mod_cast hb
  have hden : 0 < df + a * b + 1 := by positivity
  set al := (df + a * b) / (df + a * b + 1) with hal
  have hal0 : 0 < al := by positivity
  have hkey : al + (al - 1) * (a * b) = df / (df + a * b + 1) := by
    rw [hal]; field_simp; ring
  have hal1 : al - 1 = -1 / (df + a * b + 1) := by rw [hal]; field_simp; ring
  have e : (kronStudent a b df).inner theta xi xi =
      al * b * (theta.1⁻¹ * xi.1 * (theta.1⁻¹ * xi.1)).trace.re +
      al * a * (theta.2⁻¹ * xi.2 * (theta.2⁻¹ * xi.2)).trace.re +
      (al - 1) * (a : ℝ) ^ 2 * ((theta.2⁻¹ * xi.2).trace * (theta.2⁻¹ * xi.2).trace).re :=
    kron_inner_eq (kronStudent a b df) theta xi xi
  have e1 := inner_self_eq hr h1
  have e2 := inner_self_eq hr' h2
  have e3 : ((theta.2⁻¹ * xi.2).trace * (theta.2⁻¹ * xi.2).trace).re =
      (R' * xi.2 * R').trace.re ^ 2 := by
    rw [trace_sandwich hr', ← trace_inv_mul_real hB h2, ← Complex.ofReal_mul]
    rw [Complex.ofReal_re, Complex.ofReal_re]; ring
  rw [e, e1, e2, e3]
  set nA := ∑ p, ∑ q, ‖(R * xi.1 * R) p q‖ ^ 2 with hnA
  set nB := ∑ p, ∑ q, ‖(R' * xi.2 * R') p q‖ ^ 2 with hnB
  have hA0 : 0 ≤ nA := frobSq_nonneg _
  have hB0 : 0 ≤ nB := frobSq_nonneg _
  have htr : (R' * xi.2 * R').trace.re ^ 2 ≤ b * nB := trace_sq_le
  have hlow : al * b * nA + a * (df / (df + a * b + 1)) * nB ≤
      al * b * nA + al * a * nB + (al - 1) * (a : ℝ) ^ 2 * (R' * xi.2 * R').trace.re ^ 2 := by
    have hneg : (al - 1) * (a : ℝ) ^ 2 ≤ 0 := by
      have : al - 1 ≤ 0 := by rw [hal1]; exact div_nonpos_of_nonpos_of_nonneg (by norm_num) hden.le
      nlinarith [sq_nonneg (a : ℝ)]
    have h5 := mul_le_mul_of_nonpos_left htr hneg
    rw [← hkey]
    nlinarith
  have hc1 : 0 < al * b := by positivity
  have hc2 : 0 < a * (df / (df + a * b + 1)) := by positivity
  have hz : ∀ {m : ℕ} {x S R u : Matrix (Fin m) (Fin m) ℂ}, Root x S R → R * u * R = 0 → u = 0 :=
    fun {m x S R u} h h0 => by
      calc u = (S * R) * u * (R * S) := by rw [h.right, h.left, Matrix.one_mul, mul_one]
        _ = S * (R * u * R) * S := by simp only [mul_assoc]
        _ = 0 := by rw [h0]; simp
  refine ⟨le_trans (by positivity) hlow, fun h0 => ?_, fun h0 => ?_⟩
  · rw [h0] at hlow
    have hA1 : nA = 0 := by nlinarith
    have hB1 : nB = 0 := by nlinarith
    exact Prod.ext (hz hr (frobSq_eq_zero hA1)) (hz hr' (frobSq_eq_zero hB1))
  · have h1' : xi.1 = 0 := by rw [h0]; rfl
    have h2' : xi.2 = 0 := by rw [h0]; rfl
    simp [hnA, hnB, h1', h2']

/-! ## C60 -/

/-- The exact value of the inner product with the vector returned by `egrad2rgrad`. -/
theorem C60_exact (ha : 0 < K.a) (hb : 0 < K.b) (hal : K.alpha ≠ 0) (theta g xi : K.Pair)
    (hA : theta.1.PosDef) (hB : theta.2.PosDef) (hxi : KronTangent K theta xi) :
    K.inner theta (K.egrad2rgrad theta g) xi =
      euclid (fun _ : Fin 1 => g.1) (fun _ => xi.1) + euclid (fun _ : Fin 1 => g.2) (fun _ => xi.2) +
      (K.alpha - 1) * K.a / K.alpha * (g.2ᴴ * theta.2).trace.re * (theta.2⁻¹ * xi.2).trace.re := by
  have haR : (K.a : ℝ) ≠ 0 := by exact_mod_cast ha.ne'
  have hbR : (K.b : ℝ) ≠ 0 := by exact_mod_cast hb.ne'
  have hdB := (isUnit_iff_isUnit_det _).1 hB.isUnit
  have gA := (C56_gradient ha (fun _ : Fin 1 => theta.1) (fun _ => g.1) (fun _ => xi.1)
    (fun _ => hA) (fun _ => ⟨hxi.1, hxi.2.1⟩)).2
  have gB := (C54_gradient (fun _ : Fin 1 => theta.2) (fun _ => g.2) (fun _ => xi.2)
    (fun _ => hB) (fun _ => hxi.2.2)).2
  rw [hpd_inner_eq, Fin.sum_univ_one] at gA gB
  rw [kron_inner_eq]
  simp only [KronM.egrad2rgrad, KronM.weight0, KronM.weight1, mul_smul_comm, smul_mul_assoc,
    trace_smul, smul_eq_mul]
  rw [Complex.re_ofReal_mul, Complex.re_ofReal_mul, gA, gB]
  have e1 : (theta.2⁻¹ * HPD.egrad2rgrad (fun _ : Fin 1 => theta.2) (fun _ => g.2) 0).trace =
      (((g.2ᴴ * theta.2).trace.re : ℝ) : ℂ) := by
    have h1 := trace_inv_mul_real hB ((C54_gradient (fun _ : Fin 1 => theta.2) (fun _ => g.2)
      (fun _ => xi.2) (fun _ => hB) (fun _ => hxi.2.2)).1 0)
    rw [← h1]
    congr 1
    have h2 := trace_herm_mul (fun _ : Fin 1 => g.2) hB.1 0
    rw [← h2]
    congr 2
    simp only [HPD.egrad2rgrad]
    rw [← mul_assoc, ← mul_assoc, nonsing_inv_mul _ hdB, Matrix.one_mul]
  rw [e1, ← trace_inv_mul_real hB hxi.2.2]
  have e2 : ((((1 / (K.alpha * K.a) : ℝ)) : ℂ) * (((g.2ᴴ * theta.2).trace.re : ℝ) : ℂ) *
      (((theta.2⁻¹ * xi.2).trace.re : ℝ) : ℂ)).re =
      1 / (K.alpha * K.a) * (g.2ᴴ * theta.2).trace.re * (theta.2⁻¹ * xi.2).trace.re := by
    rw [← Complex.ofReal_mul, ← Complex.ofReal_mul, Complex.ofReal_re]
  rw [e2, Complex.ofReal_re]
  field_simp

/-- The claim fails at every point as soon as `α ∉ {0, 1}`. -/
theorem C60_violated (ha : 0 < K.a) (hb : 0 < K.b) (hal : K.alpha ≠ 0) (hal1 : K.alpha ≠ 1)
    (theta : K.Pair) (hA : theta.1.PosDef) (hB : theta.2.PosDef) :
    ∃ g xi : K.Pair, KronTangent K theta xi ∧ K.inner theta (K.egrad2rgrad theta g) xi ≠
      euclid (fun _ : Fin 1 => g.1) (fun _ => xi.1) +
      euclid (fun _ : Fin 1 => g.2) (fun _ => xi.2) := by
  have hxi : KronTangent K theta (0, theta.2) := ⟨isHermitian_zero, by simp, hB.1⟩
  refine ⟨(0, 1), (0, theta.2), hxi, ?_⟩
  rw [C60_exact K ha hb hal theta (0, 1) (0, theta.2) hA hB hxi]
  have hdB := (isUnit_iff_isUnit_det _).1 hB.isUnit
  have : Nonempty (Fin K.b) := ⟨⟨0, hb⟩⟩
  have htr : 0 < theta.2.trace.re := (RCLike.pos_iff.1 hB.trace_pos).1
  simp only [conjTranspose_one, Matrix.one_mul, nonsing_inv_mul _ hdB, trace_one, Fintype.card_fin,
    Complex.natCast_re]
  have haR : (0 : ℝ) < K.a := by exact_mod_cast ha
  have hbR : (0 : ℝ) < K.b := by exact_mod_cast hb
  have : (K.alpha - 1) * K.a / K.alpha * theta.2.trace.re * K.b ≠ 0 := by
    refine mul_ne_zero (mul_ne_zero (div_ne_zero (mul_ne_zero (sub_ne_zero.2 hal1) haR.ne') hal)
      htr.ne') hbR.ne'
  intro h
  exact this (by linarith)

/-- What does hold: the claim for directions that leave the determinant of `B` unchanged to first
order, for gradients with `tr(g_B B) = 0`, and for `α = 1` (Gaussian data). -/
theorem C60_partial (ha : 0 < K.a) (hb : 0 < K.b) (hal : K.alpha ≠ 0) (theta g xi : K.Pair)
    (hA : theta.1.PosDef) (hB : theta.2.PosDef) (hxi : KronTangent K theta xi)
    (h0 : (theta.2⁻¹ * xi.2).trace.re = 0 ∨ (g.2ᴴ * theta.2).trace.re = 0 ∨
      K.alpha = 1) :
    K.inner theta (K.egrad2rgrad theta g) xi =
      euclid (fun _ : Fin 1 => g.1) (fun _ => xi.1) +
      euclid (fun _ : Fin 1 => g.2) (fun _ => xi.2) := by
  rw [C60_exact K ha hb hal theta g xi hA hB hxi]
  rcases h0 with h0 | h0 | h0 <;> rw [h0] <;> ring

/-- Although it is not the gradient, the vector returned by `egrad2rgrad` is tangent and an ascent
direction: the directional derivative along it is positive unless the function is stationary. -/
theorem C60_ascent_partial (ha : 0 < K.a) (hb : 0 < K.b) (hal : 0 < K.alpha) (theta g : K.Pair)
    (hA : theta.1.PosDef) (hB : theta.2.PosDef) :
    KronTangent K theta (K.egrad2rgrad theta g) ∧
    0 ≤ euclid (fun _ : Fin 1 => g.1) (fun _ => (K.egrad2rgrad theta g).1) +
      euclid (fun _ : Fin 1 => g.2) (fun _ => (K.egrad2rgrad theta g).2) ∧
    (euclid (fun _ : Fin 1 => g.1) (fun _ => (K.egrad2rgrad theta g).1) +
      euclid (fun _ : Fin 1 => g.2) (fun _ => (K.egrad2rgrad theta g).2) = 0 ↔
      ∀ xi, KronTangent K theta xi → euclid (fun _ : Fin 1 => g.1) (fun _ => xi.1) +
        euclid (fun _ : Fin 1 => g.2) (fun _ => xi.2) = 0) := by
  have haR : (0 : ℝ) < K.a := by exact_mod_cast ha
  have hbR : (0 : ℝ) < K.b := by exact_mod_cast hb
  set u := SHPD.egrad2rgrad (fun _ : Fin 1 => theta.1) (fun _ => g.1) with hu
  set v := HPD.egrad2rgrad (fun _ : Fin 1 => theta.2) (fun _ => g.2) with hv
  have hut : ShpdTangent (fun _ : Fin 1 => theta.1) u := C56_proj_tangent ha _ _ fun _ => hA
  have hvh : ∀ i, (v i).IsHermitian := fun i =>
    isHermitian_sandwich hB.1 (multiherm_isHermitian (fun _ : Fin 1 => g.2) i)
  have e1 : (K.egrad2rgrad theta g).1 = ((1 / K.weight0 : ℝ) : ℂ) • u 0 := rfl
  have e2 : (K.egrad2rgrad theta g).2 = ((1 / K.weight1 : ℝ) : ℂ) • v 0 := rfl
  have w0 : 0 < K.weight0 := mul_pos hal hbR
  have w1 : 0 < K.weight1 := mul_pos hal haR
  have herm : ∀ {m : ℕ} {A : Matrix (Fin m) (Fin m) ℂ} (c : ℝ), A.IsHermitian →
      ((c : ℂ) • A).IsHermitian := fun {m A} c h => by
    rw [IsHermitian, conjTranspose_smul, h.eq]; simp
  have ht : KronTangent K theta (K.egrad2rgrad theta g) := by
    refine ⟨?_, ?_, ?_⟩
    · rw [e1]; exact herm _ (hut 0).1
    · rw [e1, mul_smul_comm, trace_smul, (hut 0).2, smul_zero]
    · rw [e2]; exact herm _ (hvh 0)
  have gA : ∀ w : Stack K.a 1, ShpdTangent (fun _ : Fin 1 => theta.1) w →
      HPD.inner (fun _ : Fin 1 => theta.1) u w = euclid (fun _ : Fin 1 => g.1) w := fun w hw =>
    (C56_gradient ha _ (fun _ => g.1) w (fun _ => hA) hw).2
  have gB : ∀ w : Stack K.b 1, (∀ i, (w i).IsHermitian) →
      HPD.inner (fun _ : Fin 1 => theta.2) v w = euclid (fun _ : Fin 1 => g.2) w := fun w hw =>
    (C54_gradient _ (fun _ => g.2) w (fun _ => hB) hw).2
  have f1 : (fun _ : Fin 1 => (K.egrad2rgrad theta g).1) = ((1 / K.weight0 : ℝ) : ℂ) • u := by
    funext i; rw [e1, Fin.fin_one_eq_zero i]; rfl
  have f2 : (fun _ : Fin 1 => (K.egrad2rgrad theta g).2) = ((1 / K.weight1 : ℝ) : ℂ) • v := by
    funext i; rw [e2, Fin.fin_one_eq_zero i]; rfl
  have hsum : euclid (fun _ : Fin 1 => g.1) (fun _ => (K.egrad2rgrad theta g).1) +
      euclid (fun _ : Fin 1 => g.2) (fun _ => (K.egrad2rgrad theta g).2) =
      1 / K.weight0 * HPD.inner (fun _ : Fin 1 => theta.1) u u +
      1 / K.weight1 * HPD.inner (fun _ : Fin 1 => theta.2) v v := by
    rw [← gA _ (fun i => ⟨ht.1, ht.2.1⟩), ← gB _ (fun i => ht.2.2), f1, f2, C54_symm,
      hpd_inner_homog, C54_symm _ v, hpd_inner_homog]
  have pA := C54_posDef (fun _ : Fin 1 => theta.1) u (fun _ => hA) fun i => (hut i).1
  have pB := C54_posDef (fun _ : Fin 1 => theta.2) v (fun _ => hB) hvh
  have c0 : 0 < 1 / K.weight0 := by positivity
  have c1 : 0 < 1 / K.weight1 := by positivity
  refine ⟨ht, ?_, fun h0 xi hxi => ?_, fun h => h _ ht⟩
  · rw [hsum]; exact add_nonneg (mul_nonneg c0.le pA.1) (mul_nonneg c1.le pB.1)
  · rw [hsum] at h0
    have hu0 : u = 0 := pA.2.1 (by nlinarith [mul_nonneg c0.le pA.1, mul_nonneg c1.le pB.1, pA.1, pB.1])
    have hv0 : v = 0 := pB.2.1 (by nlinarith [mul_nonneg c0.le pA.1, mul_nonneg c1.le pB.1, pA.1, pB.1])
    rw [← gA _ (fun i => ⟨hxi.1, hxi.2.1⟩), ← gB _ (fun i => hxi.2.2), hu0, hv0]
    rw [hpd_inner_eq, hpd_inner_eq]
    simp

/-- A point, a tangent vector and a coefficient as chosen by `KroneckerStudent(2, 1, df=3)`. -/
example : (kronStudent 2 1 3).alpha = 5 / 6 ∧
    KronTangent (kronStudent 2 1 3) (1, 1) (!![1, Complex.I; -Complex.I, -1], 1) := by
  refine ⟨by norm_num [kronStudent, KronStudentParams.alpha], ?_, ?_, isHermitian_one⟩
  · show (!![1, Complex.I; -Complex.I, -1] : Matrix (Fin 2) (Fin 2) ℂ).IsHermitian
    ext i j; fin_cases i <;> fin_cases j <;> simp
  · show ((1 : Matrix (Fin 2) (Fin 2) ℂ)⁻¹ * !![1, Complex.I; -Complex.I, -1]).trace = 0
    simp [trace_fin_two]

end C59
end RS
