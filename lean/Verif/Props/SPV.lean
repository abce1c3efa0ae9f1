import Mathlib.Analysis.InnerProductSpace.PiL2
import Mathlib.Analysis.SpecialFunctions.ExpDeriv
import Mathlib.Analysis.Calculus.Deriv.Mul
import Mathlib.Analysis.Calculus.Deriv.Add
import Mathlib.Analysis.Calculus.Deriv.Pow
import Verif.Model.Manifolds
import Verif.Spec.Manifolds

/-
The manifold of strictly positive vectors: C50, C51.
-/
set_option autoImplicit false

namespace RS
open Matrix
variable {n k : ℕ}

/-! ## C50 -/

theorem C50_retr_pos (x u : Matrix (Fin n) (Fin k) ℝ) (hx : Positive x) :
    Positive (SPV.retr x u) := by
  intro i j
  have h := hx i j
  have e : SPV.retr x u i j = (x i j + (x i j + u i j) ^ 2 / x i j) / 2 := by
    simp only [SPV.retr, of_apply]
    field_simp
    ring
  rw [e]
  have : 0 ≤ (x i j + u i j) ^ 2 / x i j := by positivity
  linarith

theorem C50_exp_pos (x u : Matrix (Fin n) (Fin k) ℝ) (hx : Positive x) :
    Positive (SPV.exp x u) := fun i j => mul_pos (hx i j) (Real.exp_pos _)

theorem C50_exp_log (x y : Matrix (Fin n) (Fin k) ℝ) (hx : Positive x) (hy : Positive y) :
    SPV.exp x (SPV.log x y) = y := by
  ext i j
  have h := hx i j
  have h2 := hy i j
  simp only [SPV.exp, SPV.log, of_apply]
  have e : 1 / x i j * (x i j * Real.log (1 / x i j * y i j)) = Real.log (1 / x i j * y i j) := by
    field_simp
  rw [e, Real.exp_log (by positivity)]
  field_simp

theorem C50_log_exp (x u : Matrix (Fin n) (Fin k) ℝ) (hx : Positive x) :
    SPV.log x (SPV.exp x u) = u := by
  ext i j
  have h := hx i j
  simp only [SPV.exp, SPV.log, of_apply]
  have e : 1 / x i j * (x i j * Real.exp (1 / x i j * u i j)) = Real.exp (1 / x i j * u i j) := by
    field_simp
  rw [e, Real.log_exp]
  field_simp

/-- `rand` for draws in `[1e-6, 1)`. -/
theorem C50_rand_pos (draw : Matrix (Fin n) (Fin k) ℝ)
    (hd : ∀ i j, (1e-6 : ℝ) ≤ draw i j ∧ draw i j < 1) : Positive (SPV.rand draw) := fun i j =>
  lt_of_lt_of_le (by norm_num) (hd i j).1

/-- `zerovec` is the neutral tangent vector: following it does not move, and it has norm 0. -/
theorem C50_zerovec (x : Matrix (Fin n) (Fin k) ℝ) :
    SPV.retr x (SPV.zerovec x) = x ∧ SPV.exp x (SPV.zerovec x) = x ∧
    SPV.norm x (SPV.zerovec x) = 0 ∧ ∀ u, u + SPV.zerovec x = u := by
  refine ⟨?_, ?_, ?_, ?_⟩
  · ext i j; simp [SPV.retr, SPV.zerovec]
  · ext i j; simp [SPV.exp, SPV.zerovec]
  · ext j; simp [SPV.norm, SPV.inner, SPV.zerovec]
  · intro u; simp [SPV.zerovec]

/-- `retr` and `exp` leave `x` in the direction `u`. -/
theorem C50_first_order (x u : Matrix (Fin n) (Fin k) ℝ) (hx : Positive x) :
    CurveDeriv (fun t : ℝ => SPV.retr x (t • u)) u 0 ∧
    CurveDeriv (fun t : ℝ => SPV.exp x (t • u)) u 0 := by
  constructor
  · intro i j
    simp only [SPV.retr, of_apply, Matrix.smul_apply, smul_eq_mul]
    have h1 : HasDerivAt (fun s : ℝ => s * u i j) (u i j) 0 := by
      simpa using (hasDerivAt_id (0 : ℝ)).mul_const (u i j)
    have h2 := (h1.const_add (x i j)).fun_add ((h1.fun_pow 2).const_mul ((1 / 2) * (x i j)⁻¹))
    exact h2.congr_deriv (by simp)
  · intro i j
    simp only [SPV.exp, of_apply, Matrix.smul_apply, smul_eq_mul]
    have h1 : HasDerivAt (fun s : ℝ => 1 / x i j * (s * u i j)) (1 / x i j * u i j) 0 := by
      simpa using ((hasDerivAt_id (0 : ℝ)).mul_const (u i j)).const_mul (1 / x i j)
    have h2 := h1.exp.const_mul (x i j)
    have h := (hx i j).ne'
    refine h2.congr_deriv ?_
    simp
    field_simp

/-- A concrete point and tangent vector. -/
example : Positive (!![1, 2; 3, 4] : Matrix (Fin 2) (Fin 2) ℝ) ∧
    SPV.retr !![1, 2; 3, 4] !![-1, 0; -9, 4] = !![1 / 2, 2; 15 / 2, 10] := by
  constructor
  · intro i j; fin_cases i <;> fin_cases j <;> norm_num
  · ext i j; fin_cases i <;> fin_cases j <;> norm_num [SPV.retr]

/-! ## C51 -/

theorem spv_dist_eq (x y : Matrix (Fin n) (Fin k) ℝ) (j : Fin k) :
    SPV.dist x y j = Dist.dist (WithLp.toLp 2 fun i => Real.log (x i j) : EuclideanSpace ℝ (Fin n))
      (WithLp.toLp 2 fun i => Real.log (y i j)) := by
  rw [EuclideanSpace.dist_eq]
  simp only [SPV.dist, Real.dist_eq, sq_abs]

theorem C51_dist_symm (x y : Matrix (Fin n) (Fin k) ℝ) : SPV.dist x y = SPV.dist y x := by
  ext j
  rw [spv_dist_eq, spv_dist_eq, dist_comm]

theorem C51_dist_triangle (x y z : Matrix (Fin n) (Fin k) ℝ) (j : Fin k) :
    SPV.dist x z j ≤ SPV.dist x y j + SPV.dist y z j := by
  simp only [spv_dist_eq]
  exact dist_triangle _ _ _

theorem C51_dist_zero_iff (x y : Matrix (Fin n) (Fin k) ℝ) (hx : Positive x) (hy : Positive y) :
    (∀ j, SPV.dist x y j = 0) ↔ x = y := by
  constructor
  · intro h
    ext i j
    have h1 := h j
    rw [spv_dist_eq, dist_eq_zero] at h1
    have h2 : Real.log (x i j) = Real.log (y i j) := congrFun (WithLp.toLp_injective 2 h1) i
    exact Real.log_injOn_pos (hx i j) (hy i j) h2
  · rintro rfl j
    rw [spv_dist_eq, dist_self]

/-- The distance to `y` is the length of `log(x, y)`; the distance to `exp(x, u)` that of `u`. -/
theorem C51_dist_log (x y : Matrix (Fin n) (Fin k) ℝ) (hx : Positive x) (hy : Positive y) :
    SPV.dist x y = SPV.norm x (SPV.log x y) := by
  ext j
  simp only [SPV.dist, SPV.norm, SPV.inner, SPV.log, of_apply]
  congr 1
  refine Finset.sum_congr rfl fun i _ => ?_
  have h := hx i j
  have h2 := hy i j
  rw [Real.log_mul (by positivity) h2.ne', Real.log_div one_ne_zero h.ne', Real.log_one]
  field_simp
  ring

theorem C51_dist_exp (x u : Matrix (Fin n) (Fin k) ℝ) (hx : Positive x) :
    SPV.dist x (SPV.exp x u) = SPV.norm x u := by
  rw [C51_dist_log x _ hx (C50_exp_pos x u hx), C50_log_exp x u hx]

theorem C51_transp_isometry (x1 x2 u v : Matrix (Fin n) (Fin k) ℝ) (h1 : Positive x1)
    (h2 : Positive x2) :
    SPV.inner x2 (SPV.transp x1 x2 u) (SPV.transp x1 x2 v) = SPV.inner x1 u v := by
  ext j
  simp only [SPV.inner, SPV.transp, SPV.proj, of_apply]
  refine Finset.sum_congr rfl fun i _ => ?_
  have := (h1 i j).ne'
  have := (h2 i j).ne'
  field_simp

theorem C51_transp_linear (x1 x2 u v : Matrix (Fin n) (Fin k) ℝ) (c : ℝ) :
    SPV.transp x1 x2 (c • u + v) = c • SPV.transp x1 x2 u + SPV.transp x1 x2 v := by
  ext i j
  simp [SPV.transp, SPV.proj]
  ring

/-- Transport to another point and on to a third is transport to the third; in particular it
can be undone. -/
theorem C51_transp_trans (x1 x2 x3 u : Matrix (Fin n) (Fin k) ℝ) (h2 : Positive x2) :
    SPV.transp x2 x3 (SPV.transp x1 x2 u) = SPV.transp x1 x3 u := by
  ext i j
  simp only [SPV.transp, SPV.proj, of_apply]
  have := (h2 i j).ne'
  field_simp

theorem C51_transp_self (x u : Matrix (Fin n) (Fin k) ℝ) (hx : Positive x) :
    SPV.transp x x u = u := by
  ext i j
  simp only [SPV.transp, SPV.proj, of_apply]
  have := (hx i j).ne'
  field_simp

/-- `transp` carries the velocity of the geodesic `exp(x, t u)` at its start to that at its
end. -/
theorem C51_transp_geodesic (x u : Matrix (Fin n) (Fin k) ℝ) (t : ℝ) :
    CurveDeriv (fun s : ℝ => SPV.exp x (s • u)) (SPV.transp x (SPV.exp x (t • u)) u) t := by
  intro i j
  simp only [SPV.exp, SPV.transp, SPV.proj, of_apply, Matrix.smul_apply, smul_eq_mul]
  have h1 : HasDerivAt (fun s : ℝ => 1 / x i j * (s * u i j)) (1 / x i j * u i j) t := by
    simpa using ((hasDerivAt_id t).mul_const (u i j)).const_mul (1 / x i j)
  have h2 := h1.exp.const_mul (x i j)
  refine h2.congr_deriv ?_
  rw [one_div]
  ring

/-- `egrad2rgrad` is the gradient for `inner`, column by column. -/
theorem C51_gradient (x g v : Matrix (Fin n) (Fin k) ℝ) (hx : Positive x) (j : Fin k) :
    SPV.inner x (SPV.egrad2rgrad x g) v j = ∑ i, g i j * v i j := by
  simp only [SPV.inner, SPV.egrad2rgrad, of_apply]
  refine Finset.sum_congr rfl fun i _ => ?_
  have := (hx i j).ne'
  field_simp

theorem C51_inner_posDef (x u : Matrix (Fin n) (Fin k) ℝ) (hx : Positive x) :
    (∀ j, 0 ≤ SPV.inner x u u j) ∧ ((∀ j, SPV.inner x u u j = 0) → u = 0) := by
  have e : ∀ j, SPV.inner x u u j = ∑ i, (1 / x i j * u i j) ^ 2 := fun j =>
    Finset.sum_congr rfl fun i _ => by ring
  constructor
  · intro j
    rw [e]
    positivity
  · intro h
    ext i j
    have h1 := h j
    rw [e, Finset.sum_eq_zero_iff_of_nonneg fun i _ => by positivity] at h1
    have h2 := h1 i (Finset.mem_univ i)
    have h3 := (hx i j).ne'
    simpa [h3] using h2

theorem C51_inner_symm (x u v : Matrix (Fin n) (Fin k) ℝ) : SPV.inner x u v = SPV.inner x v u := by
  ext j
  exact Finset.sum_congr rfl fun i _ => by ring

theorem C51_inner_linear (x u u' v : Matrix (Fin n) (Fin k) ℝ) (c : ℝ) :
    SPV.inner x (c • u + u') v = c • SPV.inner x u v + SPV.inner x u' v := by
  ext j
  simp only [SPV.inner, Matrix.add_apply, Matrix.smul_apply, smul_eq_mul, Pi.add_apply,
    Pi.smul_apply, Finset.mul_sum, ← Finset.sum_add_distrib]
  exact Finset.sum_congr rfl fun i _ => by ring

/-- `randvec` has unit columns (for a draw without zero column, which has probability one). -/
theorem C51_randvec_unit (x draw : Matrix (Fin n) (Fin k) ℝ) (hx : Positive x) (j : Fin k)
    (hd : ∃ i, draw i j ≠ 0) : SPV.norm x (SPV.randvec x draw) j = 1 := by
  obtain ⟨i0, hi0⟩ := hd
  have e : SPV.inner x draw draw j = ∑ i, (1 / x i j * draw i j) ^ 2 :=
    Finset.sum_congr rfl fun i _ => by ring
  have hpos : 0 < SPV.inner x draw draw j := by
    rw [e]
    refine Finset.sum_pos' (fun i _ => by positivity) ⟨i0, Finset.mem_univ _, ?_⟩
    have := (hx i0 j).ne'
    positivity
  have e2 : SPV.inner x (SPV.randvec x draw) (SPV.randvec x draw) j =
      SPV.inner x draw draw j / (SPV.norm x draw j) ^ 2 := by
    have hn : SPV.norm x draw j ≠ 0 := (Real.sqrt_pos.2 hpos).ne'
    simp only [SPV.inner, SPV.randvec, of_apply]
    rw [Finset.sum_div]
    refine Finset.sum_congr rfl fun i _ => ?_
    field_simp
  have e3 : SPV.norm x draw j ^ 2 = SPV.inner x draw draw j := Real.sq_sqrt hpos.le
  rw [SPV.norm, e2, e3, div_self hpos.ne', Real.sqrt_one]

/-- `ehess2rhess` is the Riemannian Hessian: along the geodesic `t ↦ exp(x, t u)` the second
derivative of a function is `inner(x, ehess2rhess(x, egrad, ehess, u), u)`. -/
theorem C51_hessian (f : Matrix (Fin n) (Fin k) ℝ → ℝ)
    (g : Matrix (Fin n) (Fin k) ℝ → Matrix (Fin n) (Fin k) ℝ) (hf : IsEGradPos f g)
    (x u h : Matrix (Fin n) (Fin k) ℝ) (hx : Positive x) (hg : IsEHessPos g x u h) :
    HasDerivAt (deriv fun t : ℝ => f (SPV.exp x (t • u)))
      (∑ j, SPV.inner x (SPV.ehess2rhess x (g x) h u) u j) 0 := by
  set c : ℝ → Matrix (Fin n) (Fin k) ℝ := fun t => SPV.exp x (t • u) with hc
  have hpos : ∀ t, Positive (c t) := fun t => C50_exp_pos x _ hx
  have hc0 : c 0 = x := by ext i j; simp [hc, SPV.exp]
  have hd : ∀ t, CurveDeriv c (SPV.transp x (c t) u) t := fun t => C51_transp_geodesic x u t
  have hd' : ∀ t, deriv (fun t => f (c t)) t =
      ∑ i, ∑ j, g (c t) i j * SPV.transp x (c t) u i j := fun t =>
    (hf c _ t hpos (hd t)).deriv
  have hd0 : CurveDeriv c u 0 := by
    have := hd 0
    rwa [hc0, C51_transp_self x u hx] at this
  have hgd := hg c hpos hc0 hd0
  rw [show (deriv fun t : ℝ => f (SPV.exp x (t • u))) =
    fun t => ∑ i, ∑ j, g (c t) i j * SPV.transp x (c t) u i j from funext hd']
  have hterm : ∀ i j, HasDerivAt (fun t => g (c t) i j * SPV.transp x (c t) u i j)
      (h i j * u i j + g x i j * (u i j * ((x i j)⁻¹ * u i j))) 0 := by
    intro i j
    have h2 : HasDerivAt (fun t => SPV.transp x (c t) u i j) (u i j * ((x i j)⁻¹ * u i j)) 0 := by
      simp only [SPV.transp, SPV.proj, of_apply]
      exact (hd0 i j).mul_const _
    have h1 : HasDerivAt (fun t => g (c t) i j) (h i j) 0 := hgd i j
    refine (h1.fun_mul h2).congr_deriv ?_
    rw [hc0, C51_transp_self x u hx]
  have hsum := HasDerivAt.fun_sum (u := Finset.univ) fun i _ =>
    HasDerivAt.fun_sum (u := Finset.univ) fun j _ => hterm i j
  refine hsum.congr_deriv ?_
  rw [Finset.sum_comm]
  refine Finset.sum_congr rfl fun j _ => Finset.sum_congr rfl fun i _ => ?_
  simp only [SPV.ehess2rhess, of_apply]
  have := (hx i j).ne'
  field_simp

/-- `⟨ehess2rhess(x, g, h, a), b⟩`: the Euclidean Hessian and a form symmetric in `a` and `b`. -/
theorem spv_ehess_polar (x g a b h : Matrix (Fin n) (Fin k) ℝ) (hx : Positive x) :
    ∑ j, SPV.inner x (SPV.ehess2rhess x g h a) b j =
      (∑ i, ∑ j, h i j * b i j) + ∑ i, ∑ j, g i j * a i j * b i j / x i j := by
  rw [← Finset.sum_add_distrib]
  simp only [← Finset.sum_add_distrib]
  rw [Finset.sum_comm]
  refine Finset.sum_congr rfl fun j _ => Finset.sum_congr rfl fun i _ => ?_
  simp only [SPV.ehess2rhess, of_apply]
  have := (hx i j).ne'
  field_simp

/-- The Hessian is self-adjoint for `inner` whenever the Euclidean one is, so the previous theorem
determines it. -/
theorem C51_hessian_selfadjoint (x g u v hu hv : Matrix (Fin n) (Fin k) ℝ) (hx : Positive x)
    (hs : ∑ i, ∑ j, hu i j * v i j = ∑ i, ∑ j, hv i j * u i j) :
    ∑ j, SPV.inner x (SPV.ehess2rhess x g hu u) v j =
      ∑ j, SPV.inner x (SPV.ehess2rhess x g hv v) u j := by
  rw [spv_ehess_polar _ _ _ _ _ hx, spv_ehess_polar _ _ _ _ _ hx, hs]
  congr 1
  exact Finset.sum_congr rfl fun i _ => Finset.sum_congr rfl fun j _ => by ring

/-- A function with gradient and Hessian in the sense used above: `x ↦ Σ x_{ij}²`. -/
example : IsEGradPos (fun x : Matrix (Fin n) (Fin k) ℝ => ∑ i, ∑ j, x i j ^ 2) (fun x => 2 • x) ∧
    ∀ x u : Matrix (Fin n) (Fin k) ℝ, IsEHessPos (fun x => 2 • x) x u (2 • u) := by
  constructor
  · intro c c' t _ hd
    have hsum := HasDerivAt.fun_sum (u := Finset.univ) fun i _ =>
      HasDerivAt.fun_sum (u := Finset.univ) fun j _ => (hd i j).fun_pow 2
    refine hsum.congr_deriv ?_
    exact Finset.sum_congr rfl fun i _ => Finset.sum_congr rfl fun j _ => by
      simp [Matrix.smul_apply]
  · intro x u c _ _ hd i j
    simpa [Matrix.smul_apply] using (hd i j).const_mul 2

end RS
