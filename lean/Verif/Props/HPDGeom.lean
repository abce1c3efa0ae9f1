import Mathlib.LinearAlgebra.FiniteDimensional.Lemmas
import Mathlib.LinearAlgebra.Complex.FiniteDimensional
import Mathlib.LinearAlgebra.Dimension.Constructions
import Mathlib.Analysis.SpecialFunctions.ExpDeriv
import Verif.Lemmas.MatDeriv
import Verif.Props.HPD

/-
Hermitian positive definite matrices, continued: unit-determinant matrices (C56), dimensions (C57),
geodesics, retractions and Hessians (C86, C87).
-/
set_option autoImplicit false

namespace RS
open Matrix ComplexOrder
variable {n k : ℕ}

/-! ## C56, continued -/

theorem det_expm (eigh : Eigh (Fin n) ℂ) (hs : eigh.Ok) (A : Matrix (Fin n) (Fin n) ℂ)
    (hA : A.IsHermitian) : (expm eigh A).det = Complex.exp A.trace := by
  have hv := hs A hA
  have ht := hv.fn_trace fun d => d
  rw [hv.fn_id] at ht
  rw [expm_fn, hv.fn_det, ht, Complex.exp_sum]
  exact Finset.prod_congr rfl fun i _ => Complex.ofReal_exp _

theorem trace_logm (eigh : Eigh (Fin n) ℂ) (hs : eigh.Ok) (A : Matrix (Fin n) (Fin n) ℂ)
    (hA : A.PosDef) : (logm eigh A).trace = ((Real.log A.det.re : ℝ) : ℂ) := by
  have hv := hs A hA.1
  have hd := hv.fn_det fun d => d
  rw [hv.fn_id] at hd
  have hd' : A.det = ((∏ i, (eigh A).vals i : ℝ) : ℂ) := by
    rw [hd]; push_cast; rfl
  rw [logm_fn, hv.fn_trace, hd', Complex.ofReal_re, Real.log_prod fun i _ => (hv.vals_pos hA i).ne']
  push_cast
  rfl

theorem shpd_normalise_of_det (y : Stack n k) (hy : ∀ i, (y i).det = 1) : SHPD.normalise y = y := by
  funext i
  simp [SHPD.normalise, hy i]

theorem trace_sandwich {x S R u : Matrix (Fin n) (Fin n) ℂ} (h : Root x S R) :
    (R * u * R).trace = (x⁻¹ * u).trace := by
  rw [h.inv, mul_assoc, trace_mul_comm, mul_assoc, trace_mul_comm]

/-- For a tangent vector at a point of the manifold the geodesic of the larger manifold stays on the
unit-determinant matrices, so `exp` needs no normalisation. -/
theorem C56_exp_eq (eigh : Eigh (Fin n) ℂ) (hs : eigh.Ok) (x u : Stack n k)
    (hx : x ∈ SHPDset n k) (hu : ShpdTangent x u) : SHPD.exp eigh x u = HPD.exp eigh x u := by
  apply shpd_normalise_of_det
  intro i
  have h := root_of_eigh hs (hx i).1
  rw [hpd_exp_eq hs (fun i => (hx i).1) fun i => (hu i).1, det_mul, det_mul,
    det_expm eigh hs _ (isHermitian_sandwich h.hR (hu i).1), trace_sandwich h, (hu i).2,
    Complex.exp_zero, mul_one, ← det_mul, h.sq, (hx i).2]

theorem C56_log_tangent (eigh : Eigh (Fin n) ℂ) (hs : eigh.Ok) (x y : Stack n k)
    (hx : x ∈ SHPDset n k) (hy : y ∈ SHPDset n k) : ShpdTangent x (SHPD.log eigh x y) := by
  intro i
  refine ⟨C53_log_isHermitian eigh x y i, ?_⟩
  have h := root_of_eigh hs (hx i).1
  rw [SHPD.log, hpd_log_eq hs (fun i => (hx i).1) fun i => (hy i).1.1]
  set S := matrixOperator eigh Real.sqrt (x i)
  set R := matrixOperator eigh (fun d => 1 / Real.sqrt d) (x i)
  rw [← trace_sandwich h]
  have e : R * (S * logm eigh (R * y i * R) * S) * R = logm eigh (R * y i * R) := by
    calc _ = (R * S) * logm eigh (R * y i * R) * (S * R) := by simp only [mul_assoc]
      _ = _ := by rw [h.left, h.right, mul_one, Matrix.one_mul]
  have hd : (R * y i * R).det = 1 := by
    have h1 : (R * S).det = 1 := by rw [h.left, det_one]
    have h2 : (S * S).det = 1 := by rw [h.sq, (hx i).2]
    rw [det_mul] at h1 h2
    rw [det_mul, det_mul, (hy i).2, mul_one]
    calc R.det * R.det = R.det * R.det * (S.det * S.det) := by rw [h2, mul_one]
      _ = (R.det * S.det) * (R.det * S.det) := by ring
      _ = 1 := by rw [h1, mul_one]
  rw [e, trace_logm eigh hs _ (posDef_sandwich h.hR h.isUnit' (hy i).1), hd]
  simp

theorem C56_exp_log (eigh : Eigh (Fin n) ℂ) (hs : eigh.Ok) (x y : Stack n k)
    (hx : x ∈ SHPDset n k) (hy : y ∈ SHPDset n k) : SHPD.exp eigh x (SHPD.log eigh x y) = y := by
  rw [C56_exp_eq eigh hs x _ hx (C56_log_tangent eigh hs x y hx hy)]
  exact C53_exp_log eigh hs x y (fun i => (hx i).1) fun i => (hy i).1

theorem C56_log_exp (eigh : Eigh (Fin n) ℂ) (hs : eigh.Ok) (x u : Stack n k)
    (hx : x ∈ SHPDset n k) (hu : ShpdTangent x u) : SHPD.log eigh x (SHPD.exp eigh x u) = u := by
  rw [C56_exp_eq eigh hs x _ hx hu]
  exact C53_log_exp eigh hs x u (fun i => (hx i).1) fun i => (hu i).1

/-- Transport between points of the manifold maps tangent vectors to tangent vectors and keeps
inner products. -/
theorem C56_transp (sq : Matrix (Fin n) (Fin n) ℂ → Matrix (Fin n) (Fin n) ℂ) (hsq : SqrtmOk sq)
    (x1 x2 u v : Stack n k) (h1 : ∀ i, (x1 i).PosDef) (h2 : ∀ i, (x2 i).PosDef)
    (hu : ShpdTangent x1 u) (hv : ShpdTangent x1 v) :
    ShpdTangent x2 (SHPD.transp sq x1 x2 u) ∧
    HPD.inner x2 (SHPD.transp sq x1 x2 u) (SHPD.transp sq x1 x2 v) = HPD.inner x1 u v := by
  obtain ⟨E, hE1, e2, ev⟩ := transp_congr sq hsq x1 x2 h1 h2
  have key : ∀ w, ShpdTangent x1 w → ShpdTangent x2 (HPD.transp sq x1 x2 w) := fun w hw i => by
    refine ⟨C55_isHermitian sq x1 x2 w (fun i => (hw i).1) i, ?_⟩
    rw [ev, e2]
    have hd : IsUnit (E i).det := (isUnit_iff_isUnit_det _).1 (hE1 i)
    have hdh : IsUnit ((E i)ᴴ).det := by rw [det_conjTranspose]; exact hd.star
    rw [Matrix.mul_inv_rev, Matrix.mul_inv_rev]
    calc (((E i)ᴴ)⁻¹ * ((x1 i)⁻¹ * (E i)⁻¹) * (E i * w i * (E i)ᴴ)).trace
        = ((E i)ᴴ⁻¹ * ((x1 i)⁻¹ * ((E i)⁻¹ * E i) * w i * (E i)ᴴ)).trace := by
          simp only [mul_assoc]
      _ = ((x1 i)⁻¹ * w i * ((E i)ᴴ * (E i)ᴴ⁻¹)).trace := by
          rw [trace_mul_comm, nonsing_inv_mul _ hd, mul_one]; simp only [mul_assoc]
      _ = 0 := by rw [mul_nonsing_inv _ hdh, mul_one, (hw i).2]
  have e : ∀ w, ShpdTangent x1 w → SHPD.transp sq x1 x2 w = HPD.transp sq x1 x2 w := fun w hw =>
    C56_proj_fixes x2 _ (key w hw)
  rw [e u hu, e v hv]
  exact ⟨key u hu, C55_isometry sq hsq x1 x2 u v h1 h2⟩

theorem C56_randvec_unit (hn : 0 < n) (chol : Matrix (Fin n) (Fin n) ℂ → Matrix (Fin n) (Fin n) ℂ)
    (hc : CholOk chol) (x draw : Stack n k) (hx : ∀ i, (x i).PosDef) (hd : SHPD.proj x draw ≠ 0) :
    ShpdTangent x (SHPD.randvec chol x draw) ∧ HPD.norm chol x (SHPD.randvec chol x draw) = 1 := by
  have ht := C56_proj_tangent hn x draw hx
  have hm : multiherm (SHPD.proj x draw) = SHPD.proj x draw :=
    multiherm_of_isHermitian fun i => (ht i).1
  have e : SHPD.randvec chol x draw = HPD.randvec chol x (SHPD.proj x draw) := by
    funext i
    simp only [SHPD.randvec, HPD.randvec, hm]
  obtain ⟨h1, h2⟩ := C54_randvec_unit chol hc x (SHPD.proj x draw) hx (by rwa [hm])
  refine ⟨fun i => ⟨by rw [e]; exact h1 i, ?_⟩, by rw [e]; exact h2⟩
  simp only [SHPD.randvec, mul_smul_comm, trace_smul, (ht i).2, smul_zero]

/-- A non-trivial unit-determinant point and tangent vector. -/
example : (fun _ : Fin 1 => (1 : Matrix (Fin 2) (Fin 2) ℂ)) ∈ SHPDset 2 1 ∧
    ShpdTangent (fun _ : Fin 1 => (1 : Matrix (Fin 2) (Fin 2) ℂ))
      (fun _ => !![3, Complex.I; -Complex.I, -3]) := by
  refine ⟨fun _ => ⟨PosDef.one, det_one⟩, fun _ => ⟨?_, ?_⟩⟩
  · ext i j; fin_cases i <;> fin_cases j <;> simp
  · simp [trace_fin_two]

/-! ## Geodesics and retractions (C86) -/

theorem isHermitian_real_smul {A : Matrix (Fin n) (Fin n) ℂ} (hA : A.IsHermitian) (t : ℝ) :
    (t • A).IsHermitian := by
  rw [IsHermitian, conjTranspose_smul, hA.eq, star_trivial]

/-- `V diag(exp(tλ)) Vᴴ` along a line. -/
theorem expm_smul_eq (eigh : Eigh (Fin n) ℂ) (hs : eigh.Ok) {A : Matrix (Fin n) (Fin n) ℂ}
    (hA : A.IsHermitian) (t : ℝ) :
    expm eigh (t • A) = (eigh A).vecs *
      diagonal (fun i => ((Real.exp (t * (eigh A).vals i) : ℝ) : ℂ)) * (eigh A).vecsᴴ := by
  have hv := hs A hA
  have hv' := hv.fn_valid fun d => t * d
  have e : (eigh A).fn (fun d => t * d) = t • A := by
    have h1 := hv.fn_id
    have : (eigh A).fn (fun d => t * d) = t • (eigh A).fn (fun d => d) := by
      simp only [EigRes.fn]
      rw [← smul_mul_assoc, ← mul_smul_comm]
      congr 2
      ext i j
      by_cases h : i = j <;> simp [diagonal, h]
    rw [this, h1]
  rw [e] at hv'
  have := matrixOperator_eq hs hv' Real.exp
  exact this

theorem expm_curve (eigh : Eigh (Fin n) ℂ) (hs : eigh.Ok) {A : Matrix (Fin n) (Fin n) ℂ}
    (hA : A.IsHermitian) (t : ℝ) :
    CurveDeriv (fun s : ℝ => expm eigh (s • A)) (A * expm eigh (t • A)) t := by
  have hv := hs A hA
  simp only [expm_smul_eq eigh hs hA]
  set V := (eigh A).vecs
  set l := (eigh A).vals
  have hd : CurveDeriv (fun s : ℝ => (diagonal fun i => ((Real.exp (s * l i) : ℝ) : ℂ)))
      (diagonal (fun i => ((l i : ℝ) : ℂ)) * diagonal fun i => ((Real.exp (t * l i) : ℝ) : ℂ)) t := by
    intro i j
    rw [diagonal_mul_diagonal]
    by_cases h : i = j
    · subst h
      simp only [diagonal_apply_eq]
      have h1 : HasDerivAt (fun s : ℝ => Real.exp (s * l i)) (Real.exp (t * l i) * l i) t := by
        simpa using ((hasDerivAt_id t).mul_const (l i)).exp
      refine h1.ofReal_comp.congr_deriv ?_
      push_cast; ring
    · simp only [diagonal_apply_ne _ h]
      exact hasDerivAt_const t 0
  have h2 := (hd.const_mul V).mul_const Vᴴ
  have e : A * (V * (diagonal fun i => ((Real.exp (t * l i) : ℝ) : ℂ)) * Vᴴ) =
      V * (diagonal (fun i => ((l i : ℝ) : ℂ)) * diagonal fun i => ((Real.exp (t * l i) : ℝ) : ℂ)) * Vᴴ := by
    have hu : Vᴴ * V = 1 := hv.unitary
    have hdec : A = V * diagonal (fun i => ((l i : ℝ) : ℂ)) * Vᴴ := hv.decomp
    calc _ = V * diagonal (fun i => ((l i : ℝ) : ℂ)) * Vᴴ *
          (V * (diagonal fun i => ((Real.exp (t * l i) : ℝ) : ℂ)) * Vᴴ) := by rw [← hdec]
      _ = V * diagonal (fun i => ((l i : ℝ) : ℂ)) * (Vᴴ * V) *
          ((diagonal fun i => ((Real.exp (t * l i) : ℝ) : ℂ)) * Vᴴ) := by simp only [mul_assoc]
      _ = _ := by rw [hu]; simp only [mul_assoc, mul_one]
  rw [e]
  exact h2

/-- The curve `t ↦ exp(x, t u)` has derivative `u x⁻¹ exp(x, t u)`. -/
theorem hpd_exp_curve (eigh : Eigh (Fin n) ℂ) (hs : eigh.Ok) (x u : Stack n k)
    (hx : ∀ i, (x i).PosDef) (hu : ∀ i, (u i).IsHermitian) (t : ℝ) :
    StackDeriv (fun s : ℝ => HPD.exp eigh x (s • u))
      (fun i => u i * (x i)⁻¹ * HPD.exp eigh x (t • u) i) t := by
  intro i
  have h := root_of_eigh hs (hx i)
  have e : ∀ s : ℝ, HPD.exp eigh x (s • u) i = matrixOperator eigh Real.sqrt (x i) *
      expm eigh (s • (matrixOperator eigh (fun d => 1 / Real.sqrt d) (x i) * u i *
        matrixOperator eigh (fun d => 1 / Real.sqrt d) (x i))) *
      matrixOperator eigh Real.sqrt (x i) := fun s => by
    rw [hpd_exp_eq (u := s • u) hs hx fun i => isHermitian_real_smul (hu i) s, Pi.smul_apply, mul_smul_comm,
      smul_mul_assoc]
  simp only [e]
  set S := matrixOperator eigh Real.sqrt (x i)
  set R := matrixOperator eigh (fun d => 1 / Real.sqrt d) (x i)
  have h2 := ((expm_curve eigh hs (isHermitian_sandwich h.hR (hu i)) t).const_mul S).mul_const S
  have e3 : u i * (x i)⁻¹ * (S * expm eigh (t • (R * u i * R)) * S) =
      S * (R * u i * R * expm eigh (t • (R * u i * R))) * S := by
    rw [h.inv]
    calc _ = u i * R * (R * S) * expm eigh (t • (R * u i * R)) * S := by simp only [mul_assoc]
      _ = u i * R * expm eigh (t • (R * u i * R)) * S := by rw [h.left, mul_one]
      _ = (S * R) * (u i * R * expm eigh (t • (R * u i * R)) * S) := by
          rw [h.right, Matrix.one_mul]
      _ = _ := by simp only [mul_assoc]
  rw [e3]
  exact h2

theorem hpd_exp_zero (eigh : Eigh (Fin n) ℂ) (hs : eigh.Ok) (x : Stack n k)
    (hx : ∀ i, (x i).PosDef) : HPD.exp eigh x 0 = x := by
  funext i
  have h := root_of_eigh hs (hx i)
  have h1 : expm eigh (0 : Matrix (Fin n) (Fin n) ℂ) = 1 := by
    have hv := hs 0 isHermitian_zero
    have := expm_smul_eq eigh hs (A := 0) isHermitian_zero 0
    rw [zero_smul] at this
    rw [this]
    simp only [zero_mul, Real.exp_zero, Complex.ofReal_one]
    rw [show (diagonal fun _ : Fin n => (1 : ℂ)) = 1 from diagonal_one, mul_one]
    exact hv.unitary'
  rw [hpd_exp_eq (u := 0) hs hx fun _ => isHermitian_zero]
  simp only [Pi.zero_apply, mul_zero, zero_mul, h1, mul_one, h.sq]

/-- `exp` follows the geodesics of the metric: the curve `c(t) = exp(x, t u)` starts at `x` with
velocity `u`, stays positive definite and satisfies the geodesic equation `c'' = c' c⁻¹ c'`. -/
theorem C86_geodesic (eigh : Eigh (Fin n) ℂ) (hs : eigh.Ok) (x u : Stack n k)
    (hx : ∀ i, (x i).PosDef) (hu : ∀ i, (u i).IsHermitian) :
    ∃ c' : ℝ → Stack n k, HPD.exp eigh x ((0 : ℝ) • u) = x ∧ c' 0 = u ∧
      (∀ t : ℝ, HPD.exp eigh x (t • u) ∈ HPDset n k) ∧
      (∀ t, StackDeriv (fun s : ℝ => HPD.exp eigh x (s • u)) (c' t) t) ∧
      ∀ t, StackDeriv c' (fun i => c' t i * (HPD.exp eigh x (t • u) i)⁻¹ * c' t i) t := by
  have hpd : ∀ t : ℝ, HPD.exp eigh x (t • u) ∈ HPDset n k := fun t =>
    C53_exp_posDef eigh hs x _ hx fun i => isHermitian_real_smul (hu i) t
  have h0 : HPD.exp eigh x ((0 : ℝ) • u) = x := by rw [zero_smul, hpd_exp_zero eigh hs x hx]
  refine ⟨fun t i => u i * (x i)⁻¹ * HPD.exp eigh x (t • u) i, h0, ?_, hpd,
    hpd_exp_curve eigh hs x u hx hu, ?_⟩
  · funext i
    have hd := (isUnit_iff_isUnit_det _).1 (hx i).isUnit
    show u i * (x i)⁻¹ * HPD.exp eigh x ((0 : ℝ) • u) i = u i
    rw [h0, mul_assoc, nonsing_inv_mul _ hd, mul_one]
  · intro t i
    have h1 := (hpd_exp_curve eigh hs x u hx hu t i).const_mul (u i * (x i)⁻¹)
    have hd := (isUnit_iff_isUnit_det _).1 (hpd t i).isUnit
    have e : u i * (x i)⁻¹ * HPD.exp eigh x (t • u) i * (HPD.exp eigh x (t • u) i)⁻¹ *
        (u i * (x i)⁻¹ * HPD.exp eigh x (t • u) i) =
        u i * (x i)⁻¹ * (u i * (x i)⁻¹ * HPD.exp eigh x (t • u) i) := by
      rw [mul_assoc (u i * (x i)⁻¹), mul_nonsing_inv _ hd, mul_one]
    simp only [e]
    exact h1

theorem hpd_retr_line (x u : Stack n k) (t : ℝ) (i : Fin k) :
    HPD.retr x (t • u) i = x i + t • u i + (t * t) • ((1 / 2 : ℂ) • (u i * (x i)⁻¹ * u i)) := by
  simp only [HPD.retr, Pi.smul_apply, smul_mul_assoc, mul_smul_comm, mul_assoc]
  rw [smul_comm (1 / 2 : ℂ) t, smul_smul]

theorem hpd_retr_curve (x u : Stack n k) (t : ℝ) :
    StackDeriv (fun s : ℝ => HPD.retr x (s • u)) (fun i => u i + t • (u i * (x i)⁻¹ * u i)) t := by
  intro i
  simp only [hpd_retr_line]
  have h := ((CurveDeriv.const (x i) t).add (CurveDeriv.smul_const (u i) t)).add
    (CurveDeriv.smul_sq ((1 / 2 : ℂ) • (u i * (x i)⁻¹ * u i)) t)
  have e : 0 + u i + (2 * t) • ((1 / 2 : ℂ) • (u i * (x i)⁻¹ * u i)) =
      u i + t • (u i * (x i)⁻¹ * u i) := by
    rw [zero_add, mul_comm, ← smul_smul, ← smul_assoc (2 : ℝ)]
    simp
  rwa [e] at h

/-- Both retractions agree with the straight line to first order. -/
theorem C86_retr_first_order (x u : Stack n k) :
    HPD.retr x ((0 : ℝ) • u) = x ∧ StackDeriv (fun t : ℝ => HPD.retr x (t • u)) u 0 := by
  constructor
  · funext i; simp [HPD.retr]
  · have := hpd_retr_curve x u 0
    simpa using this

theorem C86_exp_first_order (eigh : Eigh (Fin n) ℂ) (hs : eigh.Ok) (x u : Stack n k)
    (hx : ∀ i, (x i).PosDef) (hu : ∀ i, (u i).IsHermitian) :
    StackDeriv (fun t : ℝ => HPD.exp eigh x (t • u)) u 0 := by
  obtain ⟨c', _, h0, _, h1, _⟩ := C86_geodesic eigh hs x u hx hu
  have := h1 0
  rwa [h0] at this

/-- `retr` agrees with `exp` to second order. -/
theorem C86_retr_second_order (eigh : Eigh (Fin n) ℂ) (hs : eigh.Ok) (x u : Stack n k)
    (hx : ∀ i, (x i).PosDef) (hu : ∀ i, (u i).IsHermitian) :
    ∃ r' e' : ℝ → Stack n k, (∀ t, StackDeriv (fun s : ℝ => HPD.retr x (s • u)) (r' t) t) ∧
      (∀ t, StackDeriv (fun s : ℝ => HPD.exp eigh x (s • u)) (e' t) t) ∧ r' 0 = e' 0 ∧
      StackDeriv r' (fun i => u i * (x i)⁻¹ * u i) 0 ∧
      StackDeriv e' (fun i => u i * (x i)⁻¹ * u i) 0 := by
  obtain ⟨e', hx0, h0, _, h1, h2⟩ := C86_geodesic eigh hs x u hx hu
  refine ⟨fun t i => u i + t • (u i * (x i)⁻¹ * u i), e', ?_, h1, ?_, ?_, ?_⟩
  · exact hpd_retr_curve x u
  · rw [h0]; funext i; simp
  · intro i
    simpa using (CurveDeriv.const (u i) 0).add (CurveDeriv.smul_const (u i * (x i)⁻¹ * u i) 0)
  · have := h2 0
    rwa [h0, hx0] at this

/-- Geodesics have constant speed. -/
theorem C86_constant_speed (eigh : Eigh (Fin n) ℂ) (hs : eigh.Ok) (x u : Stack n k)
    (hx : ∀ i, (x i).PosDef) (hu : ∀ i, (u i).IsHermitian) (t : ℝ) (c' : Stack n k)
    (hc : StackDeriv (fun s : ℝ => HPD.exp eigh x (s • u)) c' t) :
    HPD.inner (HPD.exp eigh x (t • u)) c' c' = HPD.inner x u u := by
  have e : c' = fun i => u i * (x i)⁻¹ * HPD.exp eigh x (t • u) i := by
    funext i; ext a b
    exact (hc i a b).unique (hpd_exp_curve eigh hs x u hx hu t i a b)
  have hpd := C53_exp_posDef eigh hs x (t • u) hx fun i => isHermitian_real_smul (hu i) t
  rw [e, hpd_inner_eq, hpd_inner_eq]
  refine Finset.sum_congr rfl fun i _ => ?_
  have hd := (isUnit_iff_isUnit_det _).1 (hpd i).isUnit
  set c := HPD.exp eigh x (t • u) i
  congr 1
  calc (c⁻¹ * (u i * (x i)⁻¹ * c) * (c⁻¹ * (u i * (x i)⁻¹ * c))).trace
      = (c⁻¹ * (u i * (x i)⁻¹ * (c * c⁻¹) * (u i * (x i)⁻¹ * c))).trace := by simp only [mul_assoc]
    _ = (u i * (x i)⁻¹ * (u i * (x i)⁻¹) * (c * c⁻¹)).trace := by
        rw [trace_mul_comm, mul_nonsing_inv _ hd]
        simp only [mul_assoc, mul_one, mul_nonsing_inv _ hd]
    _ = _ := by
        rw [mul_nonsing_inv _ hd, mul_one, mul_assoc (u i), trace_mul_comm]; simp only [mul_assoc]

/-! ## Hessians (C87) -/

theorem euclid_eq (g v : Stack n k) : euclid g v = ∑ i, ((g i)ᴴ * v i).trace.re := by
  refine Finset.sum_congr rfl fun i _ => ?_
  rw [Matrix.trace, Complex.re_sum, Finset.sum_comm]
  refine Finset.sum_congr rfl fun a _ => ?_
  rw [diag_apply, Matrix.mul_apply, Complex.re_sum]
  refine Finset.sum_congr rfl fun b _ => ?_
  simp [conjTranspose_apply, Complex.mul_re]

theorem trace_herm_mul (g : Stack n k) {v : Matrix (Fin n) (Fin n) ℂ} (hv : v.IsHermitian)
    (i : Fin k) : (multiherm g i * v).trace.re = ((g i)ᴴ * v).trace.re := by
  have e2 : (g i * v).trace = star ((g i)ᴴ * v).trace := by
    rw [← trace_conjTranspose, conjTranspose_mul, conjTranspose_conjTranspose, hv.eq,
      trace_mul_comm]
  rw [multiherm_apply, smul_mul_assoc, trace_smul, add_mul, trace_add, e2]
  simp [Complex.add_re]
  ring

/-- What `ehess2rhess` gives against the direction itself. -/
theorem ehess_inner (x g h u : Stack n k) (hx : ∀ i, (x i).PosDef) (hu : ∀ i, (u i).IsHermitian) :
    HPD.inner x (HPD.ehess2rhess x g h u) u =
      euclid h u + euclid g (fun i => u i * (x i)⁻¹ * u i) := by
  rw [hpd_inner_eq, euclid_eq, euclid_eq, ← Finset.sum_add_distrib]
  refine Finset.sum_congr rfl fun i _ => ?_
  have hd := (isUnit_iff_isUnit_det _).1 (hx i).isUnit
  have hq : (u i * (x i)⁻¹ * u i).IsHermitian := by
    have := isHermitian_sandwich (hu i) (hx i).inv.1
    exact this
  rw [← trace_herm_mul h (hu i), ← trace_herm_mul g hq]
  set G := multiherm g i with hG
  have hGh : Gᴴ = G := (multiherm_isHermitian g i).eq
  have e1 : HPD.ehess2rhess x g h u i = x i * multiherm h i * x i +
      (1 / 2 : ℂ) • (u i * G * x i + x i * (G * u i)) := by
    simp only [HPD.ehess2rhess, Pi.add_apply]
    congr 1
    rw [multiherm_apply, conjTranspose_mul, conjTranspose_mul, (hu i).eq, (hx i).1.eq, ← hG, hGh]
  rw [e1, mul_add, add_mul, trace_add, Complex.add_re]
  congr 1
  · congr 1
    calc ((x i)⁻¹ * (x i * multiherm h i * x i) * ((x i)⁻¹ * u i)).trace
        = ((x i)⁻¹ * x i * multiherm h i * (x i * (x i)⁻¹) * u i).trace := by simp only [mul_assoc]
      _ = _ := by rw [nonsing_inv_mul _ hd, mul_nonsing_inv _ hd, mul_one, Matrix.one_mul]
  · rw [mul_smul_comm, smul_mul_assoc, trace_smul, mul_add, add_mul, trace_add]
    have e2 : ((x i)⁻¹ * (u i * G * x i) * ((x i)⁻¹ * u i)).trace =
        (G * (u i * (x i)⁻¹ * u i)).trace := by
      calc _ = ((x i)⁻¹ * u i * (G * (x i * (x i)⁻¹) * u i)).trace := by simp only [mul_assoc]
        _ = (G * u i * ((x i)⁻¹ * u i)).trace := by
          rw [mul_nonsing_inv _ hd, mul_one, trace_mul_comm]
        _ = _ := by simp only [mul_assoc]
    have e3 : ((x i)⁻¹ * (x i * (G * u i)) * ((x i)⁻¹ * u i)).trace =
        (G * (u i * (x i)⁻¹ * u i)).trace := by
      rw [← mul_assoc (x i)⁻¹, nonsing_inv_mul _ hd, Matrix.one_mul]; simp only [mul_assoc]
    rw [e2, e3]
    simp [Complex.add_re]
    ring

/-- `ehess2rhess` is the Riemannian Hessian: for a function `f` with Euclidean gradient field `g`
whose derivative at `x` in direction `u` is `h`, the second derivative of `f` along the geodesic
`exp(x, t u)` is `⟨ehess2rhess(x, g(x), h, u), u⟩`. -/
theorem C87_hessian (eigh : Eigh (Fin n) ℂ) (hs : eigh.Ok) (f : Stack n k → ℝ)
    (g : Stack n k → Stack n k) (hf : IsEGradHPD f g) (x u h : Stack n k)
    (hx : ∀ i, (x i).PosDef) (hu : ∀ i, (u i).IsHermitian) (hg : IsEHessHPD g x u h) :
    HasDerivAt (deriv fun t : ℝ => f (HPD.exp eigh x (t • u)))
      (HPD.inner x (HPD.ehess2rhess x (g x) h u) u) 0 := by
  obtain ⟨c', hx0, h0, hpd, h1, h2⟩ := C86_geodesic eigh hs x u hx hu
  have hd1 : (deriv fun t : ℝ => f (HPD.exp eigh x (t • u))) =
      fun t : ℝ => euclid (g (HPD.exp eigh x (t • u))) (c' t) := by
    funext t
    exact (hf _ (c' t) t hpd (h1 t)).deriv
  have hu0 : StackDeriv (fun s : ℝ => HPD.exp eigh x (s • u)) u 0 := by
    have := h1 0; rwa [h0] at this
  have hh := hg _ hpd hx0 hu0
  have hc2 : StackDeriv c' (fun i => u i * (x i)⁻¹ * u i) 0 := by
    have := h2 0; rwa [h0, hx0] at this
  rw [hd1, ehess_inner x (g x) h u hx hu]
  unfold euclid
  rw [← Finset.sum_add_distrib]
  refine HasDerivAt.fun_sum fun i _ => ?_
  rw [← Finset.sum_add_distrib]
  refine HasDerivAt.fun_sum fun a _ => ?_
  rw [← Finset.sum_add_distrib]
  refine HasDerivAt.fun_sum fun b _ => ?_
  have re1 := Complex.reCLM.hasFDerivAt.comp_hasDerivAt (0 : ℝ) (hh i a b)
  have im1 := Complex.imCLM.hasFDerivAt.comp_hasDerivAt (0 : ℝ) (hh i a b)
  have re2 := Complex.reCLM.hasFDerivAt.comp_hasDerivAt (0 : ℝ) (hc2 i a b)
  have im2 := Complex.imCLM.hasFDerivAt.comp_hasDerivAt (0 : ℝ) (hc2 i a b)
  refine ((re1.fun_mul re2).fun_add (im1.fun_mul im2)).congr_deriv ?_
  simp only [Function.comp, Complex.reCLM_apply, Complex.imCLM_apply, hx0, h0]
  ring

/-- `⟨ehess2rhess(x, g, h, a), b⟩`: the Euclidean Hessian and a form symmetric in `a` and `b`. -/
theorem hpd_ehess_polar (x g a b h : Stack n k) (hx : ∀ i, (x i).PosDef)
    (ha : ∀ i, (a i).IsHermitian) (hb : ∀ i, (b i).IsHermitian) :
    HPD.inner x (HPD.ehess2rhess x g h a) b = euclid h b +
      ∑ i, (1 / 2 : ℝ) * ((multiherm g i * (b i * (x i)⁻¹ * a i)).trace.re +
        (multiherm g i * (a i * (x i)⁻¹ * b i)).trace.re) := by
  rw [hpd_inner_eq, euclid_eq, ← Finset.sum_add_distrib]
  refine Finset.sum_congr rfl fun i _ => ?_
  have hd := (isUnit_iff_isUnit_det _).1 (hx i).isUnit
  rw [← trace_herm_mul h (hb i)]
  set G := multiherm g i with hG
  have hGh : Gᴴ = G := (multiherm_isHermitian g i).eq
  have e1 : HPD.ehess2rhess x g h a i = x i * multiherm h i * x i +
      (1 / 2 : ℂ) • (a i * G * x i + x i * (G * a i)) := by
    simp only [HPD.ehess2rhess, Pi.add_apply]
    congr 1
    rw [multiherm_apply, conjTranspose_mul, conjTranspose_mul, (ha i).eq, (hx i).1.eq, ← hG, hGh]
  rw [e1, mul_add, add_mul, trace_add, Complex.add_re]
  congr 1
  · congr 1
    calc ((x i)⁻¹ * (x i * multiherm h i * x i) * ((x i)⁻¹ * b i)).trace
        = ((x i)⁻¹ * x i * multiherm h i * (x i * (x i)⁻¹) * b i).trace := by
          simp only [mul_assoc]
      _ = _ := by rw [nonsing_inv_mul _ hd, mul_nonsing_inv _ hd, mul_one, Matrix.one_mul]
  · rw [mul_smul_comm, smul_mul_assoc, trace_smul, mul_add, add_mul, trace_add]
    have e2 : ((x i)⁻¹ * (a i * G * x i) * ((x i)⁻¹ * b i)).trace =
        (G * (b i * (x i)⁻¹ * a i)).trace := by
      calc _ = ((x i)⁻¹ * a i * (G * (x i * (x i)⁻¹) * b i)).trace := by simp only [mul_assoc]
        _ = (G * b i * ((x i)⁻¹ * a i)).trace := by
          rw [mul_nonsing_inv _ hd, mul_one, trace_mul_comm]
        _ = _ := by simp only [mul_assoc]
    have e3 : ((x i)⁻¹ * (x i * (G * a i)) * ((x i)⁻¹ * b i)).trace =
        (G * (a i * (x i)⁻¹ * b i)).trace := by
      rw [← mul_assoc (x i)⁻¹, nonsing_inv_mul _ hd, Matrix.one_mul]; simp only [mul_assoc]
    rw [e2, e3]
    simp [Complex.add_re]

/-- With a symmetric Euclidean Hessian the Riemannian Hessian is self-adjoint. -/
theorem C87_selfadjoint (x g hu hv u v : Stack n k) (hx : ∀ i, (x i).PosDef)
    (hu' : ∀ i, (u i).IsHermitian) (hv' : ∀ i, (v i).IsHermitian)
    (hs : euclid hu v = euclid hv u) :
    HPD.inner x (HPD.ehess2rhess x g hu u) v = HPD.inner x (HPD.ehess2rhess x g hv v) u := by
  rw [hpd_ehess_polar x g u v hu hx hu' hv', hpd_ehess_polar x g v u hv hx hv' hu', hs]
  congr 1
  exact Finset.sum_congr rfl fun i _ => by ring

/-- The squared Frobenius norm has gradient `2 x` and derivative of the gradient `2 u`. -/
example : IsEGradHPD (fun x : Stack n k => euclid x x) (fun x => (2 : ℝ) • x) ∧
    ∀ x u : Stack n k, IsEHessHPD (fun x => (2 : ℝ) • x) x u ((2 : ℝ) • u) := by
  constructor
  · intro c c' t _ hd
    unfold euclid
    refine HasDerivAt.fun_sum fun i _ => HasDerivAt.fun_sum fun a _ => HasDerivAt.fun_sum fun b _ => ?_
    have re1 := Complex.reCLM.hasFDerivAt.comp_hasDerivAt t (hd i a b)
    have im1 := Complex.imCLM.hasFDerivAt.comp_hasDerivAt t (hd i a b)
    refine ((re1.fun_mul re1).fun_add (im1.fun_mul im1)).congr_deriv ?_
    simp
    ring
  · intro x u c _ _ hd i a b
    exact ((hd i a b).const_smul (2 : ℝ))

/-! ## C57 -/

/-- Stacks of Hermitian matrices. -/
def hermStack (n k : ℕ) : Submodule ℝ (Stack n k) where
  carrier := {u | ∀ i, (u i).IsHermitian}
  add_mem' := fun ha hb i => (ha i).add (hb i)
  zero_mem' := fun _ => isHermitian_zero
  smul_mem' := fun c _ ha i => isHermitian_real_smul (ha i) c

/-- Stacks of anti-Hermitian matrices. -/
def skewStack (n k : ℕ) : Submodule ℝ (Stack n k) where
  carrier := {u | ∀ i, (u i)ᴴ = -u i}
  add_mem' := fun {a b} ha hb i => by
    show (a i + b i)ᴴ = -(a i + b i)
    rw [conjTranspose_add, ha i, hb i, neg_add]
  zero_mem' := fun _ => by simp
  smul_mem' := fun c u ha i => by
    show (c • u i)ᴴ = -(c • u i)
    rw [conjTranspose_smul, ha i, star_trivial, smul_neg]

theorem herm_isCompl : IsCompl (hermStack n k) (skewStack n k) := by
  refine ⟨?_, ?_⟩
  · rw [Submodule.disjoint_def]
    intro u h1 h2
    funext i
    have h3 : u i = -u i := (h1 i).eq.symm.trans (h2 i)
    have h4 : (2 : ℝ) • u i = 0 := by rw [two_smul]; nth_rw 1 [h3]; simp
    exact (smul_eq_zero.1 h4).resolve_left (by norm_num)
  · rw [codisjoint_iff, eq_top_iff]
    intro u _
    rw [Submodule.mem_sup]
    refine ⟨multiherm u, multiherm_isHermitian u, fun i => (1 / 2 : ℂ) • (u i - (u i)ᴴ), ?_, ?_⟩
    · intro i
      rw [conjTranspose_smul, conjTranspose_sub, conjTranspose_conjTranspose, ← smul_neg, neg_sub]
      congr 1
      simp
    · funext i
      simp only [Pi.add_apply, multiherm_apply, ← smul_add]
      rw [add_add_sub_cancel, ← two_smul ℂ, smul_smul]
      norm_num

/-- Multiplication by `i`. -/
noncomputable def mulI : Stack n k ≃ₗ[ℝ] Stack n k where
  toFun u := Complex.I • u
  invFun u := (-Complex.I) • u
  map_add' := smul_add _
  map_smul' c u := smul_comm _ _ _
  left_inv u := by
    show (-Complex.I) • Complex.I • u = u
    rw [smul_smul]; simp
  right_inv u := by
    show Complex.I • (-Complex.I) • u = u
    rw [smul_smul]; simp

theorem skew_eq_map : skewStack n k = (hermStack n k).map (mulI (n := n) (k := k)).toLinearMap := by
  ext u
  rw [Submodule.mem_map]
  constructor
  · intro hu
    refine ⟨(-Complex.I) • u, fun i => ?_, ?_⟩
    · rw [Pi.smul_apply, IsHermitian, conjTranspose_smul, hu i]
      simp
    · show Complex.I • (-Complex.I) • u = u
      rw [smul_smul]; simp
  · rintro ⟨v, hv, rfl⟩ i
    show (Complex.I • v i)ᴴ = -(Complex.I • v i)
    rw [conjTranspose_smul, (hv i).eq]
    simp

theorem finrank_hermStack : Module.finrank ℝ (hermStack n k) = k * n ^ 2 := by
  have h1 := Submodule.finrank_add_eq_of_isCompl (herm_isCompl (n := n) (k := k))
  have h2 : Module.finrank ℝ (skewStack n k) = Module.finrank ℝ (hermStack n k) := by
    rw [skew_eq_map]
    exact LinearEquiv.finrank_map_eq mulI _
  have h3 : Module.finrank ℝ (Stack n k) = k * (n * n * 2) := by
    rw [Module.finrank_pi_fintype]
    simp [Module.finrank_matrix]
  rw [h2, h3] at h1
  have : k * (n * n * 2) = 2 * (k * n ^ 2) := by ring
  omega

theorem velocity_herm (x u : Stack n k) : Velocity (HPDset n k) x u → ∀ i, (u i).IsHermitian := by
  rintro ⟨c, hc, _, hd⟩ i
  ext a b
  have h1 := hd i a b
  have h2 := (hd i b a).star
  have e : (fun s => star (c s i b a)) = fun s => c s i a b := by
    funext s
    have := congrFun (congrFun (hc s i).1.eq a) b
    rwa [conjTranspose_apply] at this
  rw [conjTranspose_apply]
  have h2' : HasDerivAt (fun s => c s i a b) (star (u i b a)) 0 := by
    rw [← e]; exact h2
  exact h2'.unique h1

/-- The velocities of curves of positive definite matrices are the Hermitian matrices. -/
theorem velocity_hpd_iff (x u : Stack n k) (hx : x ∈ HPDset n k) :
    Velocity (HPDset n k) x u ↔ ∀ i, (u i).IsHermitian := by
  refine ⟨velocity_herm x u, fun hu => ?_⟩
  obtain ⟨h0, h1⟩ := C86_retr_first_order x u
  exact ⟨fun t => HPD.retr x (t • u), fun t =>
    C52_retr_posDef x _ hx fun i => isHermitian_real_smul (hu i) t, h0, h1⟩

/-- The velocities of curves of unit-determinant matrices are the tangent vectors. -/
theorem velocity_shpd_iff (x u : Stack n k) (hx : x ∈ SHPDset n k) :
    Velocity (SHPDset n k) x u ↔ ShpdTangent x u := by
  constructor
  · rintro ⟨c, hc, h0, hd⟩ i
    refine ⟨velocity_herm x u ⟨c, fun t j => (hc t j).1, h0, hd⟩ i, ?_⟩
    have hdet : IsUnit (c 0 i).det := by rw [(hc 0 i).2]; exact isUnit_one
    have h1 := (hd i).det_of_isUnit hdet
    have e : (fun s => (c s i).det) = fun _ => 1 := funext fun s => (hc s i).2
    simp only [e, h0, (hx i).2, one_mul] at h1
    exact h1.unique (hasDerivAt_const 0 1)
  · intro hu
    obtain ⟨eigh, hs⟩ := eigh_exists (ι := Fin n) (𝕜 := ℂ)
    have hut : ∀ t : ℝ, ShpdTangent x (t • u) := fun t i =>
      ⟨isHermitian_real_smul (hu i).1 t, by
        rw [Pi.smul_apply, mul_smul_comm, trace_smul, (hu i).2, smul_zero]⟩
    refine ⟨fun t => HPD.exp eigh x (t • u), fun t i => ?_, ?_,
      C86_exp_first_order eigh hs x u (fun i => (hx i).1) fun i => (hu i).1⟩
    · show (HPD.exp eigh x (t • u) i).PosDef ∧ (HPD.exp eigh x (t • u) i).det = 1
      rw [← C56_exp_eq eigh hs x _ hx (hut t)]
      exact C56_exp eigh hs x _ (fun i => (hx i).1) (fun i => (hut t i).1) i
    · show HPD.exp eigh x ((0 : ℝ) • u) = x
      rw [zero_smul, hpd_exp_zero eigh hs x fun i => (hx i).1]

theorem dimAt_hpd (x : Stack n k) (hx : x ∈ HPDset n k) : dimAt (HPDset n k) x = k * n ^ 2 := by
  have e : {u | Velocity (HPDset n k) x u} = (hermStack n k : Set (Stack n k)) := by
    ext u; exact velocity_hpd_iff x u hx
  rw [dimAt, e, Submodule.span_eq, finrank_hermStack]

/-- The real traces `tr(x_i⁻¹ u_i)`. -/
noncomputable def traceMap (x : Stack n k) : hermStack n k →ₗ[ℝ] (Fin k → ℝ) where
  toFun u i := ((x i)⁻¹ * u.1 i).trace.re
  map_add' u v := by funext i; simp [mul_add]
  map_smul' c u := by funext i; simp

theorem dimAt_shpd (hn : 0 < n) (x : Stack n k) (hx : x ∈ SHPDset n k) :
    dimAt (SHPDset n k) x = k * (n ^ 2 - 1) := by
  have e : {u | Velocity (SHPDset n k) x u} =
      ((LinearMap.ker (traceMap x)).map (hermStack n k).subtype : Set (Stack n k)) := by
    ext u
    rw [Set.mem_ofPred_eq, velocity_shpd_iff x u hx, SetLike.mem_coe, Submodule.mem_map]
    constructor
    · intro hu
      refine ⟨⟨u, fun i => (hu i).1⟩, ?_, rfl⟩
      rw [LinearMap.mem_ker]
      funext i
      show ((x i)⁻¹ * u i).trace.re = 0
      rw [(hu i).2]; rfl
    · rintro ⟨v, hv, rfl⟩ i
      refine ⟨v.2 i, ?_⟩
      have h1 : ((x i)⁻¹ * v.1 i).trace.re = 0 := congrFun (LinearMap.mem_ker.1 hv) i
      rw [Submodule.subtype_apply, ← trace_inv_mul_real (hx i).1 (v.2 i), h1]
      rfl
  rw [dimAt, e, Submodule.span_eq, Submodule.finrank_map_subtype_eq]
  have hsurj : LinearMap.range (traceMap x) = ⊤ := by
    rw [LinearMap.range_eq_top]
    intro y
    refine ⟨⟨fun i => (y i / n) • x i, fun i => isHermitian_real_smul (hx i).1.1 _⟩, ?_⟩
    funext i
    show ((x i)⁻¹ * (y i / n) • x i).trace.re = y i
    have hd := (isUnit_iff_isUnit_det _).1 (hx i).1.isUnit
    rw [mul_smul_comm, nonsing_inv_mul _ hd, trace_smul, trace_one, Fintype.card_fin]
    have : (n : ℝ) ≠ 0 := by exact_mod_cast hn.ne'
    simp
    field_simp
  have hr := LinearMap.finrank_range_add_finrank_ker (traceMap x)
  rw [hsurj, finrank_top, Module.finrank_fin_fun, finrank_hermStack] at hr
  rw [Nat.mul_sub, mul_one, ← hr, Nat.add_sub_cancel_left]

/-- What the constructors report, for all sizes. -/
theorem C57_reported (n k : ℕ) :
    HPD.dim n k = k * n * (n + 1) ∧ SHPD.dim n k = k * (n * (n + 1) - 1) := by
  constructor
  · unfold HPD.dim
    have hev : Even (k * n * (n + 1)) := by
      rw [mul_assoc]; exact (Nat.even_mul_succ_self n).mul_left k
    obtain ⟨m, hm⟩ := hev
    rw [hm]
    have : (((m + m : ℕ) : ℝ)) / 2 = ((m : ℤ) : ℝ) := by push_cast; ring
    rw [this, Int.floor_intCast]
    have h2 : ((k : ℤ) * n * (n + 1)) = ((k * n * (n + 1) : ℕ) : ℤ) := by push_cast; ring
    rw [h2, hm]; push_cast; ring
  · unfold SHPD.dim
    rw [Int.floor_intCast]

/-- The reported dimension of the positive definite matrices is wrong for every non-empty
manifold: it exceeds the number of real parameters by `k n`. -/
theorem C57_hpd_violated (hn : 0 < n) (hk : 0 < k) (x : Stack n k) (hx : x ∈ HPDset n k) :
    HPD.dim n k = dimAt (HPDset n k) x + k * n ∧ HPD.dim n k ≠ dimAt (HPDset n k) x := by
  have h : HPD.dim n k = dimAt (HPDset n k) x + k * n := by
    rw [(C57_reported n k).1, dimAt_hpd x hx]; push_cast; ring
  refine ⟨h, ?_⟩
  have : (0 : ℤ) < k * n := by positivity
  omega

/-- Likewise for the unit-determinant matrices. -/
theorem C57_shpd_violated (hn : 0 < n) (hk : 0 < k) (x : Stack n k) (hx : x ∈ SHPDset n k) :
    SHPD.dim n k = dimAt (SHPDset n k) x + k * n ∧ SHPD.dim n k ≠ dimAt (SHPDset n k) x := by
  have h : SHPD.dim n k = dimAt (SHPDset n k) x + k * n := by
    rw [(C57_reported n k).2, dimAt_shpd hn x hx]
    have : 1 ≤ n ^ 2 := Nat.one_le_pow _ _ hn
    push_cast [this]; ring
  refine ⟨h, ?_⟩
  have : (0 : ℤ) < k * n := by positivity
  omega

/-- What does hold: the reported dimension bounds the number of parameters from above. -/
theorem C57_upper_bound_partial (hn : 0 < n) (x y : Stack n k) (hx : x ∈ HPDset n k)
    (hy : y ∈ SHPDset n k) :
    dimAt (HPDset n k) x = k * n ^ 2 ∧ dimAt (SHPDset n k) y = k * (n ^ 2 - 1) ∧
    dimAt (HPDset n k) x ≤ HPD.dim n k ∧ dimAt (SHPDset n k) y ≤ SHPD.dim n k := by
  refine ⟨dimAt_hpd x hx, dimAt_shpd hn y hy, ?_, ?_⟩
  · rw [(C57_reported n k).1, dimAt_hpd x hx]; push_cast; nlinarith [Nat.cast_nonneg (α := ℤ) (k * n)]
  · rw [(C57_reported n k).2, dimAt_shpd hn y hy]
    have : 1 ≤ n ^ 2 := Nat.one_le_pow _ _ hn
    push_cast [this]; nlinarith [Nat.cast_nonneg (α := ℤ) (k * n)]

/-- Both manifolds are non-empty. -/
example : (fun _ => 1 : Stack n k) ∈ HPDset n k ∧ (fun _ => 1 : Stack n k) ∈ SHPDset n k :=
  ⟨fun _ => PosDef.one, fun _ => ⟨PosDef.one, det_one⟩⟩

end RS
