import Verif.Model.Linalg
import Mathlib.Analysis.Matrix.Spectrum
import Mathlib.Analysis.Matrix.PosDef
import Mathlib.LinearAlgebra.Matrix.NonsingularInverse
import Mathlib.Tactic.Module
import Mathlib.Tactic.FieldSimp
import Mathlib.Tactic.Linarith

/-! Functional calculus of the eigendecomposition contract. -/
set_option autoImplicit false

namespace RS
open Matrix ComplexOrder

section
variable {𝕜 : Type*} [RCLike 𝕜] {ι : Type*} [Fintype ι] [DecidableEq ι]

/-- `V diag(f(vals)) V^H` for a given decomposition. -/
noncomputable def EigRes.fn (e : EigRes ι 𝕜) (f : ℝ → ℝ) : Matrix ι ι 𝕜 :=
  e.vecs * diagonal (fun i => (f (e.vals i) : 𝕜)) * e.vecsᴴ

theorem EigRes.Valid.unitary' {e : EigRes ι 𝕜} {A : Matrix ι ι 𝕜} (h : e.Valid A) :
    e.vecs * e.vecsᴴ = 1 := mul_eq_one_comm.1 h.unitary

theorem EigRes.Valid.isHermitian {e : EigRes ι 𝕜} {A : Matrix ι ι 𝕜} (h : e.Valid A) :
    A.IsHermitian := by
  rw [h.decomp]
  unfold Matrix.IsHermitian
  simp only [conjTranspose_mul, conjTranspose_conjTranspose, diagonal_conjTranspose, mul_assoc]
  congr 3
  funext i; simp

/-- The decomposition of `f(A)`. -/
theorem EigRes.Valid.fn_valid {e : EigRes ι 𝕜} {A : Matrix ι ι 𝕜} (h : e.Valid A) (f : ℝ → ℝ) :
    EigRes.Valid ⟨fun i => f (e.vals i), e.vecs⟩ (e.fn f) := ⟨h.unitary, rfl⟩

theorem EigRes.Valid.fn_isHermitian {e : EigRes ι 𝕜} {A : Matrix ι ι 𝕜} (h : e.Valid A)
    (f : ℝ → ℝ) : (e.fn f).IsHermitian := (h.fn_valid f).isHermitian

/-- Two valid decompositions give the same matrix function. -/
theorem EigRes.fn_unique {e₁ e₂ : EigRes ι 𝕜} {A : Matrix ι ι 𝕜} (h₁ : e₁.Valid A)
    (h₂ : e₂.Valid A) (f : ℝ → ℝ) : e₁.fn f = e₂.fn f := by
  set U := e₁.vecs
  set V := e₂.vecs
  have hU : U * Uᴴ = 1 := h₁.unitary'
  have hV : Vᴴ * V = 1 := h₂.unitary
  have hV' : V * Vᴴ = 1 := h₂.unitary'
  have hU' : Uᴴ * U = 1 := h₁.unitary
  set W := Vᴴ * U with hW
  have h : W * diagonal (fun i => (e₁.vals i : 𝕜)) = diagonal (fun i => (e₂.vals i : 𝕜)) * W := by
    have e : U * diagonal (fun i => (e₁.vals i : 𝕜)) * Uᴴ
        = V * diagonal (fun i => (e₂.vals i : 𝕜)) * Vᴴ := h₁.decomp.symm.trans h₂.decomp
    have e' := congrArg (fun M => Vᴴ * M * U) e
    simp only [mul_assoc] at e'
    rw [hU', mul_one, ← mul_assoc Vᴴ V, hV, one_mul] at e'
    rw [hW, mul_assoc]; exact e'
  have hf : W * diagonal (fun i => (f (e₁.vals i) : 𝕜))
      = diagonal (fun i => (f (e₂.vals i) : 𝕜)) * W := by
    ext i j
    have hij := congrFun (congrFun h i) j
    rw [mul_diagonal, diagonal_mul] at hij ⊢
    by_cases hw : W i j = 0
    · simp [hw]
    · have : (e₁.vals j : 𝕜) = (e₂.vals i : 𝕜) := by
        rw [mul_comm] at hij
        exact mul_right_cancel₀ hw hij
      have : e₁.vals j = e₂.vals i := by exact_mod_cast this
      rw [this, mul_comm]
  have : V * (W * diagonal (fun i => (f (e₁.vals i) : 𝕜))) * Uᴴ
      = V * (diagonal (fun i => (f (e₂.vals i) : 𝕜)) * W) * Uᴴ := by rw [hf]
  rw [hW] at this
  simp only [EigRes.fn]
  calc U * diagonal (fun i => (f (e₁.vals i) : 𝕜)) * Uᴴ
      = (V * Vᴴ) * U * diagonal (fun i => (f (e₁.vals i) : 𝕜)) * Uᴴ := by rw [hV', one_mul]
    _ = V * (Vᴴ * U * diagonal (fun i => (f (e₁.vals i) : 𝕜))) * Uᴴ := by
        simp only [mul_assoc]
    _ = V * (diagonal (fun i => (f (e₂.vals i) : 𝕜)) * (Vᴴ * U)) * Uᴴ := this
    _ = V * diagonal (fun i => (f (e₂.vals i) : 𝕜)) * Vᴴ * (U * Uᴴ) := by simp only [mul_assoc]
    _ = _ := by rw [hU, mul_one]

theorem EigRes.Valid.fn_mul {e : EigRes ι 𝕜} {A : Matrix ι ι 𝕜} (h : e.Valid A) (f g : ℝ → ℝ) :
    e.fn f * e.fn g = e.fn (fun x => f x * g x) := by
  simp only [EigRes.fn]
  calc e.vecs * diagonal (fun i => (f (e.vals i) : 𝕜)) * e.vecsᴴ *
      (e.vecs * diagonal (fun i => (g (e.vals i) : 𝕜)) * e.vecsᴴ)
      = e.vecs * (diagonal (fun i => (f (e.vals i) : 𝕜)) * (e.vecsᴴ * e.vecs) *
        diagonal (fun i => (g (e.vals i) : 𝕜))) * e.vecsᴴ := by simp only [mul_assoc]
    _ = _ := by
      rw [h.unitary, mul_one, diagonal_mul_diagonal]
      simp only [RCLike.ofReal_mul]

theorem EigRes.Valid.fn_congr {e : EigRes ι 𝕜} {A : Matrix ι ι 𝕜} (_ : e.Valid A) {f g : ℝ → ℝ}
    (hfg : ∀ i, f (e.vals i) = g (e.vals i)) : e.fn f = e.fn g := by
  simp only [EigRes.fn, hfg]

theorem EigRes.Valid.fn_id {e : EigRes ι 𝕜} {A : Matrix ι ι 𝕜} (h : e.Valid A) :
    e.fn (fun x => x) = A := h.decomp.symm

theorem EigRes.Valid.fn_const {e : EigRes ι 𝕜} {A : Matrix ι ι 𝕜} (h : e.Valid A) (c : ℝ) :
    e.fn (fun _ => c) = (c : 𝕜) • 1 := by
  simp only [EigRes.fn]
  rw [← smul_one_eq_diagonal]
  simp [h.unitary']

theorem EigRes.Valid.fn_one {e : EigRes ι 𝕜} {A : Matrix ι ι 𝕜} (h : e.Valid A) :
    e.fn (fun _ => 1) = 1 := by rw [h.fn_const]; simp

theorem EigRes.Valid.vals_eq {e : EigRes ι 𝕜} {A : Matrix ι ι 𝕜} (h : e.Valid A) :
    diagonal (fun i => (e.vals i : 𝕜)) = e.vecsᴴ * A * e.vecs := by
  conv_rhs => rw [h.decomp]
  calc _ = 1 * diagonal (fun i => (e.vals i : 𝕜)) * 1 := by simp
    _ = (e.vecsᴴ * e.vecs) * diagonal (fun i => (e.vals i : 𝕜)) * (e.vecsᴴ * e.vecs) := by
      rw [h.unitary]
    _ = _ := by simp only [mul_assoc]

theorem EigRes.Valid.vals_nonneg {e : EigRes ι 𝕜} {A : Matrix ι ι 𝕜} (h : e.Valid A)
    (hA : A.PosSemidef) (i : ι) : 0 ≤ e.vals i := by
  have : (diagonal (fun i => (e.vals i : 𝕜))).PosSemidef := by
    rw [h.vals_eq]; exact hA.conjTranspose_mul_mul_same _
  have := (posSemidef_diagonal_iff.1 this) i
  exact_mod_cast this

theorem EigRes.Valid.vals_pos {e : EigRes ι 𝕜} {A : Matrix ι ι 𝕜} (h : e.Valid A)
    (hA : A.PosDef) (i : ι) : 0 < e.vals i := by
  have hinj : Function.Injective e.vecs.mulVec := by
    intro x y hxy
    have := congrArg (fun z => e.vecsᴴ *ᵥ z) hxy
    simpa [mulVec_mulVec, h.unitary] using this
  have : (diagonal (fun i => (e.vals i : 𝕜))).PosDef := by
    rw [h.vals_eq]; exact hA.conjTranspose_mul_mul_same hinj
  have := (posDef_diagonal_iff.1 this) i
  exact_mod_cast this

theorem EigRes.Valid.fn_posSemidef {e : EigRes ι 𝕜} {A : Matrix ι ι 𝕜} (_ : e.Valid A)
    {f : ℝ → ℝ} (hf : ∀ i, 0 ≤ f (e.vals i)) : (e.fn f).PosSemidef := by
  have : (diagonal (fun i => (f (e.vals i) : 𝕜))).PosSemidef :=
    posSemidef_diagonal_iff.2 fun i => by exact_mod_cast hf i
  exact this.mul_mul_conjTranspose_same _

theorem EigRes.Valid.fn_posDef {e : EigRes ι 𝕜} {A : Matrix ι ι 𝕜} (h : e.Valid A)
    {f : ℝ → ℝ} (hf : ∀ i, 0 < f (e.vals i)) : (e.fn f).PosDef := by
  have : (diagonal (fun i => (f (e.vals i) : 𝕜))).PosDef :=
    posDef_diagonal_iff.2 fun i => by exact_mod_cast hf i
  have hinj : Function.Injective e.vecs.vecMul := by
    intro x y hxy
    have := congrArg (fun z => z ᵥ* e.vecsᴴ) hxy
    simpa [vecMul_vecMul, h.unitary'] using this
  exact this.mul_mul_conjTranspose_same hinj

theorem EigRes.Valid.fn_det {e : EigRes ι 𝕜} {A : Matrix ι ι 𝕜} (h : e.Valid A) (f : ℝ → ℝ) :
    (e.fn f).det = ∏ i, (f (e.vals i) : 𝕜) := by
  have hd := congrArg det h.unitary
  rw [det_mul, det_one] at hd
  rw [EigRes.fn, det_mul, det_mul, mul_comm, ← mul_assoc, hd, one_mul, det_diagonal]

theorem EigRes.Valid.fn_trace {e : EigRes ι 𝕜} {A : Matrix ι ι 𝕜} (h : e.Valid A) (f : ℝ → ℝ) :
    (e.fn f).trace = ∑ i, (f (e.vals i) : 𝕜) := by
  rw [EigRes.fn, trace_mul_comm, ← mul_assoc, h.unitary, one_mul, trace_diagonal]

/-- A function of a Hermitian matrix commutes with everything that commutes with it:
similarity by a unitary. -/
theorem EigRes.Valid.conj {e : EigRes ι 𝕜} {A : Matrix ι ι 𝕜} (h : e.Valid A)
    (U : Matrix ι ι 𝕜) (hU : Uᴴ * U = 1) :
    EigRes.Valid ⟨e.vals, U * e.vecs⟩ (U * A * Uᴴ) := by
  refine ⟨?_, ?_⟩
  · simp only [conjTranspose_mul]
    rw [mul_assoc, ← mul_assoc Uᴴ, hU, one_mul, h.unitary]
  · conv_lhs => rw [h.decomp]
    simp only [conjTranspose_mul, mul_assoc]

theorem sqrtm_fn (s : Eigh ι 𝕜) (C : Matrix ι ι 𝕜) : sqrtm s C = (s C).fn Real.sqrt := rfl
theorem logm_fn (s : Eigh ι 𝕜) (C : Matrix ι ι 𝕜) : logm s C = (s C).fn Real.log := rfl
theorem expm_fn (s : Eigh ι 𝕜) (C : Matrix ι ι 𝕜) : expm s C = (s C).fn Real.exp := rfl
theorem invsqrtm_fn (s : Eigh ι 𝕜) (C : Matrix ι ι 𝕜) :
    invsqrtm s C = (s C).fn (fun x => 1 / Real.sqrt x) := rfl
theorem powm_fn (s : Eigh ι 𝕜) (C : Matrix ι ι 𝕜) (a : ℝ) :
    powm s C a = (s C).fn (fun x => x ^ a) := rfl

/-- `matrixOperator` is the function of any valid decomposition. -/
theorem matrixOperator_eq {eigh : Eigh ι 𝕜} (hs : eigh.Ok) {e : EigRes ι 𝕜} {A : Matrix ι ι 𝕜}
    (h : e.Valid A) (f : ℝ → ℝ) : matrixOperator eigh f A = e.fn f :=
  EigRes.fn_unique (hs A h.isHermitian) h f

theorem matrixOperator_comp {eigh : Eigh ι 𝕜} (hs : eigh.Ok) {A : Matrix ι ι 𝕜}
    (hA : A.IsHermitian) (f g : ℝ → ℝ) :
    matrixOperator eigh g (matrixOperator eigh f A) = matrixOperator eigh (fun x => g (f x)) A := by
  have h := hs A hA
  rw [matrixOperator_eq hs h f, matrixOperator_eq hs (h.fn_valid f), matrixOperator_eq hs h]
  rfl

/-- Eigen-solvers that meet the contract exist. -/
theorem eigh_exists : ∃ eigh : Eigh ι 𝕜, eigh.Ok := by
  classical
  refine ⟨fun A => if h : A.IsHermitian then ⟨h.eigenvalues, h.eigenvectorUnitary⟩
    else ⟨0, 1⟩, fun A hA => ?_⟩
  simp only [dif_pos hA]
  refine ⟨?_, ?_⟩
  · exact Unitary.coe_star_mul_self hA.eigenvectorUnitary
  · have := hA.spectral_theorem
    rw [Unitary.conjStarAlgAut_apply] at this
    exact this

theorem IsHermitian.exists_valid {A : Matrix ι ι 𝕜} (hA : A.IsHermitian) :
    ∃ e : EigRes ι 𝕜, e.Valid A := by
  obtain ⟨s, hs⟩ := eigh_exists (ι := ι) (𝕜 := 𝕜)
  exact ⟨_, hs A hA⟩

/-- Uniqueness of the positive semi-definite square root. -/
theorem psd_sqrt_unique {A S T : Matrix ι ι 𝕜} (hS : S.PosSemidef) (hT : T.PosSemidef)
    (h1 : S * S = A) (h2 : T * T = A) : S = T := by
  obtain ⟨e, he⟩ := IsHermitian.exists_valid hS.1
  obtain ⟨e', he'⟩ := IsHermitian.exists_valid hT.1
  have v1 : EigRes.Valid ⟨fun i => e.vals i * e.vals i, e.vecs⟩ A := by
    have := he.fn_valid (fun x => x * x)
    rwa [← he.fn_mul (fun x => x) (fun x => x), he.fn_id, h1] at this
  have v2 : EigRes.Valid ⟨fun i => e'.vals i * e'.vals i, e'.vecs⟩ A := by
    have := he'.fn_valid (fun x => x * x)
    rwa [← he'.fn_mul (fun x => x) (fun x => x), he'.fn_id, h2] at this
  have := EigRes.fn_unique v1 v2 Real.sqrt
  have a1 : EigRes.fn ⟨fun i => e.vals i * e.vals i, e.vecs⟩ Real.sqrt = S := by
    conv_rhs => rw [← he.fn_id]
    simp only [EigRes.fn, Real.sqrt_mul_self (he.vals_nonneg hS _)]
  have a2 : EigRes.fn ⟨fun i => e'.vals i * e'.vals i, e'.vecs⟩ Real.sqrt = T := by
    conv_rhs => rw [← he'.fn_id]
    simp only [EigRes.fn, Real.sqrt_mul_self (he'.vals_nonneg hT _)]
  rw [a1, a2] at this
  exact this

end
end RS
