import Verif.Lemmas.Runs

/-! Real matrices seen as complex ones. -/
set_option autoImplicit false

namespace RS
open Matrix ComplexOrder

section
variable {N p : ℕ}

/-- Real data as complex data. -/
noncomputable abbrev toC {m n : Type} (A : Matrix m n ℝ) : Matrix m n ℂ := A.map Complex.ofReal

theorem toC_mul {m n k : Type} [Fintype n] (A : Matrix m n ℝ) (B : Matrix n k ℝ) :
    toC (A * B) = toC A * toC B := by
  ext i j
  simp [Matrix.mul_apply]

theorem toC_one {n : Type} [DecidableEq n] : toC (1 : Matrix n n ℝ) = 1 := by
  ext i j
  by_cases h : i = j <;> simp [Matrix.one_apply, h]

theorem toC_conjTranspose {m n : Type} (A : Matrix m n ℝ) : (toC A)ᴴ = toC Aᵀ := by
  ext i j
  simp [conjTranspose_apply]

theorem toC_sub {m n : Type} (A B : Matrix m n ℝ) : toC (A - B) = toC A - toC B := by
  ext i j
  simp

theorem toC_inv {S : Matrix (Fin p) (Fin p) ℝ} (hS : IsUnit S.det) : (toC S)⁻¹ = toC S⁻¹ := by
  apply Matrix.inv_eq_right_inv
  rw [← toC_mul, Matrix.mul_nonsing_inv S hS, toC_one]

theorem toC_posDef {S : Matrix (Fin p) (Fin p) ℝ} (hS : S.PosDef) : (toC S).PosDef := by
  obtain ⟨s, hs⟩ := eigh_exists (ι := Fin p) (𝕜 := ℝ)
  have hB := C08_sqrtm_posDef s hs S hS
  have hB2 := C08_sqrtm_mul_self s hs S hS.posSemidef
  set B := sqrtm s S
  have hu : IsUnit B.det := (Matrix.isUnit_iff_isUnit_det B).1 hB.isUnit
  have h1 : toC S = (toC B)ᴴ * 1 * toC B := by
    rw [toC_conjTranspose, Matrix.mul_one, ← toC_mul]
    have : Bᵀ = B := by
      rw [← conjTranspose_eq_transpose_of_trivial]; exact hB.1
    rw [this, hB2]
  rw [h1]
  refine PosDef.one.conjTranspose_mul_mul_same ?_
  intro a b hab
  have : (toC B⁻¹) *ᵥ ((toC B) *ᵥ a) = (toC B⁻¹) *ᵥ ((toC B) *ᵥ b) := by
    rw [show (toC B) *ᵥ a = (toC B) *ᵥ b from hab]
  rwa [mulVec_mulVec, mulVec_mulVec, ← toC_mul, Matrix.nonsing_inv_mul B hu, toC_one, one_mulVec,
    one_mulVec] at this

theorem toC_trace (S : Matrix (Fin p) (Fin p) ℝ) : (toC S).trace = (S.trace : ℂ) := by
  simp [trace]

theorem toC_det (S : Matrix (Fin p) (Fin p) ℝ) : (toC S).det = (S.det : ℂ) := by
  have := (Complex.ofRealHom.map_det S)
  rw [show (S.det : ℂ) = Complex.ofRealHom S.det from rfl, this]
  rfl

theorem qf_toC {S : Matrix (Fin p) (Fin p) ℝ} (hS : S.PosDef) (x : Fin p → ℝ) :
    qf (toC S) (fun j => (x j : ℂ)) = qf S x := by
  unfold qf
  rw [toC_inv ((Matrix.isUnit_iff_isUnit_det S).1 hS.isUnit)]
  simp [dotProduct, mulVec, -Complex.ofReal_inv]

theorem scatter_toC (w : Fin N → ℝ) (X : Matrix (Fin N) (Fin p) ℝ) :
    scatter w (toC X) = toC (scatter w X) := by
  ext a b
  have h : (toC (scatter w X)) a b = ((scatter w X a b : ℝ) : ℂ) := rfl
  rw [scatter_apply, h, scatter_apply]
  simp

theorem mStep_toC (w : ℝ → ℝ) (X : Matrix (Fin N) (Fin p) ℝ) {S : Matrix (Fin p) (Fin p) ℝ}
    (hS : S.PosDef) : mStep w (toC X) (toC S) = toC (mStep w X S) := by
  unfold mStep
  rw [← scatter_toC]
  congr 1
  funext i
  rw [← qf_toC hS]
  rfl

theorem frob_toC (S : Matrix (Fin p) (Fin p) ℝ) : frob (toC S) = frob S := by
  simp [frob]

theorem relErr_toC (a b : Matrix (Fin p) (Fin p) ℝ) :
    relErr (.fin (toC a)) (.fin (toC b)) = relErr (.fin a) (.fin b) := by
  simp only [relErr, ← toC_sub, frob_toC]

theorem spans_toC {X : Matrix (Fin N) (Fin p) ℝ} (hX : Spans X) : Spans (toC X) := by
  intro v hv
  have h1 : (fun j => (v j).re) = 0 := hX _ fun i => by
    have := congrArg Complex.re (hv i)
    simpa [sample, dotProduct] using this
  have h2 : (fun j => (v j).im) = 0 := hX _ fun i => by
    have := congrArg Complex.im (hv i)
    simpa [sample, dotProduct] using this
  funext j
  exact Complex.ext (congrFun h1 j) (congrFun h2 j)

theorem nonzero_toC {X : Matrix (Fin N) (Fin p) ℝ} (hX : NonzeroSamples X) :
    NonzeroSamples (toC X) := by
  intro i h
  apply hX i
  funext j
  have := congrFun h j
  simpa [sample] using this

theorem secondMoment_toC (X : Matrix (Fin N) (Fin p) ℝ) :
    secondMoment (toC X) = toC (secondMoment X) := by
  rw [secondMoment_eq, secondMoment_eq, scatter_toC]

/-- Apply the embedding to a value that may be NaN. -/
noncomputable def FMat.toC : FMat p ℝ → FMat p ℂ
  | .fin M => .fin (RS.toC M)
  | .nan => .nan

theorem normalise_toC (name : String) (hp : 0 < p) (S : Matrix (Fin p) (Fin p) ℝ) :
    FMat.normalise name (.fin (toC S)) = (FMat.normalise name (.fin S)).toC := by
  have h : normFn name (toC S) = (normFn name S).map Complex.ofReal := by
    simp only [normFn, toC_trace, toC_det, RCLike.re_to_real, RCLike.re_to_complex,
      Complex.ofReal_re]
    split_ifs <;> simp
  simp only [FMat.normalise, h]
  cases normFn name S with
  | none => rfl
  | some s =>
    simp only [Option.map_some, Complex.ofReal_eq_zero]
    split_ifs
    · rfl
    · simp only [FMat.toC]
      congr 1
      ext i j
      simp

end
end RS
