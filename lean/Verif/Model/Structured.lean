import Verif.Model.Covariance
import Verif.Model.Probability
import Mathlib.LinearAlgebra.Matrix.NonsingularInverse

/-
Model of `robuststats/estimation/structured.py`.

Simplifications: `a, b` are natural numbers with `a, b ≥ 1` (a negative or zero size makes
`reshape` or later calls fail); data are of float or complex dtype; the progress bars are left out.
`scipy.linalg.sqrtm` is a parameter; it is handed finite matrices only (it raises `ValueError`
otherwise, which is what a zero denominator leads to).
-/
set_option autoImplicit false

namespace RS
open Matrix

section
variable {𝕜 : Type} [RCLike 𝕜]

open Classical in
/-- `numpy.linalg.inv` -/
noncomputable def pyInv {n : ℕ} (A : Matrix (Fin n) (Fin n) 𝕜) : Py (Matrix (Fin n) (Fin n) 𝕜) :=
  if IsUnit A.det then .ok A⁻¹ else .error .linAlgError

/-- `x.reshape((b, a), order='F')` of a vector of length `p = a * b`: entry `(r, c)` is number
`r + b c`. structured.py:74, 278 -/
def reshapeF {a b p : ℕ} (h : a * b = p) (x : Fin p → 𝕜) : Matrix (Fin b) (Fin a) 𝕜 :=
  of fun r c => x ⟨r + b * c, by
    have hr := r.2
    have hc := c.2
    calc (r : ℕ) + b * c < b * (c + 1) := by rw [Nat.mul_add]; omega
      _ ≤ b * a := Nat.mul_le_mul_left _ hc
      _ = p := by rw [← h, Nat.mul_comm]⟩

/-- `np.kron(A, B)`: entry `(i, j)` is `A[i // b, j // b] * B[i % b, j % b]`. -/
def npKron {a b : ℕ} (A : Matrix (Fin a) (Fin a) 𝕜) (B : Matrix (Fin b) (Fin b) 𝕜) :
    Matrix (Fin (a * b)) (Fin (a * b)) 𝕜 :=
  of fun i j => A i.divNat j.divNat * B i.modNat j.modNat

/-- `y > x` for floats -/
def Delta.lt : Delta → Delta → Prop
  | .fin r, .fin s => r < s
  | .fin _, .inf => True
  | _, _ => False

open Classical in
/-- Python's `max(x, y)`: `x` unless `y > x`. -/
noncomputable def Delta.pyMax (x y : Delta) : Delta := if x.lt y then y else x

/-- scipy's `sqrtm`, for matrices of any size. -/
abbrev Sqrtm (𝕜 : Type) := ∀ n : ℕ, Matrix (Fin n) (Fin n) 𝕜 → Py (Matrix (Fin n) (Fin n) 𝕜)

open Classical in
/-- structured.py:88-116 the body of the loop: new `A`, its inverse, new `B`. -/
noncomputable def kronStep (sq : Sqrtm 𝕜) {N a b : ℕ} (M : Fin N → Matrix (Fin b) (Fin a) 𝕜)
    (A iA : Matrix (Fin a) (Fin a) 𝕜) (B : Matrix (Fin b) (Fin b) 𝕜) :
    Py (Matrix (Fin a) (Fin a) 𝕜 × Matrix (Fin a) (Fin a) 𝕜 × Matrix (Fin b) (Fin b) 𝕜) := do
  let iB ← pyInv B
  let rA ← sq a A
  let rB ← sq b B
  let irA ← pyInv rA
  let irB ← pyInv rB
  let num i := (M i)ᴴ * iB * M i
  let den i := (iA * num i).trace
  if ∃ i, den i = 0 then .error .valueError
  let SA := ∑ i, ((a : 𝕜) / (N : 𝕜)) • ((den i)⁻¹ • num i)
  let R ← sq a (irA * SA * irA)
  let A' := rA * R * rA
  let iA' ← pyInv A'
  let den' i := (iA' * num i).trace
  if ∃ i, den' i = 0 then .error .valueError
  let SB := ∑ i, ((b : 𝕜) / (N : 𝕜)) • ((den' i)⁻¹ • (M i * iA' * (M i)ᴴ))
  let R' ← sq b (irB * SB * irB)
  return (A', iA', rB * R' * rB)

/-- The variables of the loop. -/
structure KronState (a b : ℕ) (𝕜 : Type) where
  A : Matrix (Fin a) (Fin a) 𝕜
  iA : Matrix (Fin a) (Fin a) 𝕜
  B : Matrix (Fin b) (Fin b) 𝕜
  delta : Delta
  iteration : ℕ

open Classical in
/-- structured.py:88-127 `while (delta > tol) and (iteration < iter_max)`. -/
noncomputable def kronLoop (sq : Sqrtm 𝕜) {N a b : ℕ} (M : Fin N → Matrix (Fin b) (Fin a) 𝕜)
    (tol : ℝ) (iterMax : ℤ) (s : KronState a b 𝕜) : Py (KronState a b 𝕜) :=
  if s.delta.gt tol ∧ (s.iteration : ℤ) < iterMax then
    match kronStep sq M s.A s.iA s.B with
    | .error e => .error e
    | .ok (A, iA, B) => kronLoop sq M tol iterMax
        ⟨A, iA, B, (relErr (.fin A) (.fin s.A)).pyMax (relErr (.fin B) (.fin s.B)), s.iteration + 1⟩
  else .ok s
termination_by (iterMax - s.iteration).toNat
decreasing_by omega

/-- The four returned values and whether 'did not converge' was logged. -/
structure KronOut (a b : ℕ) (𝕜 : Type) where
  A : Matrix (Fin a) (Fin a) 𝕜
  B : Matrix (Fin b) (Fin b) 𝕜
  err : ℝ
  iteration : ℕ
  warned : Bool

/-- structured.py:29-132 `estimation_cov_kronecker_MM`; `none` is Python's `None`. -/
noncomputable def kroneckerMM (sq : Sqrtm 𝕜) {N p : ℕ} (X : Matrix (Fin N) (Fin p) 𝕜) (a b : ℕ)
    (tol : ℝ) (iterMax : ℤ) : Py (Option (KronOut a b 𝕜)) :=
  if h : a * b ≠ p then .ok none
  else do
    let s ← kronLoop sq (fun i => reshapeF (not_not.1 h) (X i)) tol iterMax ⟨1, 1, 1, .inf, 0⟩
    return some ⟨s.A, s.B, tol, s.iteration, (s.iteration : ℤ) == iterMax⟩

end

/-! ## KroneckerEllipticalMM -/

/-- The constructor arguments of `KroneckerEllipticalMM`. -/
structure KronMMParams where
  a : ℕ
  b : ℕ
  tol : ℝ
  iterMax : ℤ

/-- The attributes set by `fit`. -/
structure KronFit (a b : ℕ) where
  A : Matrix (Fin a) (Fin a) ℂ
  B : Matrix (Fin b) (Fin b) ℂ
  covariance : NDArr

/-- structured.py:146-180 `KroneckerEllipticalMM.fit`. Unpacking `None` is a `TypeError`. -/
noncomputable def kronMMFit (sq : Sqrtm ℂ) (P : KronMMParams) (X : NDArr) :
    Py (KronFit P.a P.b) := do
  match ← validateData X with
  | .cplx (.d2 _ _ Z) =>
    match ← kroneckerMM sq Z P.a P.b P.tol P.iterMax with
    | none => .error .typeError
    | some o =>
      let C ← setCovariance (.cplx (.d2 (P.a * P.b) (P.a * P.b) (npKron o.A o.B)))
      return ⟨o.A, o.B, C⟩
  | _ => .error .valueError

/-- structured.py:182-208 `KroneckerEllipticalMM.score` of an object with parameters `P` and the
attributes `_fit` (none before `fit`): the estimation is run on the test set, its result is thrown
away, and 0 is returned. -/
noncomputable def kronMMScore (sqR : Sqrtm ℝ) (sqC : Sqrtm ℂ) (P : KronMMParams)
    (_fit : Option (KronFit P.a P.b)) (X : NDArr) : Py ℝ := do
  match X with
  | .cplx (.d2 _ _ Z) =>
    match ← kroneckerMM sqC Z P.a P.b P.tol P.iterMax with
    | none => .error .typeError
    | some _ => return 0
  | .real (.d2 _ _ Z) =>
    match ← kroneckerMM sqR Z P.a P.b P.tol P.iterMax with
    | none => .error .typeError
    | some _ => return 0
  | _ => .error .valueError

/-! ## KroneckerStudent -/

/-- structured.py:211-237 the cost: minus the log-likelihood of the data under the t law with
shape `np.kron(A, B)`. `A` and `B` are complex arrays (the default starting point is). -/
noncomputable def kronCost (X : NDArr) (df : ℝ) (loc : Option NDArr) {a b : ℕ}
    (A : Matrix (Fin a) (Fin a) ℂ) (B : Matrix (Fin b) (Fin b) ℂ) : Py ℝ := do
  let v ← CT.frozenLogpdf loc (.arr (.cplx (.d2 (a * b) (a * b) (npKron A B)))) df X
  return -∑ i, v.2 i

/-- `a.size` -/
def Arr.size {α : Type*} : Arr α → ℕ
  | .d0 _ => 1
  | .d1 n _ => n
  | .d2 m n _ => m * n
  | .d3 k m n _ => k * m * n
  | .dn s _ _ => s.prod

/-- `a.size` -/
def NDArr.size : NDArr → ℕ
  | .real a => a.size
  | .cplx a => a.size

open Classical in
/-- structured.py:240-288 the function returned by `_generate_egrad_function_kronecker_student`,
for complex data. The centred data `Y` (lines 264-267) are computed and never used: what is left of
`loc` is that its reshape may fail. The result `none` stands for infinite or NaN entries. -/
noncomputable def kronEgrad {N p : ℕ} (X : Matrix (Fin N) (Fin p) ℂ) (a b : ℕ) (df : ℝ)
    (loc : Option NDArr) (A : Matrix (Fin a) (Fin a) ℂ) (B : Matrix (Fin b) (Fin b) ℂ) :
    Py (Option (Matrix (Fin a) (Fin a) ℂ × Matrix (Fin b) (Fin b) ℂ)) := do
  match loc with
  | none => pure ()
  | some l => if l.size ≠ p then .error .valueError
  let iA ← pyInv A
  let iB ← pyInv B
  if h : a * b ≠ p then
    if N = 0 then return none else .error .valueError
  else
    let M i := reshapeF (not_not.1 h) (X i)
    let Q i := (iA * (M i)ᵀ * iB * M i).trace.re
    let w i : ℝ := (df + a * b) / (df + Q i)
    if N = 0 ∨ ∃ i, df + Q i = 0 then return none
    else
      let gA := ((N : ℂ)⁻¹ • -∑ i, (w i : ℂ) • (iA * ((M i)ᴴ * iB * M i) * iA)) + (b : ℂ) • iA
      let gB := ((N : ℂ)⁻¹ • -∑ i, (w i : ℂ) • (iB * (M i * iA * (M i)ᴴ) * iB)) + (a : ℂ) • iB
      return some (gAᴴ, gBᴴ)

/-- The constructor arguments of `KroneckerStudent`. -/
structure KronStudentParams where
  a : ℕ
  b : ℕ
  df : ℝ
  assumeCentered : Bool

/-- The attribute `alpha` given to the manifold, structured.py:351. -/
noncomputable def KronStudentParams.alpha (P : KronStudentParams) : ℝ :=
  (P.df + P.a * P.b) / (P.df + P.a * P.b + 1)

/-- The attributes set by `KroneckerStudent.fit`. -/
structure KronStudentFit (a b : ℕ) where
  location : NDArr
  A : Matrix (Fin a) (Fin a) ℂ
  B : Matrix (Fin b) (Fin b) ℂ
  covariance : NDArr

/-- pymanopt: `ConjugateGradient().solve(problem, x=theta_0)` for the cost and the gradient. -/
abbrev KronSolver (a b : ℕ) :=
  (Matrix (Fin a) (Fin a) ℂ → Matrix (Fin b) (Fin b) ℂ → Py ℝ) →
  (Matrix (Fin a) (Fin a) ℂ → Matrix (Fin b) (Fin b) ℂ →
    Py (Option (Matrix (Fin a) (Fin a) ℂ × Matrix (Fin b) (Fin b) ℂ))) →
  Matrix (Fin a) (Fin a) ℂ × Matrix (Fin b) (Fin b) ℂ →
  Py (Matrix (Fin a) (Fin a) ℂ × Matrix (Fin b) (Fin b) ℂ)

/-- The data as complex numbers (what `X[i, :]` yields in a computation with complex arrays). -/
def NDArr.complexRows : NDArr → Option (Σ N p : ℕ, Matrix (Fin N) (Fin p) ℂ)
  | .cplx (.d2 N p Z) => some ⟨N, p, Z⟩
  | .real (.d2 N p Z) => some ⟨N, p, Z.map Complex.ofReal⟩
  | _ => none

/-- structured.py:291-339 `_estimate_covariance_kronecker_t_gradient`. -/
noncomputable def kronGradientEstimate {a b : ℕ} (solve : KronSolver a b) (X : NDArr) (df : ℝ)
    (mean : Option NDArr) (init : Option (Matrix (Fin a) (Fin a) ℂ × Matrix (Fin b) (Fin b) ℂ)) :
    Py (Matrix (Fin a) (Fin a) ℂ × Matrix (Fin b) (Fin b) ℂ) :=
  match X.complexRows with
  | none => .error .valueError
  | some ⟨_, _, Z⟩ =>
    solve (kronCost X df mean) (kronEgrad Z a b df mean) (init.getD (1, 1))

/-- structured.py:355-386 `KroneckerStudent.fit`. -/
noncomputable def kronStudentFit (P : KronStudentParams) (solve : KronSolver P.a P.b) (X : NDArr)
    (init : Option (Matrix (Fin P.a) (Fin P.a) ℂ × Matrix (Fin P.b) (Fin P.b) ℂ)) :
    Py (KronStudentFit P.a P.b) := do
  match ← validateData X with
  | .cplx (.d2 n p Z) =>
    let location : NDArr := if P.assumeCentered then .real (.d1 p 0)
      else .cplx (.d1 p fun j => (∑ i, Z i j) / n)
    let (A, B) ← kronGradientEstimate solve (.cplx (.d2 n p Z)) P.df (some location) init
    let C ← setCovariance (.cplx (.d2 (P.a * P.b) (P.a * P.b) (npKron A B)))
    return ⟨location, A, B, C⟩
  | _ => .error .valueError

/-- structured.py:388-417 `KroneckerStudent.score` of an object with the attributes `fit` (none
before `fit`, when `location_` does not exist). -/
noncomputable def kronStudentScore (P : KronStudentParams) (solve : KronSolver P.a P.b)
    (fit : Option (KronStudentFit P.a P.b)) (X : NDArr) : Py ℝ := do
  match fit with
  | none => .error .attributeError
  | some f =>
    let (A, B) ← kronGradientEstimate solve X P.df (some f.location) none
    kronCost X P.df (some f.location) A B

end RS
