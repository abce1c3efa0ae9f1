import Mathlib.Analysis.RCLike.Basic
import Mathlib.Analysis.SpecialFunctions.Pow.Real
import Mathlib.Analysis.SpecialFunctions.Sqrt
import Mathlib.LinearAlgebra.Matrix.Hermitian
import Mathlib.Data.Matrix.Diagonal
import Mathlib.Algebra.Order.Round
import Verif.Model.NDArray

/-
Model of `robuststats/utils/linalg.py`. The `autograd` flag only selects the numerical
backend (numpy or autograd.numpy) and is not modelled. Real and complex arrays are
covered by one model, generic over `RCLike`, because the code is the same.
-/
set_option autoImplicit false

namespace RS

open Matrix

section Generic
variable {𝕜 : Type*} [RCLike 𝕜] {ι : Type*} [Fintype ι] [DecidableEq ι]

/-- What `eigh` returns: eigenvalues and a matrix of eigenvectors (columns). -/
structure EigRes (ι : Type*) (𝕜 : Type*) where
  vals : ι → ℝ
  vecs : Matrix ι ι 𝕜

/-- The contract of `np.linalg.eigh` on a matrix `A`: the eigenvector matrix is unitary
and diagonalises `A`. Which of the many valid answers comes back is left open. -/
structure EigRes.Valid (e : EigRes ι 𝕜) (A : Matrix ι ι 𝕜) : Prop where
  unitary : e.vecsᴴ * e.vecs = 1
  decomp : A = e.vecs * diagonal (fun i => (e.vals i : 𝕜)) * e.vecsᴴ

/-- An eigen-solver. -/
abbrev Eigh (ι : Type*) (𝕜 : Type*) := Matrix ι ι 𝕜 → EigRes ι 𝕜

/-- A solver meets its contract when it answers correctly on every Hermitian matrix. -/
def Eigh.Ok (eigh : Eigh ι 𝕜) : Prop := ∀ A : Matrix ι ι 𝕜, A.IsHermitian → (eigh A).Valid A

/-- linalg.py:28-34 `_matrix_operator`: `V @ diag(operator(vals)) @ conj(V).T`. -/
noncomputable def matrixOperator (eigh : Eigh ι 𝕜) (op : ℝ → ℝ) (C : Matrix ι ι 𝕜) :
    Matrix ι ι 𝕜 :=
  let e := eigh C
  e.vecs * diagonal (fun i => (op (e.vals i) : 𝕜)) * e.vecsᴴ

/-- linalg.py:37-52 `sqrtm`. Simplification: for a negative eigenvalue numpy yields NaN,
the model 0; properties assume positive semi-definite input. -/
noncomputable def sqrtm (eigh : Eigh ι 𝕜) (C : Matrix ι ι 𝕜) : Matrix ι ι 𝕜 :=
  matrixOperator eigh Real.sqrt C

/-- linalg.py:55-69 `logm`. Same remark: properties assume positive definite input. -/
noncomputable def logm (eigh : Eigh ι 𝕜) (C : Matrix ι ι 𝕜) : Matrix ι ι 𝕜 :=
  matrixOperator eigh Real.log C

/-- linalg.py:72-86 `expm`. -/
noncomputable def expm (eigh : Eigh ι 𝕜) (C : Matrix ι ι 𝕜) : Matrix ι ι 𝕜 :=
  matrixOperator eigh Real.exp C

/-- linalg.py:89-106 `invsqrtm`. Same remark: properties assume positive definite input. -/
noncomputable def invsqrtm (eigh : Eigh ι 𝕜) (C : Matrix ι ι 𝕜) : Matrix ι ι 𝕜 :=
  matrixOperator eigh (fun x => 1 / Real.sqrt x) C

/-- linalg.py:109-126 `powm`. Same remark: properties assume positive definite input. -/
noncomputable def powm (eigh : Eigh ι 𝕜) (C : Matrix ι ι 𝕜) (alpha : ℝ) : Matrix ι ι 𝕜 :=
  matrixOperator eigh (fun x => x ^ alpha) C

/-- linalg.py:129-131 `hermitian`. -/
noncomputable def hermitian (X : Matrix ι ι 𝕜) : Matrix ι ι 𝕜 := (1 / 2 : 𝕜) • (X + Xᴴ)

/-- linalg.py:17-19 `multihconj` on a stack (pymanopt's `multitransp` transposes the last
two axes of a 3-D array). -/
def multihconj {κ : Type*} (A : κ → Matrix ι ι 𝕜) : κ → Matrix ι ι 𝕜 := fun k => (A k)ᴴ

/-- linalg.py:22-24 `multiherm` on a stack. -/
noncomputable def multiherm {κ : Type*} (A : κ → Matrix ι ι 𝕜) : κ → Matrix ι ι 𝕜 :=
  (1 / 2 : 𝕜) • (A + multihconj A)

/-- linalg.py:134-143 `ToeplitzMatrix` (with `dtype` matching `rho`). `scipy.linalg.toeplitz(c)`
with the row left out uses the conjugate of the column as first row. -/
def ToeplitzMatrix (rho : 𝕜) (p : ℕ) : Matrix (Fin p) (Fin p) 𝕜 :=
  let c : ℕ → 𝕜 := fun k => rho ^ k
  Matrix.of fun i j => if j ≤ i then c (i.1 - j.1) else star (c (j.1 - i.1))

/-- linalg.py:146-147 `vec`: `mat.ravel('F')`, column after column. -/
def vec {m n : ℕ} (mat : Matrix (Fin m) (Fin n) 𝕜) : Fin (n * m) → 𝕜 :=
  fun k => mat k.modNat k.divNat

/-- linalg.py:160-162 `_triu_indices` before flattening: the pairs `(row, col)` with
`row <= col` in the order numpy lists them (row by row). -/
def triuIndices (n : ℕ) : List (Fin n × Fin n) :=
  (List.finRange n).flatMap fun r =>
    ((List.finRange n).filter fun c => r ≤ c).map fun c => (r, c)

/-- linalg.py:150-152 `vech` on a square matrix: element `(row, col)` of `mat.T` for the
upper-triangular index pairs. Simplification: non-square input is not modelled. -/
def vech {n : ℕ} (mat : Matrix (Fin n) (Fin n) 𝕜) : List 𝕜 :=
  (triuIndices n).map fun rc => matᵀ rc.1 rc.2

/-- linalg.py:170-173 `unvec`; `int(np.sqrt(len(v)))` with the exact square root. -/
noncomputable def unvec {len : ℕ} (v : Fin len → 𝕜) : Py (Arr 𝕜) :=
  let k := ⌊Real.sqrt len⌋₊
  if h : k * k = len then
    .ok (.d2 k k <| Matrix.of fun i j => v ⟨j.1 * k + i.1, by
      have : j.1 * k + i.1 < k * k := by nlinarith [i.2, j.2]
      omega⟩)
  else .error .assertionError

/-- linalg.py:176-188 `unvech`: order from the quadratic formula and rounding,
`result[np.triu_indices(rows)] = v` (numpy raises `ValueError` unless the number of index
pairs is the length of `v`, or `v` has one element), `result + result.conj().T`, diagonal
halved. Simplification: floating dtype (an integer `v` raises in `/=`). -/
noncomputable def unvech (v : List 𝕜) : Py (Arr 𝕜) :=
  let rows : ℕ := (round ((1 / 2 : ℝ) * (-1 + Real.sqrt (1 + 8 * (v.length : ℝ))))).toNat
  let idx := triuIndices rows
  if v.length = idx.length ∨ v.length = 1 then
    let result : Matrix (Fin rows) (Fin rows) 𝕜 := Matrix.of fun r c =>
      if v.length = idx.length then ((idx.zip v).lookup (r, c)).getD 0
      else if r ≤ c then v.headD 0 else 0
    let result := result + resultᴴ
    let result : Matrix (Fin rows) (Fin rows) 𝕜 :=
      Matrix.of fun r c => if r = c then result r c / 2 else result r c
    .ok (.d2 rows rows result)
  else .error .valueError

end Generic
end RS
