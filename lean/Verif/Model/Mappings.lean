import Mathlib.Analysis.Complex.Norm
import Mathlib.Data.Matrix.Block
import Mathlib.LinearAlgebra.Matrix.Reindex
import Mathlib.Logic.Equiv.Fin.Basic
import Mathlib.Tactic.NormNum
import Verif.Model.NDArray

/-
Model of `robuststats/models/mappings.py`.
Logging calls are not modelled.
-/
set_option autoImplicit false

namespace RS

open Matrix

/-- `a[:p]` with `p = int(len(a)/2)`, mappings.py:68-69. -/
def firstHalf {α : Type*} {n : ℕ} (v : Fin n → α) : Fin (n / 2) → α :=
  fun i => v ⟨i.1, by omega⟩

/-- `a[p:]` with `p = int(len(a)/2)`, mappings.py:68-69. -/
def secondHalf {α : Type*} {n : ℕ} (v : Fin n → α) : Fin (n - n / 2) → α :=
  fun i => v ⟨n / 2 + i.1, by omega⟩

/-- mappings.py:18-45 `arraytoreal`. `np.concatenate`/`np.hstack` of real and imaginary
part along the last axis is `Fin.append`. -/
def arraytoreal : NDArr → Py NDArr
  | .cplx (.d1 n v) =>
      .ok (.real (.d1 (n + n) (Fin.append (fun i => (v i).re) (fun i => (v i).im))))
  | .cplx (.d2 m n a) =>
      .ok (.real (.d2 m (n + n)
        (fun i => Fin.append (fun j => (a i j).re) (fun j => (a i j).im))))
  | .cplx _ => .error .attributeError
  | .real a => .ok (.real a)

/-- `np.vstack` applied to an array: iterates over the first axis; without rows there
is nothing to concatenate and numpy raises `ValueError`. mappings.py:72 -/
def vstackArr {α : Type*} : Arr α → Py (Arr α)
  | .d2 m n a => if m = 0 then .error .valueError else .ok (.d2 m n a)
  | a => .ok a

/-- `x + 1j*y`, mappings.py:69 and 72. -/
def addI (x y : ℝ) : ℂ := (x : ℂ) + Complex.I * (y : ℂ)

/-- mappings.py:48-76 `arraytocomplex`: the sum `a[:p] + 1j*a[p:]` follows numpy
broadcasting, which matters when the last axis is odd. -/
def arraytocomplex : NDArr → Py NDArr
  | .real (.d1 n v) => do
      let r ← bcast1 addI (n / 2) (n - n / 2) (firstHalf v) (secondHalf v)
      return .cplx r
  | .real (.d2 m n a) => do
      let r ← bcast2 addI m (n / 2) (n - n / 2)
        (fun i => firstHalf (a i)) (fun i => secondHalf (a i))
      let r' ← vstackArr r
      return .cplx r'
  | .real _ => .error .attributeError
  | .cplx a => .ok (.cplx a)

/-- mappings.py:209-224 `iscovariance`. -/
def iscovariance : NDArr → Bool
  | .real (.d2 m n _) => m == n
  | .cplx (.d2 m n _) => m == n
  | _ => false

/-- The arithmetic of mappings.py:165-166:
`.5 * np.block([[real, -imag], [imag, real]])`. -/
noncomputable def realify {n : ℕ} (a : Matrix (Fin n) (Fin n) ℂ) :
    Matrix (Fin (n + n)) (Fin (n + n)) ℝ :=
  (1 / 2 : ℝ) •
    (fromBlocks (a.map Complex.re) (-(a.map Complex.im))
                (a.map Complex.im) (a.map Complex.re)).submatrix
      finSumFinEquiv.symm finSumFinEquiv.symm

/-- The arithmetic of mappings.py:198-199: `2*a[:p, :p] + 2j*a[p:, :p]`, `p = len(a)/2`. -/
noncomputable def complexify {n : ℕ} (a : Matrix (Fin n) (Fin n) ℝ) (h : n % 2 = 0) :
    Matrix (Fin (n / 2)) (Fin (n / 2)) ℂ :=
  fun i j => 2 * ((a ⟨i.1, by omega⟩ ⟨j.1, by omega⟩ : ℝ) : ℂ)
    + 2 * Complex.I * ((a ⟨n / 2 + i.1, by omega⟩ ⟨j.1, by omega⟩ : ℝ) : ℂ)

/-- mappings.py:144-172 `covariancetoreal`. -/
noncomputable def covariancetoreal : NDArr → Py NDArr
  | .cplx (.d2 m n a) =>
      if h : m = n then .ok (.real (.d2 (n + n) (n + n) (realify (h ▸ a))))
      else .error .attributeError
  | .cplx _ => .error .attributeError
  | .real a => .ok (.real a)

/-- mappings.py:175-206 `covariancetocomplex`. -/
noncomputable def covariancetocomplex : NDArr → Py NDArr
  | .real (.d2 m n a) =>
      if h : m = n then
        if h2 : n % 2 = 0 then .ok (.cplx (.d2 (n / 2) (n / 2) (complexify (h ▸ a) h2)))
        else .error .attributeError
      else .error .attributeError
  | .real _ => .error .attributeError
  | .cplx a => .ok (.cplx a)

/-- mappings.py:79-108 `covariancestoreal`. The loop over `range(n_samples)` calls
`covariancetoreal` on each matrix, which raises on the first one when they are not
square; with no matrices at all the pre-allocated array comes back. -/
noncomputable def covariancestoreal : NDArr → Py NDArr
  | .real a => .ok (.real a)
  | .cplx (.d3 k m n a) =>
      if h : m = n then
        .ok (.real (.d3 k (m + m) (m + m) (fun i => realify (h ▸ a i))))
      else if k = 0 then .ok (.real (.d3 k (m + m) (m + m) (fun _ => 0)))
      else .error .attributeError
  | .cplx _ => .error .attributeError

/-- mappings.py:111-141 `covariancestocomplex`. -/
noncomputable def covariancestocomplex : NDArr → Py NDArr
  | .cplx a => .ok (.cplx a)
  | .real (.d3 k m n a) =>
      if hm : m % 2 = 0 then
        if h : m = n then
          .ok (.cplx (.d3 k (m / 2) (m / 2) (fun i => complexify (h ▸ a i) hm)))
        else if k = 0 then .ok (.cplx (.d3 k (m / 2) (m / 2) (fun _ => 0)))
        else .error .attributeError
      else .error .attributeError
  | .real _ => .error .attributeError

/-- `np.isclose(x, y, rtol, atol)` on finite numbers: `|x - y| <= atol + rtol*|y|`. -/
def isclose (rtol atol : ℝ) (x y : ℂ) : Prop := ‖x - y‖ ≤ atol + rtol * ‖y‖

/-- mappings.py:227-246 `check_Hermitian` for a 2-D array: `np.allclose(a, np.conj(a.T))`.
A non-square array is compared with its conjugate transpose by broadcasting when one of
its dimensions is 1 and otherwise raises `ValueError`. The Boolean is given as the
proposition it decides. Simplification: 1-D and >=3-D inputs are not modelled. -/
def check_Hermitian (rtol atol : ℝ) (m n : ℕ) (a : Matrix (Fin m) (Fin n) ℂ) : Py Prop :=
  if h : m = n then
    .ok (∀ i j : Fin n, isclose rtol atol (a (i.cast h.symm) j) (star (a (j.cast h.symm) i)))
  else if hm : m = 1 then
    .ok (∀ i j : Fin n, isclose rtol atol (a ⟨0, by omega⟩ j) (star (a ⟨0, by omega⟩ i)))
  else if hn : n = 1 then
    .ok (∀ i j : Fin m, isclose rtol atol (a i ⟨0, by omega⟩) (star (a j ⟨0, by omega⟩)))
  else .error .valueError

/-- mappings.py:249-268 `check_Symmetric`: `np.allclose(a, a.T)`; as `check_Hermitian`
without the conjugation. -/
def check_Symmetric (rtol atol : ℝ) (m n : ℕ) (a : Matrix (Fin m) (Fin n) ℂ) : Py Prop :=
  if h : m = n then
    .ok (∀ i j : Fin n, isclose rtol atol (a (i.cast h.symm) j) (a (j.cast h.symm) i))
  else if hm : m = 1 then
    .ok (∀ i j : Fin n, isclose rtol atol (a ⟨0, by omega⟩ j) (a ⟨0, by omega⟩ i))
  else if hn : n = 1 then
    .ok (∀ i j : Fin m, isclose rtol atol (a i ⟨0, by omega⟩) (a j ⟨0, by omega⟩))
  else .error .valueError

end RS
