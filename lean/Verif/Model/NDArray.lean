import Mathlib.Data.Complex.Basic
import Mathlib.LinearAlgebra.Matrix.Defs
import Verif.Model.Py

/-
numpy arrays as far as the modelled code dispatches on them: dtype kind
(real or complex), number of dimensions and shape.

Simplification: entries are exact real / complex numbers; arrays with four or
more dimensions keep only their shape and flat data, because every modelled
function rejects them or passes them through.
-/
set_option autoImplicit false

namespace RS

universe u v w

/-- An array with entries in `α`, by number of dimensions. -/
inductive Arr (α : Type u) : Type u where
  | d0 (x : α)
  | d1 (n : ℕ) (v : Fin n → α)
  | d2 (m n : ℕ) (a : Matrix (Fin m) (Fin n) α)
  | d3 (k m n : ℕ) (a : Fin k → Matrix (Fin m) (Fin n) α)
  | dn (shape : List ℕ) (h : 4 ≤ shape.length) (data : List α)

/-- `a.ndim` -/
def Arr.ndim {α : Type u} : Arr α → ℕ
  | .d0 _ => 0
  | .d1 _ _ => 1
  | .d2 _ _ _ => 2
  | .d3 _ _ _ _ => 3
  | .dn shape _ _ => shape.length

/-- An array with its dtype kind: `np.iscomplexobj` holds exactly for `cplx`. -/
inductive NDArr where
  | real (a : Arr ℝ)
  | cplx (a : Arr ℂ)

/-- `np.iscomplexobj(a)` -/
def NDArr.isComplex : NDArr → Bool
  | .real _ => false
  | .cplx _ => true

/-- `a.ndim` -/
def NDArr.ndim : NDArr → ℕ
  | .real a => a.ndim
  | .cplx a => a.ndim

/-- Elementwise binary operation of two 1-D arrays with numpy broadcasting:
equal lengths, or one of them of length 1, otherwise `ValueError`. -/
def bcast1 {α β γ : Type*} (f : α → β → γ) (m n : ℕ) (v : Fin m → α) (w : Fin n → β) :
    Py (Arr γ) :=
  if h : m = n then .ok (.d1 n fun i => f (v (i.cast h.symm)) (w i))
  else if h1 : m = 1 then .ok (.d1 n fun i => f (v ⟨0, by omega⟩) (w i))
  else if h2 : n = 1 then .ok (.d1 m fun i => f (v i) (w ⟨0, by omega⟩))
  else .error .valueError

/-- Elementwise binary operation of two 2-D arrays that have the same number `r` of
rows, with numpy broadcasting along the column axis. -/
def bcast2 {α β γ : Type*} (f : α → β → γ) (r m n : ℕ)
    (v : Matrix (Fin r) (Fin m) α) (w : Matrix (Fin r) (Fin n) β) : Py (Arr γ) :=
  if h : m = n then .ok (.d2 r n fun i j => f (v i (j.cast h.symm)) (w i j))
  else if h1 : m = 1 then .ok (.d2 r n fun i j => f (v i ⟨0, by omega⟩) (w i j))
  else if h2 : n = 1 then .ok (.d2 r m fun i j => f (v i j) (w i ⟨0, by omega⟩))
  else .error .valueError

end RS
