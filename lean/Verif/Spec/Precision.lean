import Verif.Model.Precision
import Mathlib.LinearAlgebra.Matrix.PosDef

/-
Specification of pseudo-inverses.
-/
set_option autoImplicit false

namespace RS
open Matrix

/-- `P` is the Moore-Penrose inverse of `A`. -/
structure IsPinv {n : ℕ} (A P : Matrix (Fin n) (Fin n) ℂ) : Prop where
  apa : A * P * A = A
  pap : P * A * P = P
  ap : (A * P).IsHermitian
  pa : (P * A).IsHermitian

/-- The contract of `pinvh`: on a Hermitian matrix it returns the Moore-Penrose inverse. -/
def Pinvh.Ok (pinvh : Pinvh) : Prop :=
  ∀ (n : ℕ) (A : Matrix (Fin n) (Fin n) ℂ), A.IsHermitian → IsPinv A (pinvh n A)

/-- The array `P` is the Moore-Penrose inverse of the array `c`, a Hermitian matrix. -/
def ArrIsPinv (c P : NDArr) : Prop :=
  ∃ (n : ℕ) (A B : Matrix (Fin n) (Fin n) ℂ),
    c = .cplx (.d2 n n A) ∧ P = .cplx (.d2 n n B) ∧ A.IsHermitian ∧ IsPinv A B

/-- An operation that hands over covariances only in the form of complex Hermitian matrices. -/
def EmpOp.HermArg : EmpOp → Prop
  | .setCov C => ∃ (n : ℕ) (A : Matrix (Fin n) (Fin n) ℂ), C = .cplx (.d2 n n A) ∧ A.IsHermitian
  | _ => True

/-- An operation that does not change `store_precision`. -/
def EmpOp.KeepsStore : EmpOp → Prop
  | .setStore _ => False
  | _ => True

/-- An operation that only assigns attributes. -/
def EmpOp.IsAttr : EmpOp → Prop
  | .setStore _ => True
  | .setCentered _ => True
  | _ => False

end RS
