import Verif.Model.Online
import Verif.Spec.Manifolds

/-
Specifications for the online estimator.
-/
set_option autoImplicit false

namespace RS

variable {E V : Type} [SMul ℝ V]

/-- `v` is `t` times `u`, componentwise for lists and tuples. -/
inductive IsScaled (t : ℝ) : Tangent V → Tangent V → Prop
  | arr (u : V) : IsScaled t (.arr u) (.arr (t • u))
  | list (l m : List V) : m.length = l.length →
      (∀ (i : ℕ) (h : i < l.length) (h' : i < m.length), m[i] = t • l[i]) →
      IsScaled t (.list l) (.list m)
  | tuple (l m : List V) : m.length = l.length →
      (∀ (i : ℕ) (h : i < l.length) (h' : i < m.length), m[i] = t • l[i]) →
      IsScaled t (.tuple l) (.tuple m)

/-- `e 0, e 1, ...` is the path of stochastic gradient steps over the samples `xs`, the `i`-th of
which (from 0) is used with step `step i`: each sample is used once, in order. -/
def IsOnlinePath (retr : E → Tangent V → Py E) (rgrad : NDArr → E → Py (Tangent V))
    (step : ℕ → ℝ) (xs : List NDArr) (e : ℕ → E) : Prop :=
  ∀ (i : ℕ) (h : i < xs.length), ∃ g v, rgrad xs[i] (e i) = .ok g ∧
    IsScaled (step i) g v ∧ retr (e i) v = .ok (e (i + 1))

/-- The rows of a data matrix, each as a `1 × p` array. -/
inductive RowsOf : NDArr → List NDArr → Prop
  | real (n p : ℕ) (X : Matrix (Fin n) (Fin p) ℝ) :
      RowsOf (.real (.d2 n p X)) (List.ofFn fun i => .real (.d2 1 p (Matrix.of fun _ j => X i j)))
  | cplx (n p : ℕ) (X : Matrix (Fin n) (Fin p) ℂ) :
      RowsOf (.cplx (.d2 n p X)) (List.ofFn fun i => .cplx (.d2 1 p (Matrix.of fun _ j => X i j)))

/-- The object has an estimate, which is `good`, and its covariance is the attribute
`covariance_`. -/
def Holds (good : E → Prop) (cov : E → NDArr) (s : Online E) : Prop :=
  ∃ e, s.estimate = some e ∧ good e ∧ s.covariance = some (cov e)

/-- The operation hands in no estimate, or a `good` one. -/
def OnlineOp.Admissible (good : E → Prop) : OnlineOp E → Prop
  | .setEstimate e => ∃ x, e = some x ∧ good x
  | .fit _ init _ => ∃ x, init = some x ∧ good x
  | _ => True

end RS
