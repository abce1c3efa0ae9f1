import Verif.Model.FitCall

/-
Vocabulary for statements about calls of `fit`.
-/
set_option autoImplicit false

namespace RS

/-- Keyword arguments that can stand beside `X` and `init` in a call of `fit`: no name twice, and
none of `self`, `X`, `init`. -/
structure PlainKw (kw : List String) : Prop where
  nodup : kw.Nodup
  self : "self" ∉ kw
  X : "X" ∉ kw
  init : "init" ∉ kw

/-- The names that `fit` of each class refuses. -/
def refused : Cls → Method → List String
  | .huber, _ => ["q", "tol", "iter_max", "verbosity"]
  | .student, _ => []
  | .tyler, .fixedPoint => ["tol", "iter_max", "normalisation", "verbosity"]
  | .tyler, .naturalGradient => ["normalisation", "verbosity"]

/-- The stores and objects after the construction of an object and a history of calls. -/
noncomputable def storeAfter (L : Lib) (s0 : CallStore) (complex : Bool) (cls : Cls) (A : Attrs)
    (ops : List CallOp) : CallStore :=
  ops.foldl (CallOp.run L s0.heap.length) (constructStore s0 complex cls A).1

/-- The object at address `a` estimates with method `m`. -/
structure HasMethod (o : Est) (m : Method) : Prop where
  fn : o.cls = .tyler → ∃ b, o.fn = some (m, b)

/-- No call of `fit` in the history succeeds. -/
def NoFit (L : Lib) (a : ℕ) : CallStore → List CallOp → Prop
  | _, [] => True
  | s, op :: ops =>
    (∀ X init kw, op = .fit X init kw → (fitCall L s a X init kw).2 ≠ .ok ()) ∧
    NoFit L a (op.run L a s) ops

end RS
