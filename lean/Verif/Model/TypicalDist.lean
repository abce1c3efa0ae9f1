import Verif.Model.Manifolds

/-! Model of `typicaldist` of the manifolds (models/manifolds.py). -/
set_option autoImplicit false

namespace RS

/-- manifolds.py:50-52 `StrictlyPositiveVectors(n, k).typicaldist`; `dim` is the dimension handed to the
constructor of pymanopt's class. -/
noncomputable def SPV.typicaldist (n k : ℕ) : Py ℝ := .ok (Real.sqrt ((SPV.dim n k : ℤ) : ℝ))

/-- manifolds.py:382-384 `WeightedProduct.typicaldist`, inherited by
`KroneckerHermitianPositiveElliptical` (421-449): it raises without asking the factors.  `parts` are the
values of the factors.  (`HermitianPositiveDefinite` and `SpecialHermitianPositiveDefinite` define no
`typicaldist`; what pymanopt's base class does is not modelled.) -/
noncomputable def WeightedProduct.typicaldist (_parts : List (Py ℝ)) (_weights : List ℝ) : Py ℝ :=
  .error .notImplementedError

end RS
