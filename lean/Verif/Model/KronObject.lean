import Verif.Model.Structured
import Verif.Model.Manifolds

/-
`KroneckerStudent` as an object (robuststats/estimation/structured.py:342-417): what its constructor
stores, what `set_params` and attribute assignment change, and what a call of `fit` leaves behind
when it raises half-way.

Simplifications: `store_precision`, `precision_` and `verbosity` are left out; `init` has the sizes
that the object has when `fit` is called.
-/
set_option autoImplicit false

namespace RS
open Matrix

/-- A `KroneckerStudent` object. `fitted` holds `A_` and `B_`, `covariance` holds `covariance_`;
`none` before the attribute is first set. -/
structure KronObj where
  params : KronStudentParams
  alpha : ℝ
  manifold : KronM
  location : Option NDArr
  fitted : Option (Σ a b : ℕ, Matrix (Fin a) (Fin a) ℂ × Matrix (Fin b) (Fin b) ℂ)
  covariance : Option NDArr

/-- pymanopt's `ConjugateGradient().solve` on a manifold. -/
abbrev KronLib := KronM → ∀ a b : ℕ, KronSolver a b

/-- structured.py:344-353 `__init__`. -/
noncomputable def KronObj.new (P : KronStudentParams) : KronObj :=
  ⟨P, P.alpha, ⟨P.a, P.b, P.alpha⟩, none, none, none⟩

/-- `set_params` of `a`, `b`, `df`, `assume_centered`, or assignment to these attributes. -/
def KronObj.set (o : KronObj) (f : KronStudentParams → KronStudentParams) : KronObj :=
  { o with params := f o.params }

/-- A starting pair for `fit`, by the sizes of the object. -/
abbrev KronInit := ∀ a b : ℕ, Option (Matrix (Fin a) (Fin a) ℂ × Matrix (Fin b) (Fin b) ℂ)

/-- structured.py:355-386 `fit`: line 371 checks the data, lines 372-375 set `location_`, lines
378-381 call the solver, lines 382-384 set `A_`, `B_` and `covariance_`. -/
noncomputable def KronObj.fit (L : KronLib) (o : KronObj) (X : NDArr) (init : KronInit) :
    KronObj × Py Unit :=
  match validateData X with
  | .error e => (o, .error e)
  | .ok (.cplx (.d2 n p Z)) =>
    let location : NDArr := if o.params.assumeCentered then .real (.d1 p 0)
      else .cplx (.d1 p fun j => (∑ i, Z i j) / n)
    let o1 : KronObj := { o with location := some location }
    match kronGradientEstimate (L o.manifold o.params.a o.params.b) (.cplx (.d2 n p Z)) o.params.df
        (some location) (init o.params.a o.params.b) with
    | .error e => (o1, .error e)
    | .ok (A, B) =>
      let o2 : KronObj := { o1 with fitted := some ⟨_, _, A, B⟩ }
      match setCovariance (.cplx (.d2 (o.params.a * o.params.b) (o.params.a * o.params.b)
          (npKron A B))) with
      | .error e => (o2, .error e)
      | .ok C => ({ o2 with covariance := some C }, .ok ())
  | .ok _ => (o, .error .valueError)

/-- structured.py:388-417 `score`. -/
noncomputable def KronObj.score (L : KronLib) (o : KronObj) (X : NDArr) : Py ℝ :=
  match o.location with
  | none => .error .attributeError
  | some loc =>
    match kronGradientEstimate (L o.manifold o.params.a o.params.b) X o.params.df (some loc) none with
    | .error e => .error e
    | .ok (A, B) => kronCost X o.params.df (some loc) A B

/-- What a user does with the object; exceptions are caught. -/
inductive KronOp where
  | fit (X : NDArr) (init : KronInit)
  | set (f : KronStudentParams → KronStudentParams)
  | score (X : NDArr)

/-- The object after one operation. -/
noncomputable def KronOp.run (L : KronLib) (o : KronObj) : KronOp → KronObj
  | .fit X init => (o.fit L X init).1
  | .set f => o.set f
  | .score _ => o

end RS
