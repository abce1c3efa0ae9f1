import Verif.Model.Estimators
import Verif.Spec.Covariance

/-
Vocabulary for statements about estimator objects.
-/
set_option autoImplicit false

namespace RS

/-- The attribute values after a history of operations. -/
def attrsAfter (A : Attrs) (ops : List Op) : Attrs :=
  ops.foldl (fun A op => match op with
    | .set f => f A
    | .fit _ _ => A) A

/-- The state of the heap after constructing an object and a history of operations on it. -/
noncomputable def after (L : Lib) (h0 : Heap) (complex : Bool) (cls : Cls) (A : Attrs)
    (ops : List Op) : Heap :=
  ops.foldl (Op.run L h0.length) (construct h0 complex cls A).1

/-- The function behind a class of real estimators. -/
def Cls.realEst (A : Attrs) : Cls → RealEst
  | .huber => .huber A.q
  | .student => .student A.df
  | .tyler => .tyler A.normalisation

/-- The function behind a class of complex estimators. -/
def Cls.complexEst (A : Attrs) : Cls → ComplexEst
  | .huber => .huber A.q
  | .student => .student A.df
  | .tyler => .tyler A.normalisation

/-- The fitted attributes of the object at address `a`. -/
structure Fitted (h : Heap) (a : ℕ) (C : NDArr) (err : Err) (iteration : Option ℕ) : Prop where
  intro ::
  obj : ∃ o, h[a]? = some o ∧ o.covariance = some C ∧ o.err = err ∧ o.iteration = iteration

end RS
