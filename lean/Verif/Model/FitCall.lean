import Verif.Model.Estimators

/-
What surrounds the estimation in a call of `fit` (robuststats/estimation/covariance.py): the binding
of keyword arguments by Python, the attribute `n_features_in_` set by sklearn's `_validate_data`,
and `transform` and `fit_transform` (base.py:337-341 and sklearn's `TransformerMixin`).

Simplification: the values of the extra keyword arguments are left out, because no function of
covariance.py reads its `**kwargs`; missing arguments are not modelled, every call gives them.
-/
set_option autoImplicit false

namespace RS

/-- The signature of a Python function: the names of its parameters in order, and whether it has
`**kwargs`. -/
structure PySig where
  params : List String
  varKw : Bool

/-- Python's binding of a call with `n` positional arguments and keyword arguments of the names
`kw`: the names that end up in `**kwargs`. `TypeError` for too many positional arguments, for a
name given twice, for a name that a positional argument has taken, and for an unknown name unless
there is `**kwargs`. -/
def PySig.bind (f : PySig) (n : ℕ) (kw : List String) : Py (List String) :=
  if f.params.length < n then .error .typeError
  else if ¬ kw.Nodup then .error .typeError
  else if ∃ k ∈ kw, k ∈ f.params.take n then .error .typeError
  else if f.varKw = false ∧ ∃ k ∈ kw, k ∉ f.params then .error .typeError
  else .ok (kw.filter fun k => k ∉ f.params)

/-- covariance.py:498, 572, 674, 1072, 1150, 1253 `def fit(self, X, y=None, init=None, **kwargs)` -/
def fitSig : PySig := ⟨["self", "X", "y", "init"], true⟩

/-- covariance.py:120-121 and 712-713 `huber_m_estimator_fixed_point`,
`complex_huber_m_estimator_fixed_point` -/
def huberSig : PySig := ⟨["X", "q", "init", "tol", "iter_max", "verbosity"], true⟩

/-- covariance.py:199-200 and 804-805 `student_t_mle_fixed_point`,
`complex_student_t_mle_fixed_point` -/
def studentSig : PySig := ⟨["X", "df", "init", "tol", "iter_max", "verbosity"], true⟩

/-- covariance.py:657, 663, 1235, 1242 `def estimation_function(X, init, **kwargs)` -/
def closureSig : PySig := ⟨["X", "init"], true⟩

/-- covariance.py:373-375 and 945-947 `tyler_shape_matrix_fixedpoint`,
`complex_tyler_shape_matrix_fixedpoint` -/
def tylerSig : PySig := ⟨["X", "init", "tol", "iter_max", "normalisation", "verbosity"], true⟩

/-- covariance.py:324-325 and 887-888 `tyler_shape_matrix_naturalgradient`,
`complex_tyler_shape_matrix_naturalgradient` -/
def ngSig : PySig := ⟨["X", "init", "normalisation", "verbosity"], true⟩

/-- The calls made by `fit` with its own `**kwargs`: covariance.py:517-520 and 1091-1094 (Huber),
591-593 and 1169-1171 (Student, which does not pass them on), 693-694 with 657-667 and 1272-1273
with 1235-1246 (Tyler), 916-919 (complex natural gradient). -/
def bindEstimation (o : Est) (kwargs : List String) : Py Unit :=
  match o.cls with
  | .huber => do
    let _ ← huberSig.bind 2 (["init", "tol", "iter_max", "verbosity"] ++ kwargs)
    return ()
  | .student => do
    let _ ← studentSig.bind 6 []
    return ()
  | .tyler =>
    match o.fn with
    | none => .error .attributeError
    | some (.fixedPoint, _) => do
      let kw ← closureSig.bind 2 kwargs
      let _ ← tylerSig.bind 1 (["init", "tol", "iter_max", "normalisation", "verbosity"] ++ kw)
      return ()
    | some (.naturalGradient, _) => do
      let kw ← closureSig.bind 2 kwargs
      let kw' ← ngSig.bind 1 (["init", "normalisation", "verbosity"] ++ kw)
      if o.complex then
        let _ ← ngSig.bind 1 (["init", "normalisation", "verbosity"] ++ kw')
        return ()
      else return ()

/-- The number of columns of the array that sklearn's `_validate_data` looks at: the data for a
real estimator, `arraytoreal(X)` for a complex one (base.py:367-371). -/
def checkedColumns (complex : Bool) (X : NDArr) : Py ℕ := do
  let r ← if complex then arraytoreal X else .ok X
  match ← checkArray r with
  | .real (.d2 _ n _) => return n
  | _ => .error .valueError

/-- The estimator objects together with their attributes `n_features_in_`, by address. -/
structure CallStore where
  heap : Heap
  nFeatures : ℕ → Option ℕ

/-- `est.fit(X, init=init, **kw)` for the object at address `a`: as `fit`, with the binding of the
keyword arguments and with `n_features_in_`, which `_validate_data` sets as soon as the data have
passed its checks. -/
noncomputable def fitCall (L : Lib) (s : CallStore) (a : ℕ) (X : NDArr) (init : Option NDArr)
    (kw : List String) : CallStore × Py Unit :=
  match fitSig.bind 2 ("init" :: kw) with
  | .error e => (s, .error e)
  | .ok kwargs =>
    match s.heap[a]? with
    | none => (s, .error .nameError)
    | some o =>
      match o.iteration with
      | none => (s, .error .typeError)
      | some _ =>
        match checkedColumns o.complex X with
        | .error e => (s, .error e)
        | .ok n =>
          let nf := fun b => if b = a then some n else s.nFeatures b
          match bindEstimation o kwargs with
          | .error e => (⟨s.heap, nf⟩, .error e)
          | .ok () => (⟨(fit L s.heap a X init).1, nf⟩, (fit L s.heap a X init).2)

/-- base.py:337-341 `transform`, which does not look at its argument. -/
def transform (h : Heap) (a : ℕ) (_X : NDArr) : Py NDArr :=
  match h[a]? with
  | none => .error .nameError
  | some o => match o.covariance with
    | none => .error .attributeError
    | some C => .ok C

/-- sklearn's `TransformerMixin.fit_transform`: `self.fit(X, **fit_params).transform(X)`. -/
noncomputable def fitTransform (L : Lib) (s : CallStore) (a : ℕ) (X : NDArr) (init : Option NDArr)
    (kw : List String) : CallStore × Py NDArr :=
  match fitCall L s a X init kw with
  | (s', .error e) => (s', .error e)
  | (s', .ok ()) => (s', transform s'.heap a X)

/-- What a user does with the object at address `a`; exceptions are caught. -/
inductive CallOp where
  | fit (X : NDArr) (init : Option NDArr) (kw : List String)
  | set (f : Attrs → Attrs)
  | transform (X : NDArr)

/-- The store after one operation. -/
noncomputable def CallOp.run (L : Lib) (a : ℕ) (s : CallStore) : CallOp → CallStore
  | .fit X init kw => (fitCall L s a X init kw).1
  | .set f => ⟨setAttr s.heap a f, s.nFeatures⟩
  | .transform _ => s

/-- sklearn's constructors do not set `n_features_in_`. -/
def constructStore (s : CallStore) (complex : Bool) (cls : Cls) (A : Attrs) : CallStore × Py ℕ :=
  (⟨(construct s.heap complex cls A).1, s.nFeatures⟩, (construct s.heap complex cls A).2)

end RS
