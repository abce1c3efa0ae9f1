import Mathlib.Data.List.Basic
import Mathlib.Data.Rat.Defs
import Verif.Model.Py

/-
The parameters of the estimators as sklearn sees them: the constructors of
robuststats/estimation/{base,covariance,structured}.py and robuststats/online/estimation.py, and
`get_params`, `set_params` and `clone`, which they inherit from sklearn's `BaseEstimator`.

An object is its class and its attributes by name. Simplifications: constructor arguments are given
by keyword; objects are values, so that an estimator is held by one other object at most; a call of
`set_params` has one keyword (several keywords are several calls, except that sklearn looks at all
plain names before the nested ones). Names are looked up in `get_params(deep=False)`; sklearn's
`deep=True` has the further names with `__`, and also raises when the inner `get_params` does.
-/
set_option autoImplicit false

namespace RS

/-- The estimator classes. `true` is the complex version. -/
inductive PCls where
  | empirical (complex : Bool)
  | covScale
  | huber (complex : Bool)
  | student (complex : Bool)
  | tyler (complex : Bool)
  | kronMM
  | kronStudent
  | features
  | covariances
  | online
  deriving DecidableEq

/-- Python values that are no estimators. `closure m` is the function that `set_method` defines for
the method `m`; `other` is anything else. -/
inductive PyConst where
  | none
  | bool (b : Bool)
  | num (r : ℚ)
  | inf
  | str (s : String)
  | closure (method : String)
  | other (n : ℕ)
  deriving DecidableEq

/-- A Python value: a constant, or an estimator object with its attributes. -/
inductive PVal where
  | const (c : PyConst)
  | obj (cls : PCls) (attrs : List (String × PVal))

/-- Attributes by name. -/
abbrev PDict := List (String × PVal)

/-- `setattr` -/
def PDict.set (d : PDict) (name : String) (v : PVal) : PDict :=
  (name, v) :: d.filter fun e => e.1 ≠ name

/-- A constructor: the names of its parameters with their default values, in the order of the
definition, and whether it has `**kwargs`. -/
structure CtorSig where
  params : List (String × Option PyConst)
  varKw : Bool

/-- The signatures: sklearn's `EmpiricalCovariance` (inherited by base.py:336 and 344); base.py:415;
covariance.py:486-488 and 1059-1061, 560-562 and 1138-1140, 640-642 and 1218-1220; structured.py:137-138
and 344-345; base.py:182 and 229; online/estimation.py:18-20. -/
def PCls.sig : PCls → CtorSig
  | .empirical _ => ⟨[("store_precision", some (.bool true)), ("assume_centered", some (.bool false))],
      false⟩
  | .covScale => ⟨[("store_precision", some (.bool false)), ("assume_centered", some (.bool true))],
      false⟩
  | .huber _ => ⟨[("q", none), ("tol", some (.num (1 / 10000))), ("iter_max", some (.num 100)),
      ("verbosity", some (.bool false))], false⟩
  | .student _ => ⟨[("df", none), ("tol", some (.num (1 / 10000))), ("iter_max", some (.num 100)),
      ("verbosity", some (.bool false))], false⟩
  | .tyler _ => ⟨[("tol", some (.num (1 / 10000))), ("method", some (.str "fixed-point")),
      ("iter_max", some (.num 100)), ("normalisation", some (.str "None")),
      ("verbosity", some (.bool false))], false⟩
  | .kronMM => ⟨[("a", none), ("b", none), ("tol", some (.num (1 / 10000))),
      ("iter_max", some (.num 100)), ("store_precision", some (.bool true)),
      ("verbosity", some (.bool false))], false⟩
  | .kronStudent => ⟨[("a", none), ("b", none), ("df", none), ("store_precision", some (.bool true)),
      ("assume_centered", some (.bool true)), ("verbosity", some (.num 0))], false⟩
  | .features => ⟨[("estimator", none), ("n_jobs", some (.num 1))], true⟩
  | .covariances => ⟨[("estimator", none), ("n_jobs", some (.num 1))], true⟩
  | .online => ⟨[("manifold", none), ("rgrad", none), ("lrate", none),
      ("estimatetocov", some .none), ("cost", some .none), ("verbosity", some (.bool false))], false⟩

/-- What `KroneckerStudent` computes in its constructor, structured.py:351 and 353: `alpha` from `df`,
`a`, `b` and the manifold from `a`, `b`, `alpha`. -/
structure ParamLib where
  alpha : PVal → PVal → PVal → Py PVal
  manifold : PVal → PVal → PVal → Py PVal

/-- covariance.py:654-672 and 1232-1251 `set_method`: the function stored. -/
def setMethodFn : PVal → Py PVal
  | .const (.str s) =>
    if s = "fixed-point" then .ok (.const (.closure s))
    else if s = "natural gradient" then .ok (.const (.closure s))
    else .error .notImplementedError
  | _ => .error .notImplementedError

/-- sklearn's `EmpiricalCovariance.__init__`. -/
def initEmpirical (storePrecision assumeCentered : PVal) : PDict :=
  [("store_precision", storePrecision), ("assume_centered", assumeCentered)]

/-- sklearn's `EmpiricalCovariance.__init__` with its default values. -/
def initDefault : PDict := initEmpirical (.const (.bool true)) (.const (.bool false))

/-- The bodies of the constructors: sklearn's; base.py:415-417; covariance.py:489-496 and 1062-1069,
563-570 and 1141-1148, 643-652 and 1221-1230; structured.py:139-144, 346-353; base.py:183-184,
230-231; online/estimation.py:21-30. `x` gives the values of the parameters. -/
def PCls.body (L : ParamLib) (x : String → PVal) : PCls → Py PDict
  | .empirical _ => .ok (initEmpirical (x "store_precision") (x "assume_centered"))
  | .covScale => .ok (initEmpirical (x "store_precision") (x "assume_centered"))
  | .huber _ => .ok (initDefault ++ [("q", x "q"), ("verbosity", x "verbosity"), ("tol", x "tol"),
      ("iter_max", x "iter_max"), ("err_", .const .inf), ("iteration_", .const (.num 0))])
  | .student _ => .ok (initDefault ++ [("df", x "df"), ("verbosity", x "verbosity"),
      ("tol", x "tol"), ("iter_max", x "iter_max"), ("err_", .const .inf),
      ("iteration_", .const (.num 0))])
  | .tyler _ => do
    let f ← setMethodFn (x "method")
    return initDefault ++ [("method", x "method"), ("verbosity", x "verbosity"), ("tol", x "tol"),
      ("iter_max", x "iter_max"), ("normalisation", x "normalisation"),
      ("_estimation_function", f), ("err_", .const .inf), ("iteration_", .const (.num 0))]
  | .kronMM => .ok (initEmpirical (x "store_precision") (.const (.bool false)) ++
      [("a", x "a"), ("b", x "b"), ("tol", x "tol"), ("iter_max", x "iter_max"),
        ("verbosity", x "verbosity")])
  | .kronStudent => do
    let α ← L.alpha (x "df") (x "a") (x "b")
    let M ← L.manifold (x "a") (x "b") α
    return initEmpirical (x "store_precision") (x "assume_centered") ++
      [("a", x "a"), ("b", x "b"), ("df", x "df"), ("alpha", α), ("verbosity", x "verbosity"),
        ("manifold", M)]
  | .features => .ok [("estimator", x "estimator"), ("n_jobs", x "n_jobs")]
  | .covariances => .ok [("estimator", x "estimator"), ("n_jobs", x "n_jobs")]
  | .online => .ok (initDefault ++ [("_manifold", x "manifold"), ("_rgrad", x "rgrad"),
      ("lrate_", x "lrate"), ("_cost", x "cost"), ("_verbosity", x "verbosity"),
      ("_estimatetocov", x "estimatetocov"), ("_iteration", .const (.num 0)),
      ("estimate_", .const .none)])

/-- The value of a parameter in a call with the keyword arguments `kw`; `none` if it is missing and
has no default. -/
def CtorSig.value (s : CtorSig) (kw : PDict) (name : String) : Option PVal :=
  match kw.lookup name with
  | some v => some v
  | none => match s.params.lookup name with
    | some (some c) => some (.const c)
    | _ => none

/-- `Class(**kw)`: `TypeError` for an unknown name unless the constructor has `**kwargs`, and for a
missing argument; then the body of the constructor. -/
def PCls.create (L : ParamLib) (cls : PCls) (kw : PDict) : Py PVal :=
  let s := cls.sig
  if s.varKw = false ∧ ∃ e ∈ kw, e.1 ∉ s.params.map Prod.fst then .error .typeError
  else if ∃ n ∈ s.params.map Prod.fst, s.value kw n = none then .error .typeError
  else do
    let d ← cls.body L fun n => (s.value kw n).getD (.const .none)
    return .obj cls d

/-- sklearn's `_get_param_names`: the names of the constructor's parameters other than `**kwargs`.
Simplification: sklearn sorts them, which the user sees only when the result is printed. -/
def PCls.paramNames (cls : PCls) : List String := cls.sig.params.map Prod.fst

/-- One entry of `get_params`: `getattr(self, name)`. Up to version 0.23 (`strict = false`) a missing
attribute counts as `None`. -/
def getParam {α : Type} (strict : Bool) (none' : α) (d : List (String × α)) (name : String) : Py α :=
  match d.lookup name with
  | some v => .ok v
  | none => if strict then .error .attributeError else .ok none'

/-- sklearn's `get_params(deep=False)`. A value that is no estimator has no such method. -/
def getParams (strict : Bool) : PVal → Py PDict
  | .const _ => .error .attributeError
  | .obj cls d => cls.paramNames.mapM fun n => do
    let v ← getParam strict (.const .none) d n
    return (n, v)

/-- A keyword of `set_params`: `name`, or `name__key`. -/
inductive PKey where
  | plain (name : String)
  | nested (name : String) (key : PKey)

/-- The name before the first `__`. -/
def PKey.head : PKey → String
  | .plain n => n
  | .nested n _ => n

/-- sklearn's `set_params(key=v)`: the object afterwards and the outcome. The names that
`self.get_params()` gives are allowed. -/
def setParam (strict : Bool) : PKey → PVal → PVal → PVal × Py Unit
  | _, _, .const c => (.const c, .error .attributeError)
  | k, v, .obj cls d =>
    match getParams strict (.obj cls d) with
    | .error e => (.obj cls d, .error e)
    | .ok valid =>
      match valid.lookup k.head with
      | none => (.obj cls d, .error .valueError)
      | some inner =>
        match k with
        | .plain n => (.obj cls (PDict.set d n v), .ok ())
        | .nested n k' =>
          let r := setParam strict k' v inner
          (.obj cls (PDict.set d n r.1), r.2)

mutual
/-- sklearn's `clone(value, safe=False)`: a deep copy of a value that is no estimator; for an estimator
a new object of the class, created with the clones of what `get_params(deep=False)` gives. Left
out is sklearn's last step, a check that the constructor has stored these very values. -/
def clone' (L : ParamLib) (strict : Bool) : PVal → Py PVal
  | .const c => .ok (.const c)
  | .obj cls d => do
    let ds := cloneAll L strict d
    let kw ← cls.paramNames.mapM fun n => do
      let v ← ← getParam strict (.ok (.const .none)) ds n
      return (n, v)
    cls.create L kw
/-- The clones of all attributes. -/
def cloneAll (L : ParamLib) (strict : Bool) : List (String × PVal) → List (String × Py PVal)
  | [] => []
  | (n, v) :: r => (n, clone' L strict v) :: cloneAll L strict r
end

/-- The names that `fit` assigns: sklearn's `_validate_data` and `_set_covariance` (base.py:346-365),
base.py:388-390, covariance.py:522-523 etc., structured.py:176-177 and 373-383, and `set_estimate`
and the loop in online/estimation.py:39 and 93. -/
def fitNames : List String :=
  ["n_features_in_", "covariance_", "precision_", "location_", "err_", "iteration_", "A_", "B_",
    "estimate_", "_iteration"]

/-- What a user does with an object; exceptions are caught. -/
inductive ParamOp where
  /-- `set_params(key=v)` -/
  | setParam (key : PKey) (v : PVal)
  /-- `obj.name = v` -/
  | assign (name : String) (v : PVal)
  /-- a call of `fit`, which assigns some of `fitNames` -/
  | fit (result : List (String × PVal)) (h : ∀ e ∈ result, e.1 ∈ fitNames)

/-- The object afterwards. -/
def ParamOp.run (strict : Bool) : ParamOp → PVal → PVal
  | .setParam k v, o => (RS.setParam strict k v o).1
  | .assign _ _, .const c => .const c
  | .assign n v, .obj cls d => .obj cls (PDict.set d n v)
  | .fit _ _, .const c => .const c
  | .fit r _, .obj cls d => .obj cls (r.foldl (fun d e => PDict.set d e.1 e.2) d)

end RS
