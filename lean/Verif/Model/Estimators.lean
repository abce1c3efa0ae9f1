import Verif.Model.Covariance
import Verif.Model.Cost

/-
Model of the estimator classes of robuststats/estimation/covariance.py (lines 449-706 and
1022-1285) and of the natural-gradient functions (324-370, 887-923).

Objects live in a heap, because `set_method` stores a closure over `self` in the object and
`copy.deepcopy` copies the object but not the closure. Log messages and
`precision_` are not modelled; `n_features_in_` and extra keyword arguments are in Model/FitCall.
-/
set_option autoImplicit false

namespace RS

open Matrix

/-- The libraries the classes call. -/
structure Lib where
  /-- `eigh` and the outcome of degenerate loop bodies, real data -/
  envR : ∀ N p : ℕ, NumEnv N p ℝ
  /-- the same for complex data -/
  envC : ∀ N p : ℕ, NumEnv N p ℂ
  /-- scipy's `chi2` -/
  chi2 : Chi2
  /-- pymanopt: `SteepestDescent().solve(problem, x=init)` on `SymmetricPositiveDefinite(p)` for
  a cost function -/
  solve : ∀ p : ℕ, (Matrix (Fin p) (Fin p) ℝ → Py CostVal) → Option (Matrix (Fin p) (Fin p) ℝ) →
    Py (FMat p ℝ)
  /-- `multivariate_t(shape, df).logpdf(X).sum()`, real or complex -/
  tScore : NDArr → ℝ → NDArr → Py ℝ
  /-- does sklearn's `EmpiricalCovariance.score` begin with
  `self._validate_data(X_test, reset=False)` (it does from version 1.0 on)? -/
  scoreValidates : Bool

/-! ## Natural gradient -/

open Classical in
/-- covariance.py:356-358 rows divided by their norm; `none` is NaN (division of a zero row). -/
noncomputable def normRows {N p : ℕ} (X : Matrix (Fin N) (Fin p) ℝ) :
    Option (Matrix (Fin N) (Fin p) ℝ) :=
  if ∃ i, ∀ j, X i j = 0 then none
  else some (of fun i j => X i j / Real.sqrt (∑ k, X i k ^ 2))

/-- covariance.py:356-363 the cost given to pymanopt: Tyler's cost for the normalised samples. -/
noncomputable def ngCost (L : Lib) {N p : ℕ} (X : Matrix (Fin N) (Fin p) ℝ)
    (Q : Matrix (Fin p) (Fin p) ℝ) : Py CostVal := match normRows X with
  | none => .ok .nonfinite
  | some Y => tylerCostReal (L.envR N p).eigh Y Q

/-- covariance.py:324-370 `tyler_shape_matrix_naturalgradient`: the estimate and the value of
the cost whose opposite is returned as the error. -/
noncomputable def ngReal (L : Lib) {N p : ℕ} (X : Matrix (Fin N) (Fin p) ℝ)
    (init : Option (Matrix (Fin p) (Fin p) ℝ)) (normalisation : String) :
    Py (FMat p ℝ × CostVal) := do
  let sigma ← L.solve p (ngCost L X) init
  match sigma with
  | .nan => return (.nan, .nonfinite)
  | .fin S =>
    let v ← ngCost L X S
    return (FMat.normalise normalisation (.fin S), v)

/-- covariance.py:921-922 `covariancetocomplex(Sigma)` then `(Sigma + np.conj(Sigma).T)/2`. -/
noncomputable def ngToComplex {p : ℕ} (S : Matrix (Fin (p + p)) (Fin (p + p)) ℝ) :
    Matrix (Fin p) (Fin p) ℂ :=
  let C : Matrix (Fin p) (Fin p) ℂ :=
    (complexify S (by omega)).submatrix (Fin.cast (by omega)) (Fin.cast (by omega))
  (1 / 2 : ℂ) • (C + Cᴴ)

/-- covariance.py:887-923 `complex_tyler_shape_matrix_naturalgradient`. -/
noncomputable def ngComplex (L : Lib) {N p : ℕ} (X : Matrix (Fin N) (Fin p) ℂ)
    (init : Option (Matrix (Fin (p + p)) (Fin (p + p)) ℝ)) (normalisation : String) :
    Py (FMat p ℂ × CostVal) := do
  let Xreal : Matrix (Fin N) (Fin (p + p)) ℝ :=
    of fun i => Fin.append (fun j => (X i j).re) (fun j => (X i j).im)
  let r ← ngReal L Xreal init "None"
  match r.1 with
  | .nan => return (.nan, r.2)
  | .fin S => return (FMat.normalise normalisation (.fin (ngToComplex S)), r.2)

/-! ## Objects -/

/-- The estimator classes; real and complex versions share their code. -/
inductive Cls where
  | huber
  | student
  | tyler
  deriving DecidableEq

/-- The two functions `set_method` can define. -/
inductive Method where
  | fixedPoint
  | naturalGradient

/-- The value of `err_`: an error between two iterations, or the opposite of a cost. -/
inductive Err where
  | delta (d : Delta)
  | negCost (v : CostVal)

/-- The attributes set by the constructor arguments; `q` is Huber's, `df` Student's, `method`
and `normalisation` Tyler's. -/
structure Attrs where
  q : ℝ
  df : ℝ
  tol : ℝ
  iterMax : ℤ
  normalisation : String
  method : String
  verbosity : Bool

/-- An estimator object. `fn` is `_estimation_function`: which function `set_method` defined
and the address of the object that its closure calls `self`. -/
structure Est where
  complex : Bool
  cls : Cls
  attrs : Attrs
  fn : Option (Method × ℕ)
  covariance : Option NDArr
  err : Err
  iteration : Option ℕ

/-- The objects, by address. -/
abbrev Heap := List Est

/-- covariance.py:654-672 `set_method` (and 1232-1251) for the object at address `self`. -/
def setMethod (method : String) (self : ℕ) : Py (Method × ℕ) :=
  if method = "fixed-point" then .ok (.fixedPoint, self)
  else if method = "natural gradient" then .ok (.naturalGradient, self)
  else .error .notImplementedError

/-- The constructors, covariance.py:486-496, 560-570, 640-652 and 1059-1069, 1138-1148,
1218-1230: a new object at the end of the heap. -/
def construct (h : Heap) (complex : Bool) (cls : Cls) (attrs : Attrs) : Heap × Py ℕ :=
  match cls with
  | .tyler =>
    match setMethod attrs.method h.length with
    | .error e => (h, .error e)
    | .ok fn => (h ++ [⟨complex, cls, attrs, some fn, none, .delta .inf, some 0⟩], .ok h.length)
  | _ => (h ++ [⟨complex, cls, attrs, none, none, .delta .inf, some 0⟩], .ok h.length)

/-- An initial point for a real `k × k` iteration. Simplification: an array of another shape or
dtype raises `ValueError` (numpy raises in the first iteration or, for complex values, sklearn's
`check_array` refuses the result). -/
def initReal (k : ℕ) : Option NDArr → Py (Option (Matrix (Fin k) (Fin k) ℝ))
  | none => .ok none
  | some (.real (.d2 m n a)) =>
    if h : m = k ∧ n = k then .ok (some (of fun i j => a (i.cast h.1.symm) (j.cast h.2.symm)))
    else .error .valueError
  | some _ => .error .valueError

/-- An initial point for a complex iteration; real values are promoted. -/
def initComplex (k : ℕ) : Option NDArr → Py (Option (Matrix (Fin k) (Fin k) ℂ))
  | none => .ok none
  | some (.cplx (.d2 m n a)) =>
    if h : m = k ∧ n = k then .ok (some (of fun i j => a (i.cast h.1.symm) (j.cast h.2.symm)))
    else .error .valueError
  | some (.real (.d2 m n a)) =>
    if h : m = k ∧ n = k then
      .ok (some (of fun i j => (a (i.cast h.1.symm) (j.cast h.2.symm) : ℂ)))
    else .error .valueError
  | some _ => .error .valueError

/-- sklearn's `_set_covariance`: `covariance = check_array(covariance)`, which refuses NaN. -/
def setCovReal {p : ℕ} : FMat p ℝ → Py NDArr
  | .nan => .error .valueError
  | .fin C => checkArray (.real (.d2 p p C))

/-- base.py:346-365 `_set_covariance`; NaN is refused by `check_array`. -/
noncomputable def setCovComplex {p : ℕ} : FMat p ℂ → Py NDArr
  | .nan => .error .valueError
  | .fin C => setCovariance (.cplx (.d2 p p C))

/-- What a fit stores: `covariance_`, `err_`, `iteration_`. -/
structure FitRes where
  covariance : NDArr
  err : Err
  iteration : Option ℕ

/-- covariance.py:516-521, 590-594, 692-695 from `_validate_data` to `_set_covariance`, for a
real estimator of class `cls`; `a` are the attributes read by the estimation function. -/
noncomputable def fitReal (L : Lib) (cls : Cls) (m : Method) (a : Attrs) (X : NDArr)
    (init : Option NDArr) : Py FitRes := do
  match ← checkArray X with
  | .real (.d2 N p Z) =>
    let i ← initReal p init
    match cls, m with
    | .tyler, .naturalGradient => do
      let r ← ngReal L Z i a.normalisation
      let C ← setCovReal r.1
      return ⟨C, .negCost r.2, none⟩
    | .tyler, .fixedPoint => do
      let r ← tylerFixedPoint (L.envR N p) Z i a.tol a.iterMax a.normalisation
      let C ← setCovReal r.sigma
      return ⟨C, .delta r.delta, some r.iteration⟩
    | .student, _ => do
      let r ← studentFixedPoint (L.envR N p) Z a.df i a.tol a.iterMax
      let C ← setCovReal r.sigma
      return ⟨C, .delta r.delta, some r.iteration⟩
    | .huber, _ => do
      let r ← huberFixedPoint (L.envR N p) L.chi2 Z a.q i a.tol a.iterMax
      let C ← setCovReal r.sigma
      return ⟨C, .delta r.delta, some r.iteration⟩
  | _ => .error .valueError

/-- covariance.py:1090-1095, 1168-1172, 1271-1274, the same for a complex estimator. -/
noncomputable def fitComplex (L : Lib) (cls : Cls) (m : Method) (a : Attrs) (X : NDArr)
    (init : Option NDArr) : Py FitRes := do
  match ← validateData X with
  | .cplx (.d2 N p Z) =>
    match cls, m with
    | .tyler, .naturalGradient => do
      let i ← initReal (p + p) init
      let r ← ngComplex L Z i a.normalisation
      let C ← setCovComplex r.1
      return ⟨C, .negCost r.2, none⟩
    | .tyler, .fixedPoint => do
      let i ← initComplex p init
      let r ← complexTylerFixedPoint (L.envC N p) Z i a.tol a.iterMax a.normalisation
      let C ← setCovComplex r.sigma
      return ⟨C, .delta r.delta, some r.iteration⟩
    | .student, _ => do
      let i ← initComplex p init
      let r ← complexStudentFixedPoint (L.envC N p) Z a.df i a.tol a.iterMax
      let C ← setCovComplex r.sigma
      return ⟨C, .delta r.delta, some r.iteration⟩
    | .huber, _ => do
      let i ← initComplex p init
      let r ← complexHuberFixedPoint (L.envC N p) L.chi2 Z a.q i a.tol a.iterMax
      let C ← setCovComplex r.sigma
      return ⟨C, .delta r.delta, some r.iteration⟩
  | _ => .error .valueError

/-- covariance.py:514-524, 588-597, 690-698, 1088-1098, 1166-1175, 1269-1277 `fit` of the object
at address `a`: new heap (also after an exception) and outcome. `self.iteration_ > 0` raises
`TypeError` when `iteration_` is `None`. The attributes are those of `self` for Huber and Student
and those of the object captured by the closure for Tyler. -/
noncomputable def fit (L : Lib) (h : Heap) (a : ℕ) (X : NDArr) (init : Option NDArr) :
    Heap × Py Unit :=
  match h[a]? with
  | none => (h, .error .nameError)
  | some o =>
    match o.iteration with
    | none => (h, .error .typeError)
    | some _ =>
      let called : Py (Method × Attrs) := match o.cls with
        | .tyler => match o.fn with
          | none => .error .attributeError
          | some (m, self) => match h[self]? with
            | none => .error .nameError
            | some s => .ok (m, s.attrs)
        | _ => .ok (.fixedPoint, o.attrs)
      match called with
      | .error e => (h, .error e)
      | .ok (m, at') =>
        match (if o.complex then fitComplex L o.cls m at' X init
               else fitReal L o.cls m at' X init) with
        | .error e => (h, .error e)
        | .ok r => (h.set a { o with covariance := some r.covariance, err := r.err,
                                     iteration := r.iteration }, .ok ())

/-- Assignment to attributes (or `set_params`) of the object at address `a`. -/
def setAttr (h : Heap) (a : ℕ) (f : Attrs → Attrs) : Heap :=
  match h[a]? with
  | none => h
  | some o => h.set a { o with attrs := f o.attrs }

/-- `copy.deepcopy` of the object at address `a`: every attribute is copied, except that
functions (here `_estimation_function`, closure included) are shared. -/
def deepcopy (h : Heap) (a : ℕ) : Heap × Py ℕ :=
  match h[a]? with
  | none => (h, .error .nameError)
  | some o => (h ++ [o], .ok h.length)

/-- sklearn's `clone`: a new, unfitted object constructed from `get_params()`. -/
def clone (h : Heap) (a : ℕ) : Heap × Py ℕ :=
  match h[a]? with
  | none => (h, .error .nameError)
  | some o => construct h o.complex o.cls o.attrs

/-- What `score` returns: a number or `None`. -/
inductive Score where
  | value (r : ℝ)
  | none

/-- covariance.py:526-528, 599-605, 700-706, 1100-1102, 1177-1183, 1279-1285 `score`. sklearn's
`EmpiricalCovariance.score` reads `self.location_`, which no estimator of this file sets
(`AttributeError`); before that, from version 1.0 on, it calls
`self._validate_data(X_test, reset=False)`, which `ComplexEmpiricalCovariance._validate_data`
(base.py:367) does not accept (`TypeError`). -/
noncomputable def score (L : Lib) (h : Heap) (a : ℕ) (Xtest : NDArr) (model : String) : Py Score :=
  match h[a]? with
  | none => .error .nameError
  | some o =>
    match o.cls with
    | .huber => .error .notImplementedError
    | .student =>
      if o.iteration = some 0 then .ok .none
      else match o.covariance with
        | none => .error .attributeError
        | some C => do
          let v ← L.tScore C o.attrs.df Xtest
          return .value v
    | .tyler =>
      if model = "Gaussian" then
        if L.scoreValidates then
          if o.complex then .error .typeError
          else match checkArray Xtest with
            | .error e => .error e
            | .ok _ => .error .attributeError
        else .error .attributeError
      else .error .notImplementedError

/-- What a user may do with an object between two fits. Exceptions of `fit` are caught. -/
inductive Op where
  | fit (X : NDArr) (init : Option NDArr)
  | set (f : Attrs → Attrs)

/-- Effect of an operation on the object at address `a`. -/
noncomputable def Op.run (L : Lib) (a : ℕ) (h : Heap) : Op → Heap
  | .fit X init => (RS.fit L h a X init).1
  | .set f => setAttr h a f

end RS
