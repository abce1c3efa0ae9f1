import Verif.Model.Base
import Verif.Model.Manifolds
import Verif.Model.Structured

/-
`robuststats/online/estimation.py`: the stochastic gradient estimator as an object with state.

`E` is the type of the estimates and `V` that of the components of tangent vectors. A method is a
function from the state to the state it leaves behind and its outcome: attributes assigned before an
exception keep their new value. The estimator's `precision_` is not modelled.
-/
set_option autoImplicit false

namespace RS
open Matrix

/-- What `rgrad` returns and `retr` takes: an array, or a list or a tuple of arrays. -/
inductive Tangent (V : Type) where
  | arr (v : V)
  | list (l : List V)
  | tuple (l : List V)

/-- online/estimation.py:60-65 `t*nabla`, componentwise for lists and tuples. -/
def Tangent.scale {V : Type} [SMul ℝ V] (t : ℝ) : Tangent V → Tangent V
  | .list l => .list (l.map fun x => t • x)
  | .tuple l => .tuple (l.map fun x => t • x)
  | .arr v => .arr (t • v)

/-- The constructor arguments which no method changes, online/estimation.py:18-27.
`estimatetocov` is called with `None` when `fit` gets no initial point. `asArray` stands for the
estimate itself where it is used as an array (`estimatetocov=None`). `monitor` is
`cost(X, estimate)` when both `verbosity` and `cost` are given, and `none` otherwise. -/
structure OnlineParams (E V : Type) where
  retr : E → Tangent V → Py E
  rgrad : NDArr → E → Py (Tangent V)
  estimatetocov : Option (Option E → Py NDArr)
  asArray : E → NDArr
  monitor : Option (NDArr → E → Py Unit)

/-- The attributes: `_iteration`, `estimate_`, `covariance_` (none when not set), `lrate_`; and the
number of calls of `logging.error` so far. -/
structure Online (E : Type) where
  iteration : ℕ
  estimate : Option E
  covariance : Option NDArr
  lrate : ℝ
  errors : ℕ

/-- online/estimation.py:18-30 a new object. -/
def Online.new {E : Type} (lrate : ℝ) : Online E := ⟨0, none, none, lrate, 0⟩

variable {E V : Type} [SMul ℝ V]

/-- online/estimation.py:32-36 `_estimate_to_cov` followed by the part of `_set_covariance` which
computes `covariance_`. Without `estimatetocov`, `None` goes through `covariancetoreal` and is
rejected by `check_array`. -/
noncomputable def onlineCov (P : OnlineParams E V) (e : Option E) : Py NDArr :=
  match P.estimatetocov with
  | some f => do setCovariance (← f e)
  | none => match e with
    | some x => setCovariance (P.asArray x)
    | none => .error .valueError

/-- online/estimation.py:38-41 `set_estimate`: `estimate_` is assigned first. -/
noncomputable def Online.setEstimate (P : OnlineParams E V) (s : Online E) (e : Option E) :
    Online E × Py Unit :=
  match onlineCov P e with
  | .ok C => ({ s with estimate := e, covariance := some C }, .ok ())
  | .error err => ({ s with estimate := e }, .error err)

/-- online/estimation.py:43-47 `_current_lr`. -/
noncomputable def currentLr (lrate : ℝ) (lrUpdate : String) (iteration : ℕ) : ℝ :=
  if lrUpdate = "inverse iteration" then lrate / (iteration + 1) else lrate

/-- online/estimation.py:49-69 `update`. -/
noncomputable def Online.update (P : OnlineParams E V) (s : Online E) (x : NDArr)
    (lrUpdate : String) : Online E × Py Unit :=
  match s.estimate with
  | none => ({ s with errors := s.errors + 1 }, .ok ())
  | some e =>
    match P.rgrad x e with
    | .error err => (s, .error err)
    | .ok g =>
      match P.retr e (g.scale (currentLr s.lrate lrUpdate s.iteration)) with
      | .error err => (s, .error err)
      | .ok e' => s.setEstimate P (some e')

/-- `X[i, :].reshape((1, n_features))` for all `i`; none when `X.shape` is not a pair. -/
def NDArr.rows : NDArr → Option (List NDArr)
  | .real (.d2 n p X) => some (List.ofFn fun i : Fin n => .real (.d2 1 p fun _ => X i))
  | .cplx (.d2 n p X) => some (List.ofFn fun i : Fin n => .cplx (.d2 1 p fun _ => X i))
  | _ => none

/-- online/estimation.py:83-93 the loop of `fit` over the rows. The estimate is never `None` here. -/
noncomputable def Online.loop (P : OnlineParams E V) (X : NDArr) (lrUpdate : String) :
    List NDArr → Online E → Online E × Py Unit
  | [], s => (s, .ok ())
  | x :: xs, s =>
    match s.update P x lrUpdate with
    | (s', .error err) => (s', .error err)
    | (s', .ok ()) =>
      match P.monitor, s'.estimate with
      | some m, some e =>
        match m X e with
        | .error err => (s', .error err)
        | .ok () => Online.loop P X lrUpdate xs { s' with iteration := s'.iteration + 1 }
      | _, _ => Online.loop P X lrUpdate xs { s' with iteration := s'.iteration + 1 }

/-- online/estimation.py:71-95 `fit`. -/
noncomputable def Online.fit (P : OnlineParams E V) (s : Online E) (X : NDArr) (init : Option E)
    (lrUpdate : String) : Online E × Py Unit :=
  match s.setEstimate P init with
  | (s', .error err) => (s', .error err)
  | (s', .ok ()) =>
    match s'.estimate with
    | none => ({ s' with errors := s'.errors + 1 }, .ok ())
    | some _ =>
      match X.rows with
      | none => (s', .error .valueError)
      | some xs => s'.loop P X lrUpdate xs

/-- What a user may do with the object: call a method, or assign the public attribute `lrate_`. -/
inductive OnlineOp (E : Type) where
  | setEstimate (e : Option E)
  | update (x : NDArr) (lrUpdate : String)
  | fit (X : NDArr) (init : Option E) (lrUpdate : String)
  | setLrate (r : ℝ)

/-- The state left behind by one operation, and its outcome. -/
noncomputable def Online.run (P : OnlineParams E V) (s : Online E) : OnlineOp E → Online E × Py Unit
  | .setEstimate e => s.setEstimate P e
  | .update x lr => s.update P x lr
  | .fit X init lr => s.fit P X init lr
  | .setLrate r => ({ s with lrate := r }, .ok ())

/-- The state after a sequence of operations, exceptions being caught by the user. -/
noncomputable def Online.runAll (P : OnlineParams E V) (s : Online E) (ops : List (OnlineOp E)) :
    Online E :=
  ops.foldl (fun s op => (s.run P op).1) s

/-- The estimator on `HermitianPositiveDefinite(n)` (manifolds.py:205-207 `retr`, where `la.solve`
raises on a singular matrix). Only array-valued tangent vectors are modelled. -/
noncomputable def onlineHPD (n : ℕ)
    (rgrad : NDArr → Matrix (Fin n) (Fin n) ℂ → Py (Matrix (Fin n) (Fin n) ℂ))
    (monitor : Option (NDArr → Matrix (Fin n) (Fin n) ℂ → Py Unit)) :
    OnlineParams (Matrix (Fin n) (Fin n) ℂ) (Matrix (Fin n) (Fin n) ℂ) where
  retr x u := open Classical in
    match u with
    | .arr u =>
      if x.det = 0 then .error .linAlgError
      else .ok (HPD.retr (fun _ : Fin 1 => x) (fun _ => u) 0)
    | _ => .error .typeError
  rgrad x e := do return .arr (← rgrad x e)
  estimatetocov := none
  asArray x := .cplx (.d2 n n x)
  monitor := monitor

/-- A square matrix of any size: a component of a tangent vector of a product manifold. -/
structure SqMat where
  n : ℕ
  mat : Matrix (Fin n) (Fin n) ℂ

/-- `t*x` -/
noncomputable instance : SMul ℝ SqMat := ⟨fun t x => ⟨x.n, t • x.mat⟩⟩

/-- The estimator on `KroneckerHermitianPositiveElliptical(a, b, alpha)` with
`estimatetocov = lambda e: np.kron(e[0], e[1])` and pairs as tangent vectors, as in
examples/numerical/estimation/covariance/old/kronecker_student_estimation.py:82-113. The retraction
is pymanopt's for products: `[man.retr(X[k], U[k]) for k, man in ...]`. Unpacking `None` raises
`TypeError`. -/
noncomputable def onlineKron (a b : ℕ)
    (rgrad : NDArr → Matrix (Fin a) (Fin a) ℂ × Matrix (Fin b) (Fin b) ℂ →
      Py (Matrix (Fin a) (Fin a) ℂ × Matrix (Fin b) (Fin b) ℂ))
    (monitor : Option (NDArr → Matrix (Fin a) (Fin a) ℂ × Matrix (Fin b) (Fin b) ℂ → Py Unit)) :
    OnlineParams (Matrix (Fin a) (Fin a) ℂ × Matrix (Fin b) (Fin b) ℂ)
      SqMat where
  retr x u := open Classical in
    match u with
    | .tuple [⟨a', u⟩, ⟨b', v⟩] =>
      if h : a' = a ∧ b' = b then
        if x.1.det = 0 ∨ x.2.det = 0 then .error .linAlgError
        else .ok (SHPD.retr (fun _ : Fin 1 => x.1) (fun _ => h.1 ▸ u) 0,
          HPD.retr (fun _ : Fin 1 => x.2) (fun _ => h.2 ▸ v) 0)
      else .error .valueError
    | _ => .error .typeError
  rgrad x e := do
    let (u, v) ← rgrad x e
    return .tuple [⟨a, u⟩, ⟨b, v⟩]
  estimatetocov := some fun e =>
    match e with
    | none => .error .typeError
    | some (A, B) => .ok (.cplx (.d2 (a * b) (a * b) (npKron A B)))
  asArray _ := .real (.d0 0)
  monitor := monitor

end RS
