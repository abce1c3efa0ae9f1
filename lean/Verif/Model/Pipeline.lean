import Verif.Model.Estimators
import Verif.Model.FeatureJobs

/-
Model of `CovariancesEstimation` (robuststats/estimation/base.py:222-295) run on the estimator
objects of robuststats/estimation/covariance.py. Model/Base treats the estimator as a black box whose
deep copy is independent; here the objects live in the heap of Model/Estimators, so that copies share
closures and `fit` behaves as it does after earlier fits.
-/
set_option autoImplicit false

namespace RS
open Matrix

/-- `est.covariance_` -/
def readCov (h : Heap) (a : ℕ) : Py NDArr :=
  match h[a]? with
  | none => .error .nameError
  | some o => match o.covariance with
    | none => .error .attributeError
    | some C => .ok C

/-- base.py:265 and 272 `covmats[i, :, :] = cov`. Only square matrices occur as covariances. -/
noncomputable def assignNd (dt : XDType) (p : ℕ) : NDArr → Py (Matrix (Fin p) (Fin p) ℂ)
  | .real (.d2 m n C) =>
    if h : m = n then assignCov dt p ⟨n, of fun i j => ((C (i.cast h.symm) j : ℝ) : ℂ)⟩
    else .error .valueError
  | .cplx (.d2 m n C) =>
    if h : m = n then assignCov dt p ⟨n, of fun i j => C (i.cast h.symm) j⟩
    else .error .valueError
  | _ => .error .valueError

/-- base.py:260 `n_trials, n_samples, n_features = X.shape`: the number of features and the
trials `X[i, :, :]`. -/
def trialsOf : NDArr → Py (ℕ × List NDArr)
  | .real (.d3 T n p X) => .ok (p, (List.finRange T).map fun t => .real (.d2 n p (X t)))
  | .cplx (.d3 T n p X) => .ok (p, (List.finRange T).map fun t => .cplx (.d2 n p (X t)))
  | _ => .error .valueError

/-- `X.dtype`; a real array may hold integers. -/
def dtypeOf (isInt : Bool) : NDArr → XDType
  | .cplx _ => .complex
  | .real _ => if isInt then .int else .float

/-- base.py:263-265 the loop for `n_jobs == 1`: the object at address `a` is fitted on one trial after
the other. -/
noncomputable def pipeSeq (L : Lib) (a : ℕ) (init : Option NDArr) (dt : XDType) (p : ℕ) :
    Heap → List NDArr → Heap × Py (List (Matrix (Fin p) (Fin p) ℂ))
  | h, [] => (h, .ok [])
  | h, x :: xs =>
    match fit L h a x init with
    | (h', .error e) => (h', .error e)
    | (h', .ok ()) =>
      match readCov h' a >>= assignNd dt p with
      | .error e => (h', .error e)
      | .ok c =>
        match pipeSeq L a init dt p h' xs with
        | (h'', .error e) => (h'', .error e)
        | (h'', .ok cs) => (h'', .ok (c :: cs))

/-- Progress of one call of `_fit_transform_covariance_copy`, base.py:293-295. -/
inductive PipeTask where
  | pending
  /-- the copy is at address `r` -/
  | copied (r : ℕ)
  | done (res : Py NDArr)

/-- The memories of the processes (the user's is number 0) and the progress of the calls. -/
structure PipeState where
  worlds : List Heap
  tasks : List PipeTask

/-- One step of call `i`, which runs in process `owner i`: line 293, then lines 294-295. Steps of
finished or unknown calls do nothing. -/
noncomputable def pipeStep (L : Lib) (a : ℕ) (init : Option NDArr) (owner : ℕ → ℕ) (xs : List NDArr)
    (σ : PipeState) (i : ℕ) : PipeState :=
  match σ.tasks[i]?, xs[i]?, σ.worlds[owner i]? with
  | some .pending, some _, some h =>
    match deepcopy h a with
    | (h', .ok r) => ⟨σ.worlds.set (owner i) h', σ.tasks.set i (.copied r)⟩
    | (h', .error e) => ⟨σ.worlds.set (owner i) h', σ.tasks.set i (.done (.error e))⟩
  | some (.copied r), some x, some h =>
    match fit L h r x init with
    | (h', .ok ()) => ⟨σ.worlds.set (owner i) h', σ.tasks.set i (.done (readCov h' r))⟩
    | (h', .error e) => ⟨σ.worlds.set (owner i) h', σ.tasks.set i (.done (.error e))⟩
  | _, _, _ => σ

/-- All steps of a schedule. -/
noncomputable def pipeRun (L : Lib) (a : ℕ) (init : Option NDArr) (owner : ℕ → ℕ) (xs : List NDArr)
    (σ : PipeState) (sched : List ℕ) : PipeState :=
  sched.foldl (pipeStep L a init owner xs) σ

/-- `Parallel` returns the results by number or raises the exception of a call (here: of the first
failed one); `none` if a call is unfinished. -/
def pipeGather : List PipeTask → Option (Py (List NDArr))
  | [] => some (.ok [])
  | .done (.error e) :: _ => some (.error e)
  | .done (.ok c) :: ts =>
    match pipeGather ts with
    | none => none
    | some (.error e) => some (.error e)
    | some (.ok cs) => some (.ok (c :: cs))
  | _ :: _ => none

/-- base.py:249-273 `CovariancesEstimation(est, n_jobs).transform(X, init=init)` for the object `est`
at address `a`: the user's memory afterwards and the result (`none`: the schedule leaves a trial
unfinished). A process works on a copy of the memory (pickling keeps which object a closure refers
to). -/
noncomputable def covEstTransform (L : Lib) (h : Heap) (a : ℕ) (X : NDArr) (isInt : Bool)
    (init : Option NDArr) (b : Backend) :
    Option Heap × Option (Py (Σ p : ℕ, List (Matrix (Fin p) (Fin p) ℂ))) :=
  match trialsOf X with
  | .error e => (some h, some (.error e))
  | .ok (p, xs) =>
    let collect : Py (List NDArr) → Py (Σ p : ℕ, List (Matrix (Fin p) (Fin p) ℂ)) := fun r => do
      let cs ← r
      let ms ← cs.mapM (assignNd (dtypeOf isInt X) p)
      return ⟨p, ms⟩
    match b with
    | .sequential =>
      let r := pipeSeq L a init (dtypeOf isInt X) p h xs
      (some r.1, some (do let ms ← r.2; return ⟨p, ms⟩))
    | .threads sched =>
      let σ := pipeRun L a init (fun _ => 0) xs ⟨[h], List.replicate xs.length .pending⟩ sched
      (σ.worlds[0]?, (pipeGather σ.tasks).map collect)
    | .processes n batch sched =>
      let σ := pipeRun L a init (fun i => batch i + 1) xs
        ⟨h :: List.replicate n h, List.replicate xs.length .pending⟩ sched
      (σ.worlds[0]?, (pipeGather σ.tasks).map collect)

end RS
