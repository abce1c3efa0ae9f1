import Verif.Model.FeatureArray

/-
`FeaturesEstimation.transform` with a stateful estimator object and `joblib`
(robuststats/estimation/base.py:157-219). `_feature_estimation` makes a deep copy of the
estimator, drops it, and calls `fit_transform` of the estimator it was given: whether two trials
work on the same object depends on the `joblib` backend only.
-/
set_option autoImplicit false

namespace RS

/-- An estimator seen from outside. sklearn's `TransformerMixin.fit_transform(x)` is
`self.fit(x).transform(x)`: `fit` changes the object and returns or raises, `transform` reads
the arrays of the feature off the object. -/
structure FeatObj (S X K : Type) where
  fit : S → X → S × Py Unit
  transform : S → X → Py (List (NArr K))

/-- base.py:163-171 a new `_FeatureArray` with the arrays of one trial. -/
def wrapFeature {K : Type} (zero : K) (f : List (NArr K)) : Py (FArr K) :=
  match (FArr.new (f.map NArr.shape)).append zero (.seq (f.map .arr)) with
  | (_, .error e) => .error e
  | (g, .ok ()) => .ok g

/-- Progress of one call of `wrapper`, base.py:158-171. -/
inductive FeatTask (K : Type) where
  | pending
  /-- `fit` has returned, `transform` has not been called yet -/
  | fitted
  | done (res : Py (FArr K))

/-- The estimator objects (the user's is number 0) and the progress of the trials. -/
structure FeatState (S K : Type) where
  objs : List S
  tasks : List (FeatTask K)

/-- One step of trial `i`, which works on object `owner i`: first `fit`, then `transform`
(base.py:160-161; the copy made in line 160 is overwritten in line 161, no step uses it). Steps
of finished or unknown trials do nothing. Simplification: `fit` and `transform` are one step
each. -/
def featStep {S X K : Type} (E : FeatObj S X K) (zero : K) (owner : ℕ → ℕ) (xs : List X)
    (σ : FeatState S K) (i : ℕ) : FeatState S K :=
  match σ.tasks[i]?, xs[i]?, σ.objs[owner i]? with
  | some .pending, some x, some s =>
    match E.fit s x with
    | (s', .ok ()) => ⟨σ.objs.set (owner i) s', σ.tasks.set i .fitted⟩
    | (s', .error e) => ⟨σ.objs.set (owner i) s', σ.tasks.set i (.done (.error e))⟩
  | some .fitted, some x, some s =>
    ⟨σ.objs, σ.tasks.set i (.done (match E.transform s x with
      | .error e => .error e
      | .ok f => wrapFeature zero f))⟩
  | _, _, _ => σ

/-- All steps of a schedule: trial numbers in the order in which the workers run. -/
def featRun {S X K : Type} (E : FeatObj S X K) (zero : K) (owner : ℕ → ℕ) (xs : List X)
    (σ : FeatState S K) (sched : List ℕ) : FeatState S K :=
  sched.foldl (featStep E zero owner xs) σ

/-- `Parallel` returns the results by trial number or raises the exception of a trial (here: of
the first failed one); `none` if a trial is unfinished. -/
def featGather {K : Type} : List (FeatTask K) → Option (Py (List (FArr K)))
  | [] => some (.ok [])
  | .done (.error e) :: _ => some (.error e)
  | .done (.ok c) :: ts =>
    match featGather ts with
    | none => none
    | some (.error e) => some (.error e)
    | some (.ok cs) => some (.ok (c :: cs))
  | _ :: _ => none

/-- `joblib`'s sequential backend (`n_jobs = 1`): the trials one after the other on the user's
object; the first exception ends the loop. -/
def seqFeatures {S X K : Type} (E : FeatObj S X K) (zero : K) :
    S → List X → S × Py (List (FArr K))
  | s, [] => (s, .ok [])
  | s, x :: xs =>
    match E.fit s x with
    | (s', .error e) => (s', .error e)
    | (s', .ok ()) =>
      match E.transform s' x with
      | .error e => (s', .error e)
      | .ok f =>
        match wrapFeature zero f with
        | .error e => (s', .error e)
        | .ok c =>
          match seqFeatures E zero s' xs with
          | (s'', .error e) => (s'', .error e)
          | (s'', .ok cs) => (s'', .ok (c :: cs))

/-- How `joblib` runs the trials. -/
inductive Backend where
  /-- `n_jobs = 1` -/
  | sequential
  /-- threads of this process, which share the user's object; the order of the steps -/
  | threads (sched : List ℕ)
  /-- other processes: the trials are pickled in `n` batches and each batch has a copy of the
  estimator; the number of the batch of each trial, and the order of the steps -/
  | processes (n : ℕ) (batch : ℕ → ℕ) (sched : List ℕ)

/-- base.py:216-219 the features of the trials appended to the first. -/
def joinFeatures {K : Type} (zero : K) : Py (List (FArr K)) → Py (FArr K)
  | .error e => .error e
  | .ok [] => .error .indexError
  | .ok (f :: fs) => f.appendAll zero (fs.map .farr)

/-- base.py:202-219 `FeaturesEstimation.transform`: the user's estimator afterwards and the
result (`none`: the schedule leaves a trial unfinished). -/
def featuresTransformObj {S X K : Type} (E : FeatObj S X K) (zero : K) (b : Backend) (s : S)
    (xs : List X) : Option S × Option (Py (FArr K)) :=
  match b with
  | .sequential =>
    let r := seqFeatures E zero s xs
    (some r.1, some (joinFeatures zero r.2))
  | .threads sched =>
    let σ := featRun E zero (fun _ => 0) xs ⟨[s], List.replicate xs.length .pending⟩ sched
    (σ.objs[0]?, (featGather σ.tasks).map (joinFeatures zero))
  | .processes n batch sched =>
    let σ := featRun E zero (fun i => batch i + 1) xs
      ⟨s :: List.replicate n s, List.replicate xs.length .pending⟩ sched
    (σ.objs[0]?, (featGather σ.tasks).map (joinFeatures zero))

end RS
