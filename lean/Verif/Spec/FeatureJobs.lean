import Verif.Model.FeatureJobs

/-
What the features of the trials should be, and which orders of execution the workers of `joblib`
can produce.
-/
set_option autoImplicit false

namespace RS

variable {S X K : Type}

/-- The arrays of the feature which an estimator in state `s` computes on the trial `x`. -/
def trialFeature (E : FeatObj S X K) (s : S) (x : X) : Py (List (NArr K)) :=
  match E.fit s x with
  | (_, .error e) => .error e
  | (s', .ok ()) => E.transform s' x

/-- After the first step of trial `i` no trial on the same object takes a step before the
second step of `i`. -/
def Exclusive (owner : ℕ → ℕ) (sched : List ℕ) : Prop :=
  ∀ (i : ℕ) (l₁ l₂ : List ℕ), sched = l₁ ++ i :: l₂ → i ∉ l₁ →
    ∀ j ∈ l₂.takeWhile (· ≠ i), owner j ≠ owner i

/-- `fit_transform` depends on the trial and on the parameters of the estimator only, and `fit`
keeps the parameters. -/
structure DataOnly {P : Type} (E : FeatObj S X K) (par : S → P) : Prop where
  keeps : ∀ s x, par (E.fit s x).1 = par s
  same : ∀ s s' x, par s = par s' → trialFeature E s x = trialFeature E s' x

/-- Every trial takes its two steps. -/
def Complete (n : ℕ) (sched : List ℕ) : Prop := ∀ i < n, 2 ≤ sched.count i

/-- The orders of execution of each backend: threads interleave as they like; the trials of one
batch run one after the other in one process, batches interleave as they like. -/
def Backend.Possible (n : ℕ) : Backend → Prop
  | .sequential => True
  | .threads sched => Complete n sched
  | .processes m batch sched => Complete n sched ∧ Exclusive batch sched ∧ ∀ i < n, batch i < m

end RS
