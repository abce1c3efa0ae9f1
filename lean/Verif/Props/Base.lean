import Verif.Lemmas.Base
import Verif.Props.Mappings
import Mathlib.Analysis.CStarAlgebra.Matrix

/-
Properties of the covariance part of base.py (C22-C29).
-/
set_option autoImplicit false

namespace RS

open Matrix ComplexOrder

/-! ## C22: CovariancesEstimation does not depend on n_jobs -/

/-- Spec: the outcome of `fit` depends only on the data and on parameters that `fit` does
not change: from a state with parameters `c` on data `x` it yields `res c x`. -/
structure HistoryIndependent {S X P : Type} (E : EstObj S X) (par : S → P)
    (res : P → X → Py (Σ k : ℕ, Matrix (Fin k) (Fin k) ℂ)) : Prop where
  keeps : ∀ s x, par (E.fit s x).1 = par s
  ok : ∀ s x, (E.fit s x).2 = .ok () → res (par s) x = .ok (E.covariance (E.fit s x).1)
  err : ∀ s x e, (E.fit s x).2 = .error e → res (par s) x = .error e

theorem HistoryIndependent.worker {S X P : Type} {E : EstObj S X} {par : S → P}
    {res : P → X → Py (Σ k : ℕ, Matrix (Fin k) (Fin k) ℂ)} (hE : HistoryIndependent E par res)
    (s : S) (x : X) : workerResult E s x = res (par s) x := by
  have h1 := hE.ok s x
  have h2 := hE.err s x
  unfold workerResult
  cases hf : E.fit s x with
  | mk s' r =>
    rw [hf] at h1 h2
    cases r with
    | ok u => exact (h1 rfl).symm
    | error e => exact (h2 e rfl).symm

theorem assignCov_self (dt : XDType) (p : ℕ) (c : Matrix (Fin p) (Fin p) ℂ) :
    assignCov dt p ⟨p, c⟩ = .ok (c.map (castTo dt)) := by
  simp only [assignCov, dif_pos]; rfl

/-- The sequential loop, in terms of independent fits. -/
theorem HistoryIndependent.seq {S X P : Type} {E : EstObj S X} {par : S → P}
    {res : P → X → Py (Σ k : ℕ, Matrix (Fin k) (Fin k) ℂ)} (hE : HistoryIndependent E par res)
    (dt : XDType) (p : ℕ) (xs : List X) (s : S) :
    (seqTransform E dt p s xs).2 = xs.mapM fun x => res (par s) x >>= assignCov dt p := by
  induction xs generalizing s with
  | nil => rfl
  | cons x xs ih =>
    have hw := hE.worker s x
    have hk := hE.keeps s x
    unfold workerResult at hw
    simp only [seqTransform, List.mapM_cons]
    cases hf : E.fit s x with
    | mk s' r =>
      rw [hf] at hw hk
      cases r with
      | error e => simp only at hw ⊢; rw [← hw]; rfl
      | ok u =>
        simp only at hw hk ⊢
        rw [← hw]
        simp only [bind, Except.bind]
        cases ha : assignCov dt p (E.covariance s') with
        | error e => rfl
        | ok c =>
          simp only
          have ih' := ih s'
          rw [hk] at ih'
          simp only [bind, Except.bind] at ih'
          rw [← ih']
          generalize seqTransform E dt p s' xs = y
          obtain ⟨y1, y2⟩ := y
          cases y2 <;> rfl

theorem HistoryIndependent.par_eq {S X P : Type} {E : EstObj S X} {par : S → P}
    {res : P → X → Py (Σ k : ℕ, Matrix (Fin k) (Fin k) ℂ)} (hE : HistoryIndependent E par res)
    (dt : XDType) (p : ℕ) (xs : List X) (s : S) (nJobs : ℤ) (hn : nJobs ≠ 1) (sched : List ℕ)
    (hs : ∀ i < xs.length, 2 ≤ sched.count i) :
    (covTransform E dt p nJobs sched s xs).2 =
      some (match xs.mapM (res (par s)) with
        | .error e => .error e
        | .ok cs => cs.mapM (assignCov dt p)) := by
  simp only [covTransform, if_neg hn, parRun_tasks E xs s sched hs, parGather_ok, Option.map_some]
  have : (workerResult E s) = res (par s) := funext fun x => hE.worker s x
  rw [this]
  rfl

theorem mapM_ok_of {α β : Type} (f : α → Py β) (g : α → β) (xs : List α)
    (h : ∀ x ∈ xs, f x = .ok (g x)) : xs.mapM f = .ok (xs.map g) := by
  induction xs with
  | nil => rfl
  | cons x xs ih =>
    rw [List.mapM_cons, h x (by simp), ih fun y hy => h y (by simp [hy])]; rfl

theorem mapM_err_of {α β : Type} (f : α → Py β) (xs : List α)
    (h : ∃ x ∈ xs, ∃ e, f x = .error e) : ∃ e, xs.mapM f = .error e := by
  induction xs with
  | nil => obtain ⟨x, hx, _⟩ := h; cases hx
  | cons x xs ih =>
    rw [List.mapM_cons]
    cases hf : f x with
    | error e => exact ⟨e, rfl⟩
    | ok y =>
      obtain ⟨x', hx', e, he⟩ := h
      rcases List.mem_cons.1 hx' with rfl | hx'
      · rw [hf] at he; cases he
      · obtain ⟨e', he'⟩ := ih ⟨x', hx', e, he⟩
        exact ⟨e', by rw [he']; rfl⟩

/-- For every `n_jobs` and every complete worker schedule (each task gets its two steps, in
any interleaving), if every trial has a `p × p` covariance `c x`, the result is the list of
these covariances, in the order of the trials, cast to the dtype of `X`. -/
theorem C22_same_result {S X P : Type} (E : EstObj S X) (par : S → P)
    (res : P → X → Py (Σ k : ℕ, Matrix (Fin k) (Fin k) ℂ)) (hE : HistoryIndependent E par res)
    (dt : XDType) (p : ℕ) (s : S) (xs : List X) (c : X → Matrix (Fin p) (Fin p) ℂ)
    (hc : ∀ x ∈ xs, res (par s) x = .ok ⟨p, c x⟩)
    (nJobs : ℤ) (sched : List ℕ) (hs : nJobs ≠ 1 → ∀ i < xs.length, 2 ≤ sched.count i) :
    (covTransform E dt p nJobs sched s xs).2 =
      some (.ok (xs.map fun x => (c x).map (castTo dt))) := by
  by_cases hn : nJobs = 1
  · simp only [covTransform, if_pos hn, hE.seq]
    rw [mapM_ok_of _ (fun x => (c x).map (castTo dt))]
    intro x hx
    rw [hc x hx]
    exact assignCov_self dt p (c x)
  · rw [hE.par_eq dt p xs s nJobs hn sched (hs hn), mapM_ok_of _ _ xs hc]
    simp only
    rw [mapM_ok_of _ (fun m : (Σ k : ℕ, Matrix (Fin k) (Fin k) ℂ) =>
      (match assignCov dt p m with | .ok c => c | .error _ => 0))]
    · rw [List.map_map]
      congr 2
      apply List.map_congr_left
      intro x _
      simp [assignCov_self]
    · intro m hm
      obtain ⟨x, _, rfl⟩ := List.mem_map.1 hm
      rw [assignCov_self]

/-- If the estimator raises on some trial, `transform` raises for every `n_jobs` and every
complete schedule. -/
theorem C22_same_failure {S X P : Type} (E : EstObj S X) (par : S → P)
    (res : P → X → Py (Σ k : ℕ, Matrix (Fin k) (Fin k) ℂ)) (hE : HistoryIndependent E par res)
    (dt : XDType) (p : ℕ) (s : S) (xs : List X) (hx : ∃ x ∈ xs, ∃ e, res (par s) x = .error e)
    (nJobs : ℤ) (sched : List ℕ) (hs : nJobs ≠ 1 → ∀ i < xs.length, 2 ≤ sched.count i) :
    ∃ e, (covTransform E dt p nJobs sched s xs).2 = some (.error e) := by
  by_cases hn : nJobs = 1
  · simp only [covTransform, if_pos hn, hE.seq]
    obtain ⟨e, he⟩ := mapM_err_of (fun x => res (par s) x >>= assignCov dt p) xs (by
      obtain ⟨x, hx, e, he⟩ := hx
      exact ⟨x, hx, e, by simp only [he]; rfl⟩)
    exact ⟨e, by rw [he]⟩
  · rw [hE.par_eq dt p xs s nJobs hn sched (hs hn)]
    obtain ⟨e, he⟩ := mapM_err_of (res (par s)) xs hx
    exact ⟨e, by rw [he]⟩

/-- The estimator of the examples: `ComplexEmpiricalCovariance` on `2 × 1` trials; its state
is the last covariance. -/
noncomputable def exEst : EstObj (Matrix (Fin 1) (Fin 1) ℂ) (Matrix (Fin 2) (Fin 1) ℂ) where
  fit _ x := (complexEmpiricalCovariance x false, .ok ())
  covariance s := ⟨1, s⟩

theorem exEst_indep : HistoryIndependent exEst (fun _ => ())
    (fun _ x => .ok ⟨1, complexEmpiricalCovariance x false⟩) where
  keeps _ _ := rfl
  ok _ _ _ := rfl
  err s x e h := by cases h

/-- Non-vacuity of C22: three trials, workers interleaved. -/
example (x y z : Matrix (Fin 2) (Fin 1) ℂ) :
    (covTransform exEst .complex 1 2 [2, 0, 2, 1, 1, 0] 0 [x, y, z]).2 =
      some (.ok ([x, y, z].map fun x =>
        (complexEmpiricalCovariance x false).map (castTo .complex))) :=
  C22_same_result exEst _ _ exEst_indep .complex 1 0 [x, y, z] _ (fun _ _ => rfl) 2 _ (by
    intro _ i hi
    simp only [List.length_cons, List.length_nil] at hi
    interval_cases i <;> decide)

/-! ## C23: exact storage -/

/-- Partial: for complex trials, and for float trials with real covariances, the result is
exactly the list of estimated covariances. Missing: integer trials. -/
theorem C23_exact_partial {S X P : Type} (E : EstObj S X) (par : S → P)
    (res : P → X → Py (Σ k : ℕ, Matrix (Fin k) (Fin k) ℂ)) (hE : HistoryIndependent E par res)
    (dt : XDType) (p : ℕ) (s : S) (xs : List X) (c : X → Matrix (Fin p) (Fin p) ℂ)
    (hc : ∀ x ∈ xs, res (par s) x = .ok ⟨p, c x⟩)
    (nJobs : ℤ) (sched : List ℕ) (hs : nJobs ≠ 1 → ∀ i < xs.length, 2 ≤ sched.count i)
    (hdt : dt = .complex ∨ (dt = .float ∧ ∀ x ∈ xs, ∀ i j, (c x i j).im = 0)) :
    (covTransform E dt p nJobs sched s xs).2 = some (.ok (xs.map c)) := by
  rw [C22_same_result E par res hE dt p s xs c hc nJobs sched hs]
  congr 2
  apply List.map_congr_left
  intro x hx
  ext i j
  rw [map_apply]
  rcases hdt with rfl | ⟨rfl, h⟩
  · rfl
  · apply Complex.ext
    · simp [castTo]
    · simp [castTo, h x hx i j]

/-- Exactly what is returned for integer trials: real parts truncated toward zero. -/
theorem C23_int_truncates (z : ℂ) :
    ∃ k : ℤ, castTo .int z = (k : ℂ) ∧
      ((0 ≤ z.re → (k : ℝ) ≤ z.re ∧ z.re < k + 1) ∧ (z.re < 0 → z.re ≤ k ∧ (k : ℝ) < z.re + 1)) := by
  refine ⟨if 0 ≤ z.re then ⌊z.re⌋ else ⌈z.re⌉, by simp only [castTo]; split_ifs <;> simp, ?_, ?_⟩
  · intro h
    rw [if_pos h]
    exact ⟨Int.floor_le _, Int.lt_floor_add_one _⟩
  · intro h
    rw [if_neg (not_le.2 h)]
    exact ⟨Int.le_ceil _, Int.ceil_lt_add_one _⟩

theorem ex_cov : complexEmpiricalCovariance (of fun (i : Fin 2) (_ : Fin 1) => (i.1 : ℂ)) false =
    of fun _ _ => 1 / 4 := by
  ext i j
  simp [complexEmpiricalCovariance, npCov, Matrix.mul_apply, Fin.sum_univ_two]
  rw [Complex.conj_ofNat]
  norm_num

/-- Integer trials `0, 1` have variance `1/4`; the returned covariance is `0`. -/
theorem C23_violated : ∃ x : Matrix (Fin 2) (Fin 1) ℂ, (∀ i j, ∃ k : ℤ, x i j = k) ∧
    (covTransform exEst .int 1 1 [] 0 [x]).2 = some (.ok [0]) ∧
    exEst.covariance (exEst.fit 0 x).1 = ⟨1, of fun _ _ => 1 / 4⟩ := by
  refine ⟨of fun i _ => (i.1 : ℂ), fun i j => ⟨i.1, by simp⟩, ?_, ?_⟩
  · simp only [covTransform, if_true, exEst_indep.seq, List.mapM_cons, ex_cov]
    simp only [bind, Except.bind, assignCov_self, List.mapM_nil, pure, Except.pure]
    congr 3
    ext i j
    simp only [map_apply, of_apply, castTo, Matrix.zero_apply]
    have : ⌊(1 / 4 : ℂ).re⌋ = 0 := by
      rw [Int.floor_eq_iff]; constructor <;> norm_num
    rw [this]
    norm_num
  · simp only [exEst, ex_cov]

/-! ## C24: the user's estimator after transform -/

/-- With `n_jobs ≠ 1` the object at the user's reference is unchanged, under every schedule,
complete or not, whether trials fail or not, for every estimator. -/
theorem C24_parallel_untouched {S X : Type} (E : EstObj S X) (dt : XDType) (p : ℕ) (nJobs : ℤ)
    (hn : nJobs ≠ 1) (sched : List ℕ) (s : S) (xs : List X) :
    (covTransform E dt p nJobs sched s xs).1[0]? = some s := by
  simp only [covTransform, if_neg hn]
  exact ((ParInv.init E xs s).run sched).1.user

/-- With `n_jobs = 1`, if transform returns, the user's object has been fitted on the trials
in order; the last fit was the one on the last trial, and it succeeded. -/
theorem C24_sequential_last {S X : Type} (E : EstObj S X) (dt : XDType) (p : ℕ)
    (sched : List ℕ) (s : S) (xs : List X) (x : X)
    (cs : List (Matrix (Fin p) (Fin p) ℂ))
    (h : (covTransform E dt p 1 sched s (xs ++ [x])).2 = some (.ok cs)) :
    ∃ t, (covTransform E dt p 1 sched s (xs ++ [x])).1 = [(E.fit t x).1] ∧
      (E.fit t x).2 = .ok () ∧
      t = xs.foldl (fun s x => (E.fit s x).1) s := by
  simp only [covTransform, if_true, Option.some.injEq] at h ⊢
  induction xs generalizing s cs with
  | nil =>
    refine ⟨s, ?_, ?_, rfl⟩
    all_goals
      simp only [List.nil_append, seqTransform] at h ⊢
      revert h
      cases hf : E.fit s x with
      | mk s' r =>
        cases r with
        | error e => intro h; cases h
        | ok u =>
          simp only
          cases ha : assignCov dt p (E.covariance s') with
          | error e => intro h; cases h
          | ok c => intro; trivial
  | cons y xs ih =>
    simp only [List.cons_append, seqTransform, List.foldl_cons] at h ⊢
    revert h
    cases hf : E.fit s y with
    | mk s' r =>
      cases r with
      | error e => intro h; cases h
      | ok u =>
        simp only
        cases ha : assignCov dt p (E.covariance s') with
        | error e => intro h; cases h
        | ok c =>
          simp only
          intro h
          cases hr : seqTransform E dt p s' (xs ++ [x]) with
          | mk s'' r =>
            rw [hr] at h
            cases r with
            | error e => cases h
            | ok cs' =>
              obtain ⟨t, h1, h2, h3⟩ := ih s' cs' (by rw [hr])
              rw [hr] at h1
              exact ⟨t, h1, h2, h3⟩

/-- With `n_jobs = 1`, if the fit of a trial raises, transform raises that exception, the
later trials are not looked at, and the user's object is left as the failed fit left it. -/
theorem C24_sequential_raises {S X : Type} (E : EstObj S X) (dt : XDType) (p : ℕ)
    (sched : List ℕ) (s : S) (xs ys : List X) (x : X)
    (cs : List (Matrix (Fin p) (Fin p) ℂ)) (e : PyErr)
    (h : (covTransform E dt p 1 sched s xs).2 = some (.ok cs))
    (hx : (E.fit (xs.foldl (fun s x => (E.fit s x).1) s) x).2 = .error e) :
    covTransform E dt p 1 sched s (xs ++ x :: ys) =
      ([(E.fit (xs.foldl (fun s x => (E.fit s x).1) s) x).1], some (.error e)) := by
  simp only [covTransform, if_true, Option.some.injEq, Prod.mk.injEq] at h ⊢
  induction xs generalizing s cs with
  | nil =>
    simp only [List.nil_append, seqTransform, List.foldl_nil] at hx ⊢
    revert hx
    cases hf : E.fit s x with
    | mk s' r =>
      intro hx
      simp only at hx
      subst hx
      simp
  | cons y xs ih =>
    simp only [List.cons_append, seqTransform, List.foldl_cons] at h hx ⊢
    revert h hx
    cases hf : E.fit s y with
    | mk s' r =>
      cases r with
      | error e => intro _ h; cases h
      | ok u =>
        simp only
        cases ha : assignCov dt p (E.covariance s') with
        | error e => intro _ h; cases h
        | ok c =>
          simp only
          cases hs : seqTransform E dt p s' xs with
          | mk s2 r2 =>
            cases r2 with
            | error e => intro _ h; cases h
            | ok cs2 =>
              intro hx _
              have h1 := ih s' cs2 hx (by rw [hs])
              revert h1
              cases seqTransform E dt p s' (xs ++ x :: ys) with
              | mk s3 r3 =>
                rintro ⟨h1, h2⟩
                simp only at h2
                subst h2
                exact ⟨h1, rfl⟩

/-- Without trials the object is unchanged whatever `n_jobs`. -/
theorem C24_no_trial {S X : Type} (E : EstObj S X) (dt : XDType) (p : ℕ) (nJobs : ℤ) (s : S) :
    (covTransform E dt p nJobs [] s []).1 = [s] := by
  unfold covTransform
  split_ifs <;> rfl

/-- Non-vacuity of C24: sequentially the state changes, in parallel it does not. -/
example : (covTransform exEst .complex 1 1 [] 0
      [of fun (i : Fin 2) (_ : Fin 1) => (i.1 : ℂ)]).1 = [of fun _ _ => 1 / 4] ∧
    (covTransform exEst .complex 1 4 [0, 0] 0
      [of fun (i : Fin 2) (_ : Fin 1) => (i.1 : ℂ)]).1[0]? = some 0 := by
  refine ⟨?_, C24_parallel_untouched _ _ _ _ (by norm_num) _ _ _⟩
  obtain ⟨t, h, -, -⟩ := C24_sequential_last exEst .complex 1 [] 0 []
    (of fun (i : Fin 2) (_ : Fin 1) => (i.1 : ℂ)) _
    (C22_same_result exEst _ _ exEst_indep .complex 1 0 _ _ (fun _ _ => rfl) 1 []
      (fun h => absurd rfl h))
  exact h.trans (by rw [← ex_cov]; rfl)

/-! ## C25: the complex empirical covariance -/

/-- Spec: entry `(a, b)` of the covariance of the samples around `m`, with denominator `n`. -/
def IsCovAround {n p : ℕ} (X : Matrix (Fin n) (Fin p) ℂ) (m : Fin p → ℂ)
    (C : Matrix (Fin p) (Fin p) ℂ) : Prop :=
  ∀ a b, (n : ℂ) * C a b = ∑ i, (X i a - m a) * star (X i b - m b)

/-- The covariance is the average of `(x - m)(x - m)ᴴ`, with `m = 0` if `assume_centered` and
the sample mean otherwise. -/
theorem C25_is_covariance {n p : ℕ} (hn : 0 < n) (X : Matrix (Fin n) (Fin p) ℂ)
    (assumeCentered : Bool) (m : Fin p → ℂ)
    (hm : if assumeCentered then m = 0 else ∀ j, (n : ℂ) * m j = ∑ i, X i j) :
    IsCovAround X m (complexEmpiricalCovariance X assumeCentered) := by
  have hn0 : (n : ℂ) ≠ 0 := by exact_mod_cast hn.ne'
  intro a b
  cases assumeCentered with
  | true =>
    simp only [if_true] at hm
    subst hm
    simp [complexEmpiricalCovariance, dotCov, Matrix.mul_apply, hn0]
  | false =>
    simp only [Bool.false_eq_true, if_false] at hm
    have hm' : ∀ j, (∑ k, X k j) / n = m j := fun j => by
      rw [← hm j]; field_simp
    simp [complexEmpiricalCovariance, npCov, Matrix.mul_apply, hn0, hm']

theorem dotCov_eq {n p : ℕ} (X : Matrix (Fin n) (Fin p) ℂ) :
    dotCov X = (n : ℂ)⁻¹ • ((X.map star)ᴴ * X.map star) := by
  rw [dotCov]
  congr 2
  ext i j
  simp

theorem npCov_eq {n p : ℕ} (X : Matrix (Fin n) (Fin p) ℂ) :
    npCov X = dotCov (of fun i j => X i j - (∑ k, X k j) / n) := rfl

theorem dotCov_posSemidef {n p : ℕ} (X : Matrix (Fin n) (Fin p) ℂ) : (dotCov X).PosSemidef := by
  rw [dotCov_eq]
  exact (posSemidef_conjTranspose_mul_self _).smul (by
    rw [inv_nonneg]; exact_mod_cast Nat.zero_le n)

theorem C25_posSemidef {n p : ℕ} (X : Matrix (Fin n) (Fin p) ℂ) (assumeCentered : Bool) :
    (complexEmpiricalCovariance X assumeCentered).PosSemidef := by
  cases assumeCentered
  · exact dotCov_posSemidef (of fun i j => X i j - (∑ k, X k j) / n)
  · exact dotCov_posSemidef X

theorem C25_hermitian {n p : ℕ} (X : Matrix (Fin n) (Fin p) ℂ) (assumeCentered : Bool) :
    (complexEmpiricalCovariance X assumeCentered)ᴴ =
      complexEmpiricalCovariance X assumeCentered :=
  (C25_posSemidef X assumeCentered).isHermitian

/-- A 1-D array: same guarantees; one sample has zero covariance around its mean. -/
theorem C25_one_sample {p : ℕ} (x : Fin p → ℂ) (assumeCentered : Bool) :
    (complexEmpiricalCovariance1 x assumeCentered).PosSemidef ∧
    complexEmpiricalCovariance1 x false = 0 ∧
    complexEmpiricalCovariance1 x true = vecMulVec x (star x) := by
  refine ⟨C25_posSemidef _ _, ?_, ?_⟩
  · ext i j
    simp [complexEmpiricalCovariance1, complexEmpiricalCovariance, npCov, Matrix.mul_apply]
  · ext i j
    simp [complexEmpiricalCovariance1, complexEmpiricalCovariance, dotCov, Matrix.mul_apply,
      vecMulVec]

/-- Adding a constant vector to every sample changes nothing. -/
theorem C25_translation {n p : ℕ} (X : Matrix (Fin n) (Fin p) ℂ) (v : Fin p → ℂ) :
    complexEmpiricalCovariance (of fun i j => X i j + v j) false =
      complexEmpiricalCovariance X false := by
  simp only [complexEmpiricalCovariance, Bool.false_eq_true, if_false, npCov_eq]
  congr 1
  ext i j
  have hn0 : (n : ℂ) ≠ 0 := by exact_mod_cast (i.pos).ne'
  simp only [of_apply, Finset.sum_add_distrib, Finset.sum_const, Finset.card_univ,
    Fintype.card_fin, nsmul_eq_mul]
  field_simp
  ring

/-- Subtracting the mean and then assuming centred data gives the same matrix. -/
theorem C25_centring {n p : ℕ} (hn : 0 < n) (X : Matrix (Fin n) (Fin p) ℂ) (m : Fin p → ℂ)
    (hm : ∀ j, (n : ℂ) * m j = ∑ i, X i j) :
    complexEmpiricalCovariance X false =
      complexEmpiricalCovariance (of fun i j => X i j - m j) true := by
  have hn0 : (n : ℂ) ≠ 0 := by exact_mod_cast hn.ne'
  have hm' : ∀ j, (∑ k, X k j) / n = m j := fun j => by rw [← hm j]; field_simp
  simp only [complexEmpiricalCovariance, Bool.false_eq_true, if_false, npCov_eq, if_true, hm']

/-! ## C26: equivariance -/

/-- `X * Tᵀ` has the rows `T x`. -/
theorem C26_linear {n p q : ℕ} (X : Matrix (Fin n) (Fin p) ℂ) (T : Matrix (Fin q) (Fin p) ℂ)
    (assumeCentered : Bool) :
    complexEmpiricalCovariance (of fun i => T *ᵥ (X i)) assumeCentered =
      T * complexEmpiricalCovariance X assumeCentered * Tᴴ := by
  have key : ∀ Y : Matrix (Fin n) (Fin p) ℂ, dotCov (of fun i => T *ᵥ (Y i)) = T * dotCov Y * Tᴴ := by
    intro Y
    have h1 : (of fun i => T *ᵥ (Y i) : Matrix (Fin n) (Fin q) ℂ) = Y * Tᵀ := by
      ext i j
      simp [mulVec, dotProduct, Matrix.mul_apply, mul_comm]
    rw [h1, dotCov, dotCov]
    have h2 : (Y * Tᵀ).map star = Y.map star * Tᴴ := by
      ext i j
      simp [Matrix.mul_apply]
    rw [h2, transpose_mul, transpose_transpose]
    simp only [Matrix.mul_smul, Matrix.smul_mul, Matrix.mul_assoc]
  cases assumeCentered with
  | true => exact key X
  | false =>
    simp only [complexEmpiricalCovariance, Bool.false_eq_true, if_false, npCov_eq]
    rw [← key]
    congr 1
    ext i j
    simp only [of_apply, mulVec, dotProduct]
    rw [Finset.sum_comm, Finset.sum_div, ← Finset.sum_sub_distrib]
    apply Finset.sum_congr rfl
    intro k _
    rw [← Finset.mul_sum]; ring

/-- Affine maps, without `assume_centered`. -/
theorem C26_affine {n p q : ℕ} (X : Matrix (Fin n) (Fin p) ℂ) (T : Matrix (Fin q) (Fin p) ℂ)
    (v : Fin q → ℂ) :
    complexEmpiricalCovariance (of fun i => T *ᵥ (X i) + v) false =
      T * complexEmpiricalCovariance X false * Tᴴ := by
  rw [← C26_linear X T false]
  exact C25_translation (of fun i => T *ᵥ (X i)) v

/-- Sample order does not matter. -/
theorem C26_permutation {n p : ℕ} (X : Matrix (Fin n) (Fin p) ℂ) (π : Equiv.Perm (Fin n))
    (assumeCentered : Bool) :
    complexEmpiricalCovariance (of fun i => X (π i)) assumeCentered =
      complexEmpiricalCovariance X assumeCentered := by
  have key : ∀ Y : Matrix (Fin n) (Fin p) ℂ, dotCov (of fun i => Y (π i)) = dotCov Y := by
    intro Y
    ext a b
    simp only [dotCov, Matrix.smul_apply, Matrix.mul_apply, transpose_apply, of_apply, map_apply]
    rw [Equiv.sum_comp π (fun i => Y i a * star (Y i b))]
  cases assumeCentered with
  | true => exact key X
  | false =>
    simp only [complexEmpiricalCovariance, Bool.false_eq_true, if_false, npCov_eq]
    rw [← key (of fun i j => X i j - (∑ k, X k j) / n)]
    congr 1
    ext i j
    simp only [of_apply]
    rw [Equiv.sum_comp π (fun i => X i j)]

/-- C25, C26 on a case with a non-trivial covariance. -/
example : complexEmpiricalCovariance (of fun (i : Fin 2) (_ : Fin 1) => (i.1 : ℂ)) false ≠ 0 := by
  rw [ex_cov]
  intro h
  have := congrFun (congrFun h 0) 0
  norm_num at this

/-! ## C27: what a complex estimator does with its data -/

theorem arraytoreal_check_complex (n p : ℕ) (hn : 0 < n) (hp : 0 < p)
    (Z : Matrix (Fin n) (Fin p) ℂ) : validateData (.cplx (.d2 n p Z)) = .ok (.cplx (.d2 n p Z)) := by
  have h := C01_complex_real_complex_2d n p hn Z
  unfold validateData
  simp only [arraytoreal, bind, Except.bind] at h ⊢
  simp only [checkArray, if_neg (show ¬(n = 0 ∨ p + p = 0) by omega)]
  exact h

theorem setCovariance_complex (k : ℕ) (hk : 0 < k) (C : Matrix (Fin k) (Fin k) ℂ) :
    setCovariance (.cplx (.d2 k k C)) = .ok (.cplx (.d2 k k C)) := by
  have h := C02_covariance_round_trip k C
  unfold setCovariance
  simp only [covariancetoreal, bind, Except.bind, dif_pos] at h ⊢
  simp only [checkArray, if_neg (show ¬(k + k = 0 ∨ k + k = 0) by omega)]
  exact h

/-- On complex data with at least one sample and one feature, the fit stores the mean (zero
if `assume_centered`) and the covariance around it. -/
theorem C27_complex_data (n p : ℕ) (hn : 0 < n) (hp : 0 < p) (Z : Matrix (Fin n) (Fin p) ℂ)
    (assumeCentered : Bool) :
    ∃ (m : Fin p → ℂ) (C : Matrix (Fin p) (Fin p) ℂ),
      complexEmpCovFit (.cplx (.d2 n p Z)) assumeCentered = .ok ⟨⟨p, m⟩, .cplx (.d2 p p C)⟩ ∧
      (if assumeCentered then m = 0 else ∀ j, (n : ℂ) * m j = ∑ i, Z i j) ∧
      IsCovAround Z m C := by
  have hn0 : (n : ℂ) ≠ 0 := by exact_mod_cast hn.ne'
  have hm : (if assumeCentered then
      (if assumeCentered then 0 else fun j => (∑ i, Z i j) / n : Fin p → ℂ) = 0
      else ∀ j, (n : ℂ) * (if assumeCentered then 0 else fun j => (∑ i, Z i j) / n : Fin p → ℂ) j
        = ∑ i, Z i j) := by
    cases assumeCentered
    · simp only [Bool.false_eq_true, if_false]; intro j; field_simp
    · simp
  refine ⟨_, complexEmpiricalCovariance Z assumeCentered, ?_, hm, C25_is_covariance hn Z _ _ hm⟩
  unfold complexEmpCovFit
  simp only [arraytoreal_check_complex n p hn hp, bind, Except.bind, setCovariance_complex p hp]
  rfl

/-- Real data with an even number `2m` of columns are read as complex data with `m`
features: the first half of the columns as real parts, the second as imaginary parts. -/
theorem C27_real_data_exact (n m : ℕ)
    (X : Matrix (Fin n) (Fin (m + m)) ℝ) (assumeCentered : Bool) :
    complexEmpCovFit (.real (.d2 n (m + m) X)) assumeCentered =
      complexEmpCovFit (.cplx (.d2 n m (of fun i j =>
        ⟨X i (Fin.castAdd m j), X i (Fin.natAdd m j)⟩))) assumeCentered := by
  have h : validateData (.real (.d2 n (m + m) X)) =
      validateData (.cplx (.d2 n m (of fun i j =>
        ⟨X i (Fin.castAdd m j), X i (Fin.natAdd m j)⟩))) := by
    unfold validateData
    simp only [arraytoreal, of_apply]
    have : X = (fun i => Fin.append (fun j => X i (Fin.castAdd m j))
        (fun j => X i (Fin.natAdd m j))) := by
      funext i j
      refine Fin.addCases (fun k => ?_) (fun k => ?_) j
      · rw [Fin.append_left]
      · rw [Fin.append_right]
    rw [← this]
  unfold complexEmpCovFit
  rw [h]

/-- What survives the sizes: from a real array with `q` columns a successful fit has
`⌈q/2⌉` features. -/
theorem fit_real_size (n q : ℕ) (X : Matrix (Fin n) (Fin q) ℝ) (assumeCentered : Bool)
    (r : EmpCovFit) (h : complexEmpCovFit (.real (.d2 n q X)) assumeCentered = .ok r) :
    r.location.1 = q - q / 2 := by
  unfold complexEmpCovFit validateData at h
  simp only [arraytoreal, bind, Except.bind, checkArray] at h
  by_cases h0 : n = 0 ∨ q = 0
  · simp [h0] at h
  simp only [if_neg h0, arraytocomplex, bind, Except.bind, bcast2] at h
  have hn : n ≠ 0 := fun h => h0 (Or.inl h)
  by_cases h1 : q / 2 = q - q / 2
  · simp only [dif_pos h1, vstackArr, if_neg hn, pure, Except.pure] at h
    split at h
    · cases h
    · cases h; rfl
  · simp only [dif_neg h1] at h
    by_cases h2 : q / 2 = 1
    · simp only [dif_pos h2, vstackArr, if_neg hn, pure, Except.pure] at h
      split at h
      · cases h
      · cases h; rfl
    · simp only [dif_neg h2] at h
      by_cases h3 : q - q / 2 = 1
      · simp only [dif_pos h3, vstackArr, if_neg hn, pure, Except.pure] at h
        have hq : q / 2 = 0 := by omega
        exfalso
        revert h
        generalize hZ : (fun (i : Fin n) (j : Fin (q / 2)) => _ : Matrix (Fin n) (Fin (q / 2)) ℂ) = Z
        clear hZ
        have : ∀ (k : ℕ) (hk : k = 0) (C : Matrix (Fin k) (Fin k) ℂ),
            setCovariance (.cplx (.d2 k k C)) = .error .valueError := by
          intro k hk C
          subst hk
          simp [setCovariance, covariancetoreal, bind, Except.bind, checkArray]
        rw [this _ hq]
        intro h; cases h
      · simp [dif_neg h3] at h

/-- The property fails for every real data set with at least one sample and one feature. -/
theorem C27_violated (n q : ℕ) (hn : 0 < n) (hq : 0 < q) (X : Matrix (Fin n) (Fin q) ℝ)
    (assumeCentered : Bool) (r : EmpCovFit)
    (h : complexEmpCovFit (.cplx (.d2 n q (X.map fun x => (x : ℂ)))) assumeCentered = .ok r) :
    complexEmpCovFit (.real (.d2 n q X)) assumeCentered ≠ .ok r := by
  obtain ⟨m, C, h1, -, -⟩ := C27_complex_data n q hn hq (X.map fun x => (x : ℂ)) assumeCentered
  rw [h1] at h
  cases h
  by_cases hq1 : q = 1
  · subst hq1
    simp [complexEmpCovFit, validateData, arraytoreal, bind, Except.bind, checkArray, hn.ne',
      arraytocomplex, bcast2, vstackArr, pure, Except.pure, setCovariance, covariancetoreal]
  · intro h
    have := fit_real_size _ _ _ _ _ h
    simp only at this
    omega

/-! ## C28: the stored covariance -/

theorem C28_stored_exactly (k : ℕ) (hk : 0 < k) (C : Matrix (Fin k) (Fin k) ℂ) :
    setCovariance (.cplx (.d2 k k C)) = .ok (.cplx (.d2 k k C)) :=
  setCovariance_complex k hk C

/-- Everything complex that is not a non-empty square matrix raises. -/
theorem C28_rejects (a : Arr ℂ) (h : ∀ k C, 0 < k → a ≠ .d2 k k C) :
    ∃ e, setCovariance (.cplx a) = .error e := by
  cases a with
  | d2 m n C =>
    by_cases hmn : m = n
    · subst hmn
      have hm : m = 0 := by
        by_contra hm
        exact h m C (Nat.pos_of_ne_zero hm) rfl
      subst hm
      exact ⟨.valueError, by simp [setCovariance, covariancetoreal, bind, Except.bind, checkArray]⟩
    · exact ⟨.attributeError, by
        simp [setCovariance, covariancetoreal, bind, Except.bind, hmn]⟩
  | d0 x => exact ⟨_, rfl⟩
  | d1 n v => exact ⟨_, rfl⟩
  | d3 k m n v => exact ⟨_, rfl⟩
  | dn s hs d => exact ⟨_, rfl⟩

/-- A real `2k × 2k` matrix is not stored but read as a real form: what is stored is
`2 A + 2i B` for its left blocks `A` (upper) and `B` (lower). -/
theorem C28_real_matrix (k : ℕ) (hk : 0 < k) (R : Matrix (Fin (k + k)) (Fin (k + k)) ℝ) :
    ∃ C : Matrix (Fin k) (Fin k) ℂ, setCovariance (.real (.d2 (k + k) (k + k) R)) =
        .ok (.cplx (.d2 k k C)) ∧
      ∀ i j, C i j = ⟨2 * R (Fin.castAdd k i) (Fin.castAdd k j),
        2 * R (Fin.natAdd k i) (Fin.castAdd k j)⟩ := by
  refine ⟨of fun i j => ⟨2 * R (Fin.castAdd k i) (Fin.castAdd k j),
        2 * R (Fin.natAdd k i) (Fin.castAdd k j)⟩, ?_, fun _ _ => rfl⟩
  have h : (k + k) % 2 = 0 := by omega
  unfold setCovariance
  simp only [covariancetoreal, bind, Except.bind, checkArray,
    if_neg (show ¬(k + k = 0 ∨ k + k = 0) by omega), covariancetocomplex, dif_pos, h]
  congr 2
  apply Arr.d2_congr_sq (by omega)
  intro i j
  have e : ∀ x y : ℝ, (2 * (x : ℂ) + 2 * Complex.I * (y : ℂ)) = ⟨2 * x, 2 * y⟩ := by
    intro x y
    apply Complex.ext <;> simp
  simp only [complexify, e, of_apply]
  have hk2 : (k + k) / 2 = k := by omega
  congr 2
  congr 2
  simp [hk2]

/-! ## C29: error_norm -/

/-- The property: zero exactly when the matrices are equal. It fails already for Hermitian
matrices, for both norms, with or without scaling and square root: the entries of the error
are squared without a modulus. `smax` is any function that vanishes at the zero matrix, as
the largest singular value does. -/
theorem C29_violated (smax : Matrix (Fin 2) (Fin 2) ℂ → ℝ) (hs : smax 0 = 0)
    (scaling squared : Bool) :
    ∃ cov comp : Matrix (Fin 2) (Fin 2) ℂ, cov.PosDef ∧ comp.PosSemidef ∧ cov ≠ comp ∧
      errorNorm smax cov comp .frobenius scaling squared = .ok 0 ∧
      errorNorm smax cov comp .spectral scaling squared = .ok 0 := by
  have hE : (!![1, Complex.I; -Complex.I, 1] : Matrix (Fin 2) (Fin 2) ℂ) =
      vecMulVec ![1, -Complex.I] (star ![1, -Complex.I]) := by
    ext i j
    fin_cases i <;> fin_cases j <;> simp [vecMulVec]
  have hsub : (1 + !![1, Complex.I; -Complex.I, 1] : Matrix (Fin 2) (Fin 2) ℂ) - 1 =
      !![1, Complex.I; -Complex.I, 1] := add_sub_cancel_left _ _
  refine ⟨1, 1 + !![1, Complex.I; -Complex.I, 1], PosDef.one, ?_, ?_, ?_, ?_⟩
  · rw [hE]
    exact PosSemidef.one.add (posSemidef_vecMulVec_self_star _)
  · intro h
    have := congrFun (congrFun h 0) 0
    simp at this
  · simp only [errorNorm, hsub]
    have : ∑ i, ∑ j, (!![1, Complex.I; -Complex.I, 1] : Matrix (Fin 2) (Fin 2) ℂ) i j ^ 2 = 0 := by
      simp [Fin.sum_univ_two]
    rw [this]
    cases scaling <;> cases squared <;> simp
  · simp only [errorNorm, hsub]
    have : (!![1, Complex.I; -Complex.I, 1] : Matrix (Fin 2) (Fin 2) ℂ)ᵀ *
        !![1, Complex.I; -Complex.I, 1] = 0 := by
      ext i j
      fin_cases i <;> fin_cases j <;> simp [Matrix.mul_apply, Fin.sum_univ_two]
    rw [this, hs]
    cases scaling <;> cases squared <;> simp

theorem errorNorm_zero_iff {p : ℕ} (hp : 0 < p) (smax : Matrix (Fin p) (Fin p) ℂ → ℝ)
    (cov comp : Matrix (Fin p) (Fin p) ℂ) (scaling squared : Bool) :
    errorNorm smax cov comp .frobenius scaling squared = .ok 0 ↔
      ∑ i, ∑ j, (comp - cov) i j ^ 2 = 0 := by
  simp only [errorNorm, Except.ok.injEq]
  cases scaling <;> cases squared <;> simp [Real.sqrt_eq_zero, hp.ne']

/-- Exactly when it is zero, for Hermitian matrices: the real parts and the imaginary parts
of the error have the same sum of squares. -/
theorem C29_exact {p : ℕ} (hp : 0 < p) (smax : Matrix (Fin p) (Fin p) ℂ → ℝ)
    (cov comp : Matrix (Fin p) (Fin p) ℂ) (h1 : cov.IsHermitian) (h2 : comp.IsHermitian)
    (scaling squared : Bool) :
    errorNorm smax cov comp .frobenius scaling squared = .ok 0 ↔
      ∑ i, ∑ j, (comp i j - cov i j).re ^ 2 = ∑ i, ∑ j, (comp i j - cov i j).im ^ 2 := by
  rw [errorNorm_zero_iff hp]
  have hH : (comp - cov).IsHermitian := h2.sub h1
  have him : (∑ i, ∑ j, (comp - cov) i j ^ 2).im = 0 := by
    have : star (∑ i, ∑ j, (comp - cov) i j ^ 2) = ∑ i, ∑ j, (comp - cov) i j ^ 2 := by
      simp only [star_sum, star_pow]
      rw [Finset.sum_comm]
      apply Finset.sum_congr rfl; intro i _
      apply Finset.sum_congr rfl; intro j _
      rw [hH.apply]
    have := congrArg Complex.im this
    simp only [Complex.star_def, Complex.conj_im] at this
    linarith
  have hre : (∑ i, ∑ j, (comp - cov) i j ^ 2).re =
      ∑ i, ∑ j, (comp i j - cov i j).re ^ 2 - ∑ i, ∑ j, (comp i j - cov i j).im ^ 2 := by
    simp only [Complex.re_sum, ← Finset.sum_sub_distrib, Matrix.sub_apply]
    apply Finset.sum_congr rfl; intro i _
    apply Finset.sum_congr rfl; intro j _
    rw [pow_two, Complex.mul_re]; ring
  constructor
  · intro h
    rw [h] at hre
    simp only [Complex.zero_re] at hre
    linarith
  · intro h
    apply Complex.ext
    · rw [hre, h]; simp
    · simpa using him

/-- Partial: the property holds when the error is real, e.g. for real covariances. -/
theorem C29_real_partial {p : ℕ} (hp : 0 < p) (smax : Matrix (Fin p) (Fin p) ℂ → ℝ)
    (cov comp : Matrix (Fin p) (Fin p) ℂ) (hr : ∀ i j, (comp i j - cov i j).im = 0)
    (scaling squared : Bool) :
    errorNorm smax cov comp .frobenius scaling squared = .ok 0 ↔ comp = cov := by
  rw [errorNorm_zero_iff hp]
  have e : ∀ i j, (comp - cov) i j ^ 2 = (((comp i j - cov i j).re ^ 2 : ℝ) : ℂ) := by
    intro i j
    have : (comp - cov) i j = (((comp i j - cov i j).re : ℝ) : ℂ) := by
      apply Complex.ext
      · simp
      · simpa using hr i j
    rw [this]; push_cast; rfl
  simp only [e]
  rw [← sub_eq_zero (a := comp)]
  constructor
  · intro h
    have h' : ∑ i, ∑ j, (comp i j - cov i j).re ^ 2 = 0 := by exact_mod_cast h
    rw [Finset.sum_eq_zero_iff_of_nonneg fun i _ => Finset.sum_nonneg fun j _ => sq_nonneg _] at h'
    ext i j
    have h2 := h' i (Finset.mem_univ _)
    rw [Finset.sum_eq_zero_iff_of_nonneg fun j _ => sq_nonneg _] at h2
    have h3 := h2 j (Finset.mem_univ _)
    apply Complex.ext
    · simpa using h3
    · simpa using hr i j
  · intro h
    have : ∀ i j, (comp i j - cov i j).re = 0 := fun i j => by
      have := congrFun (congrFun h i) j
      simp only [Matrix.sub_apply, Matrix.zero_apply] at this
      rw [this]; rfl
    simp [this]

/-- It is always zero for the stored covariance itself, and other norms raise. -/
theorem C29_self {p : ℕ} (smax : Matrix (Fin p) (Fin p) ℂ → ℝ)
    (cov comp : Matrix (Fin p) (Fin p) ℂ) (scaling squared : Bool) :
    errorNorm smax cov cov .frobenius scaling squared = .ok 0 ∧
    errorNorm smax cov comp .other scaling squared = .error .notImplementedError := by
  constructor
  · cases scaling <;> cases squared <;> simp [errorNorm]
  · rfl

/-- Spec: `r` is what `error_norm` should return for the squared norm `sq`: divided by the
dimension if scaled, and its square root unless squared. -/
def IsErrorNorm (p : ℕ) (scaling squared : Bool) (sq r : ℝ) : Prop :=
  0 ≤ r ∧ (if squared then r else r * r) * (if scaling then (p : ℝ) else 1) = sq

theorem errorNorm_fin {p : ℕ} (hp : 0 < p) (z : ℂ) (scaling squared : Bool) :
    IsErrorNorm p scaling squared ‖z‖
      (if squared then ‖if scaling then z / p else z‖
        else Real.sqrt ‖if scaling then z / p else z‖) := by
  have hp0 : (p : ℝ) ≠ 0 := by exact_mod_cast hp.ne'
  have h : 0 ≤ ‖z‖ / p := by positivity
  have e : ‖z / p‖ = ‖z‖ / p := by rw [norm_div, Complex.norm_natCast]
  refine ⟨by split_ifs <;> positivity, ?_⟩
  cases scaling <;> cases squared <;>
    simp only [Bool.false_eq_true, if_true, if_false, e, Real.mul_self_sqrt h,
      Real.mul_self_sqrt (norm_nonneg z), div_mul_cancel₀ _ hp0, mul_one]

/-- The value: the modulus of the sum of the squared entries of the error. -/
theorem C29_value {p : ℕ} (hp : 0 < p) (smax : Matrix (Fin p) (Fin p) ℂ → ℝ)
    (cov comp : Matrix (Fin p) (Fin p) ℂ) (scaling squared : Bool) :
    ∃ r, errorNorm smax cov comp .frobenius scaling squared = .ok r ∧
      IsErrorNorm p scaling squared ‖∑ i, ∑ j, (comp i j - cov i j) ^ 2‖ r :=
  ⟨_, rfl, errorNorm_fin hp _ _ _⟩

/-- Partial: for a real error the value is the one of the Frobenius norm. -/
theorem C29_frobenius_partial {p : ℕ} (hp : 0 < p) (smax : Matrix (Fin p) (Fin p) ℂ → ℝ)
    (cov comp : Matrix (Fin p) (Fin p) ℂ) (hr : ∀ i j, (comp i j - cov i j).im = 0)
    (scaling squared : Bool) :
    ∃ r, errorNorm smax cov comp .frobenius scaling squared = .ok r ∧
      IsErrorNorm p scaling squared (∑ i, ∑ j, ‖comp i j - cov i j‖ ^ 2) r := by
  obtain ⟨r, h, hv⟩ := C29_value hp smax cov comp scaling squared
  refine ⟨r, h, ?_⟩
  have e : ∀ i j, (comp i j - cov i j) ^ 2 = ((‖comp i j - cov i j‖ ^ 2 : ℝ) : ℂ) := by
    intro i j
    have : comp i j - cov i j = (((comp i j - cov i j).re : ℝ) : ℂ) :=
      Complex.ext rfl (by rw [hr i j]; rfl)
    rw [this, Complex.norm_real, Real.norm_eq_abs, sq_abs]; push_cast; rfl
  simp only [e] at hv
  have : ‖∑ i, ∑ j, ((‖comp i j - cov i j‖ ^ 2 : ℝ) : ℂ)‖ =
      ∑ i, ∑ j, ‖comp i j - cov i j‖ ^ 2 := by
    have e2 : ∑ i, ∑ j, ((‖comp i j - cov i j‖ ^ 2 : ℝ) : ℂ) =
        ((∑ i, ∑ j, ‖comp i j - cov i j‖ ^ 2 : ℝ) : ℂ) := by push_cast; rfl
    rw [e2, Complex.norm_real, Real.norm_eq_abs, abs_of_nonneg]
    exact Finset.sum_nonneg fun i _ => Finset.sum_nonneg fun j _ => by positivity
  rwa [this] at hv

open scoped Matrix.Norms.L2Operator in
/-- Partial: for a real error, with the largest singular value for `smax`, the spectral value
is the one of the operator norm. -/
theorem C29_spectral_partial {p : ℕ} (hp : 0 < p)
    (cov comp : Matrix (Fin p) (Fin p) ℂ) (hr : ∀ i j, (comp i j - cov i j).im = 0)
    (scaling squared : Bool) :
    ∃ r, errorNorm (fun M => ‖M‖) cov comp .spectral scaling squared = .ok r ∧
      IsErrorNorm p scaling squared (‖comp - cov‖ * ‖comp - cov‖) r := by
  refine ⟨_, rfl, ?_⟩
  have hT : (comp - cov)ᵀ = (comp - cov)ᴴ := by
    ext i j
    simp only [transpose_apply, conjTranspose_apply, Matrix.sub_apply]
    exact (Complex.conj_eq_iff_im.mpr (hr j i)).symm
  have h := errorNorm_fin hp ((‖(comp - cov)ᵀ * (comp - cov)‖ : ℝ) : ℂ) scaling squared
  rw [hT, l2_opNorm_conjTranspose_mul_self] at h
  rw [Complex.norm_real, Real.norm_eq_abs,
    abs_of_nonneg (mul_nonneg (norm_nonneg _) (norm_nonneg _))] at h
  simp only [hT, l2_opNorm_conjTranspose_mul_self]
  exact h

/-- Non-vacuity: the error norms of the zero matrix against the identity. -/
example (smax : Matrix (Fin 2) (Fin 2) ℂ → ℝ) :
    errorNorm smax 0 1 .frobenius true true = .ok 1 ∧
    errorNorm smax 0 (4 : Matrix (Fin 2) (Fin 2) ℂ) .frobenius true false = .ok 4 := by
  constructor
  · simp [errorNorm, Fin.sum_univ_two]
  · have e : (∑ i, ∑ j, (4 - 0 : Matrix (Fin 2) (Fin 2) ℂ) i j ^ 2) / (2 : ℕ) = ((4 ^ 2 : ℝ) : ℂ) := by
      have h4 : (4 : Matrix (Fin 2) (Fin 2) ℂ) = diagonal fun _ => 4 := by
        ext i j; fin_cases i <;> fin_cases j <;> rfl
      rw [h4]
      simp [Fin.sum_univ_two]
    simp only [errorNorm, if_true, e, Complex.norm_real]
    simp

end RS
