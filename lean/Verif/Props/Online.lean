import Verif.Spec.Online
import Verif.Props.Base
import Verif.Props.HPDGeom
import Verif.Lemmas.Structured

/-
Properties of `StochasticGradientCovarianceEstimator` (C70-C73, C95, C96).
-/
set_option autoImplicit false

namespace RS
open Matrix ComplexOrder

variable {E V : Type} [SMul ℝ V]

/-! ## Basic facts -/

omit [SMul ℝ V] in
theorem setEstimate_ok {P : OnlineParams E V} {s s' : Online E} {e : Option E}
    (h : s.setEstimate P e = (s', .ok ())) :
    ∃ C, onlineCov P e = .ok C ∧ s' = { s with estimate := e, covariance := some C } := by
  unfold Online.setEstimate at h
  cases hC : onlineCov P e with
  | error err => rw [hC] at h; simp at h
  | ok C =>
    rw [hC] at h
    simp only [Prod.mk.injEq, and_true] at h
    exact ⟨C, rfl, h.symm⟩

omit [SMul ℝ V] in
theorem setEstimate_of_ok {P : OnlineParams E V} (s : Online E) {e : Option E} {C : NDArr}
    (h : onlineCov P e = .ok C) :
    s.setEstimate P e = ({ s with estimate := e, covariance := some C }, .ok ()) := by
  unfold Online.setEstimate
  rw [h]

theorem update_ok {P : OnlineParams E V} {s s' : Online E} {e : E} (he : s.estimate = some e)
    {x : NDArr} {lr : String} (h : s.update P x lr = (s', .ok ())) :
    ∃ g e' C, P.rgrad x e = .ok g ∧
      P.retr e (g.scale (currentLr s.lrate lr s.iteration)) = .ok e' ∧
      onlineCov P (some e') = .ok C ∧
      s' = { s with estimate := some e', covariance := some C } := by
  unfold Online.update at h
  rw [he] at h
  simp only at h
  cases hg : P.rgrad x e with
  | error err => rw [hg] at h; simp at h
  | ok g =>
    rw [hg] at h
    simp only at h
    cases hr : P.retr e (g.scale (currentLr s.lrate lr s.iteration)) with
    | error err => rw [hr] at h; simp at h
    | ok e' =>
      rw [hr] at h
      obtain ⟨C, hC, rfl⟩ := setEstimate_ok h
      exact ⟨g, e', C, rfl, hr, hC, rfl⟩

theorem rows_iff (X : NDArr) (xs : List NDArr) : X.rows = some xs ↔ RowsOf X xs := by
  constructor
  · intro h
    cases X with
    | real a =>
      cases a with
      | d2 n p X =>
        simp only [NDArr.rows, Option.some.injEq] at h
        subst h
        exact RowsOf.real n p X
      | _ => simp [NDArr.rows] at h
    | cplx a =>
      cases a with
      | d2 n p X =>
        simp only [NDArr.rows, Option.some.injEq] at h
        subst h
        exact RowsOf.cplx n p X
      | _ => simp [NDArr.rows] at h
  · intro h
    cases h <;> rfl

/-! ## C73: without an initial point -/

/-- `update` on an object without estimate logs an error, returns, and changes nothing else. -/
theorem C73_update (P : OnlineParams E V) (s : Online E) (h : s.estimate = none) (x : NDArr)
    (lr : String) :
    s.update P x lr = ({ s with errors := s.errors + 1 }, .ok ()) := by
  unfold Online.update
  rw [h]

/-- `fit` without initial point, exactly. With no `estimatetocov` it raises, with nothing logged
and the estimate gone. With one, it depends on what that function makes of `None`. -/
theorem C73_fit_exact (P : OnlineParams E V) (s : Online E) (X : NDArr) (lr : String) :
    (P.estimatetocov = none →
      s.fit P X none lr = ({ s with estimate := none }, .error .valueError)) ∧
    ∀ f, P.estimatetocov = some f →
      (∀ err, f none = .error err →
        s.fit P X none lr = ({ s with estimate := none }, .error err)) ∧
      (∀ C C', f none = .ok C → setCovariance C = .ok C' →
        s.fit P X none lr =
          ({ s with estimate := none, covariance := some C', errors := s.errors + 1 }, .ok ())) := by
  refine ⟨fun h => ?_, fun f h => ⟨fun err he => ?_, fun C C' hC hC' => ?_⟩⟩
  · simp only [Online.fit, Online.setEstimate, onlineCov, h]
  · simp only [Online.fit, Online.setEstimate, onlineCov, h, he, bind, Except.bind]
  · simp only [Online.fit, Online.setEstimate, onlineCov, h, hC, hC', bind, Except.bind]

/-- The claim holds for `fit` in so far as an `estimatetocov` which accepts `None` makes it log an
error and return. Missing: that the object is unchanged (its estimate is thrown away, its covariance
replaced), and all other cases, where `fit` raises. -/
theorem C73_fit_partial (P : OnlineParams E V) (s : Online E) (X : NDArr) (lr : String)
    (f : Option E → Py NDArr) (h : P.estimatetocov = some f) (C C' : NDArr) (hC : f none = .ok C)
    (hC' : setCovariance C = .ok C') :
    (s.fit P X none lr).2 = .ok () ∧ (s.fit P X none lr).1.errors = s.errors + 1 := by
  rw [((C73_fit_exact P s X lr).2 f h).2 C C' hC hC']
  exact ⟨rfl, rfl⟩

/-- C73 is false for `fit`: on the positive definite matrices it raises, logs nothing, and an
estimate obtained before is lost while its covariance stays. -/
theorem C73_violated {n : ℕ}
    (rgrad : NDArr → Matrix (Fin n) (Fin n) ℂ → Py (Matrix (Fin n) (Fin n) ℂ)) (X : NDArr)
    (lr : String) (s : Online (Matrix (Fin n) (Fin n) ℂ)) :
    s.fit (onlineHPD n rgrad none) X none lr =
      ({ s with estimate := none }, .error .valueError) :=
  (C73_fit_exact _ s X lr).1 rfl

/-! ## C71: the schedule -/

theorem isScaled_scale (t : ℝ) (u : Tangent V) : IsScaled t u (u.scale t) := by
  cases u with
  | arr u => exact .arr u
  | list l => exact .list l _ (by simp) fun i _ _ => by simp
  | tuple l => exact .tuple l _ (by simp) fun i _ _ => by simp

theorem loop_path (P : OnlineParams E V) (X : NDArr) (lr : String) (xs : List NDArr)
    (s s' : Online E) (e₀ : E) (he : s.estimate = some e₀)
    (h : s.loop P X lr xs = (s', .ok ())) :
    ∃ e : ℕ → E, e 0 = e₀ ∧
      IsOnlinePath P.retr P.rgrad (fun i => currentLr s.lrate lr (s.iteration + i)) xs e ∧
      s'.estimate = some (e xs.length) ∧ s'.iteration = s.iteration + xs.length ∧
      s'.lrate = s.lrate ∧ s'.errors = s.errors ∧
      (0 < xs.length → ∃ C, onlineCov P (some (e xs.length)) = .ok C ∧ s'.covariance = some C) ∧
      (xs.length = 0 → s'.covariance = s.covariance) := by
  induction xs generalizing s e₀ with
  | nil =>
    simp only [Online.loop, Prod.mk.injEq, and_true] at h
    subst h
    exact ⟨fun _ => e₀, rfl, fun i hi => absurd hi (Nat.not_lt_zero _), he, rfl, rfl, rfl,
      fun h => absurd h (lt_irrefl _), fun _ => rfl⟩
  | cons x xs ih =>
    unfold Online.loop at h
    rcases hu : s.update P x lr with ⟨s₁, o⟩
    rw [hu] at h
    cases o with
    | error err => simp at h
    | ok u =>
      obtain ⟨g, e', C, hg, hr, hC, rfl⟩ := update_ok he hu
      simp only at h
      have h' : Online.loop P X lr xs (⟨s.iteration + 1, some e', some C, s.lrate, s.errors⟩ :
          Online E) = (s', .ok ()) := by
        cases hm : P.monitor with
        | none => rw [hm] at h; exact h
        | some m =>
          rw [hm] at h
          simp only at h
          cases hme : m X e' with
          | error err => rw [hme] at h; simp at h
          | ok u => rw [hme] at h; exact h
      obtain ⟨e, h0, hp, h1, h2, h3, h4, h5, h6⟩ := ih _ e' rfl h'
      refine ⟨fun i => if i = 0 then e₀ else e (i - 1), rfl, ?_, ?_, ?_, h3, h4, ?_, ?_⟩
      · intro i hi
        cases i with
        | zero =>
          refine ⟨g, _, hg, isScaled_scale _ _, ?_⟩
          simp only [if_pos, add_zero, zero_add, one_ne_zero, if_false, Nat.sub_self, h0]
          exact hr
        | succ i =>
          obtain ⟨g', v, k1, k3, k2⟩ := hp i (by simpa using hi)
          refine ⟨g', v, ?_, ?_, ?_⟩
          · simpa using k1
          · have e1 : s.iteration + (i + 1) = s.iteration + 1 + i := by omega
            simp only [e1]
            exact k3
          · simp only [Nat.succ_ne_zero, if_false, Nat.add_sub_cancel]
            exact k2
      · simpa using h1
      · rw [h2]; simp only [List.length_cons]; omega
      · intro _
        by_cases hl : 0 < xs.length
        · simpa using h5 hl
        · have hl : xs.length = 0 := by omega
          refine ⟨C, ?_, h6 hl⟩
          simpa [hl, h0] using hC
      · intro hl; simp at hl

/-- What `fit` does, from any state, whenever it returns: the `i`-th sample (from 0) is used with
step `lrate_ / (c + i + 1)`, or `lrate_` for another `lr_update`, where `c` is the number of samples
seen by earlier fits; each sample is used once, in order. -/
theorem C71_general (P : OnlineParams E V) (s s' : Online E) (X : NDArr) (e₀ : E) (lr : String)
    (h : s.fit P X (some e₀) lr = (s', .ok ())) :
    ∃ (xs : List NDArr) (e : ℕ → E), RowsOf X xs ∧ e 0 = e₀ ∧
      IsOnlinePath P.retr P.rgrad (fun i => if lr = "inverse iteration"
        then s.lrate / ((s.iteration + i : ℕ) + 1) else s.lrate) xs e ∧
      s'.estimate = some (e xs.length) ∧ s'.iteration = s.iteration + xs.length ∧
      s'.lrate = s.lrate ∧ s'.errors = s.errors := by
  unfold Online.fit at h
  rcases hu : s.setEstimate P (some e₀) with ⟨s₁, o⟩
  rw [hu] at h
  cases o with
  | error err => simp at h
  | ok u =>
    obtain ⟨C, hC, rfl⟩ := setEstimate_ok hu
    simp only at h
    cases hx : X.rows with
    | none => rw [hx] at h; simp at h
    | some xs =>
      rw [hx] at h
      obtain ⟨e, h0, hp, h1, h2, h3, h4, -, -⟩ := loop_path P X lr xs _ s' e₀ rfl h
      refine ⟨xs, e, (rows_iff X xs).1 hx, h0, ?_, h1, h2, h3, h4⟩
      intro i hi
      exact hp i hi

/-- The claim: on an object which has seen no sample in a fit. -/
theorem C71_schedule (P : OnlineParams E V) (s s' : Online E) (hs : s.iteration = 0) (X : NDArr)
    (e₀ : E) (lr : String) (h : s.fit P X (some e₀) lr = (s', .ok ())) :
    ∃ (xs : List NDArr) (e : ℕ → E), RowsOf X xs ∧ e 0 = e₀ ∧
      IsOnlinePath P.retr P.rgrad (fun i => if lr = "inverse iteration"
        then s.lrate / ((i : ℝ) + 1) else s.lrate) xs e ∧
      s'.estimate = some (e xs.length) := by
  obtain ⟨xs, e, h1, h2, h3, h4, -⟩ := C71_general P s s' X e₀ lr h
  refine ⟨xs, e, h1, h2, ?_, h4⟩
  simpa only [hs, zero_add] using h3

/-! ## C70: estimates stay on the manifold -/

section
variable {P : OnlineParams E V} {good : E → Prop} {cov : E → NDArr}
  (hcov : ∀ e, good e → onlineCov P (some e) = .ok (cov e))
  (hretr : ∀ x e g t e', good e → P.rgrad x e = .ok g → P.retr e (g.scale t) = .ok e' → good e')

include hcov in
omit [SMul ℝ V] in
theorem holds_setEstimate (s : Online E) {e : E} (he : good e) :
    Holds good cov (s.setEstimate P (some e)).1 ∧ (s.setEstimate P (some e)).2 = .ok () := by
  rw [setEstimate_of_ok s (hcov e he)]
  exact ⟨⟨e, rfl, he, rfl⟩, rfl⟩

include hcov hretr in
theorem holds_update {s : Online E} (hs : Holds good cov s) (x : NDArr) (lr : String) :
    Holds good cov (s.update P x lr).1 := by
  obtain ⟨e, he, hg, hc⟩ := hs
  unfold Online.update
  rw [he]
  simp only
  cases h1 : P.rgrad x e with
  | error err => exact ⟨e, he, hg, hc⟩
  | ok g =>
    simp only
    cases h2 : P.retr e (g.scale (currentLr s.lrate lr s.iteration)) with
    | error err => exact ⟨e, he, hg, hc⟩
    | ok e' => exact (holds_setEstimate hcov s (hretr x e g _ e' hg h1 h2)).1

include hcov hretr in
theorem holds_loop (X : NDArr) (lr : String) (xs : List NDArr) {s : Online E}
    (hs : Holds good cov s) : Holds good cov (s.loop P X lr xs).1 := by
  induction xs generalizing s with
  | nil => exact hs
  | cons x xs ih =>
    have hu := holds_update hcov hretr hs x lr
    unfold Online.loop
    rcases h : s.update P x lr with ⟨s', o⟩
    rw [h] at hu
    cases o with
    | error err => exact hu
    | ok u =>
      obtain ⟨e, he, hg, hc⟩ := hu
      have hn : Holds good cov { s' with iteration := s'.iteration + 1 } := ⟨e, he, hg, hc⟩
      simp only
      split
      · split
        · exact ⟨e, he, hg, hc⟩
        · exact ih hn
      · exact ih hn

include hcov hretr in
theorem holds_run {s : Online E} (hs : Holds good cov s) {op : OnlineOp E}
    (hop : op.Admissible good) : Holds good cov (s.run P op).1 := by
  cases op with
  | setEstimate e =>
    obtain ⟨x, rfl, hx⟩ := hop
    exact (holds_setEstimate hcov s hx).1
  | update x lr => exact holds_update hcov hretr hs x lr
  | setLrate r =>
    obtain ⟨e, he, hg, hc⟩ := hs
    exact ⟨e, he, hg, hc⟩
  | fit X init lr =>
    obtain ⟨x, rfl, hx⟩ := hop
    obtain ⟨h1, h2⟩ := holds_setEstimate hcov s hx
    simp only [Online.run, Online.fit]
    rcases h : s.setEstimate P (some x) with ⟨s', o⟩
    rw [h] at h1 h2
    subst h2
    obtain ⟨e, he, hg, hc⟩ := h1
    simp only
    rw [he]
    simp only
    cases X.rows with
    | none => exact ⟨e, he, hg, hc⟩
    | some xs => exact holds_loop hcov hretr X lr xs ⟨e, he, hg, hc⟩

include hcov hretr in
/-- Any set of estimates which the retraction does not leave is never left, and `covariance_` is
always the covariance of the estimate: for any sequence of calls, whatever they raise. -/
theorem C70_general (s : Online E) (hs : Holds good cov s) (ops : List (OnlineOp E))
    (hops : ∀ op ∈ ops, op.Admissible good) : Holds good cov (s.runAll P ops) := by
  unfold Online.runAll
  induction ops generalizing s with
  | nil => exact hs
  | cons op ops ih =>
    exact ih _ (holds_run hcov hretr hs (hops op (by simp))) fun o ho => hops o (by simp [ho])

end

theorem onlineHPD_cov {n : ℕ} (hn : 0 < n)
    (rgrad : NDArr → Matrix (Fin n) (Fin n) ℂ → Py (Matrix (Fin n) (Fin n) ℂ))
    (monitor : Option (NDArr → Matrix (Fin n) (Fin n) ℂ → Py Unit)) (e : Matrix (Fin n) (Fin n) ℂ) :
    onlineCov (onlineHPD n rgrad monitor) (some e) = .ok (.cplx (.d2 n n e)) :=
  setCovariance_complex n hn e

theorem onlineHPD_retr {n : ℕ}
    (rgrad : NDArr → Matrix (Fin n) (Fin n) ℂ → Py (Matrix (Fin n) (Fin n) ℂ))
    (monitor : Option (NDArr → Matrix (Fin n) (Fin n) ℂ → Py Unit))
    {e : Matrix (Fin n) (Fin n) ℂ} (he : e.PosDef) (u : Matrix (Fin n) (Fin n) ℂ) :
    (onlineHPD n rgrad monitor).retr e (.arr u) =
      .ok (HPD.retr (fun _ : Fin 1 => e) (fun _ => u) 0) := by
  simp only [onlineHPD]
  rw [if_neg (isUnit_iff_ne_zero.1 ((isUnit_iff_isUnit_det _).1 he.isUnit))]

/-- The claim, on `HermitianPositiveDefinite(n)`, for every gradient which is Hermitian where it is
defined, every learning rate, every stream of samples, and every mix of calls. -/
theorem C70_hpd {n : ℕ} (hn : 0 < n)
    (rgrad : NDArr → Matrix (Fin n) (Fin n) ℂ → Py (Matrix (Fin n) (Fin n) ℂ))
    (hg : ∀ x e g, e.PosDef → rgrad x e = .ok g → g.IsHermitian)
    (monitor : Option (NDArr → Matrix (Fin n) (Fin n) ℂ → Py Unit))
    (s : Online (Matrix (Fin n) (Fin n) ℂ)) (e₀ : Matrix (Fin n) (Fin n) ℂ) (h₀ : e₀.PosDef)
    (hs : s.estimate = some e₀) (hc : s.covariance = some (.cplx (.d2 n n e₀)))
    (ops : List (OnlineOp (Matrix (Fin n) (Fin n) ℂ)))
    (hops : ∀ op ∈ ops, op.Admissible Matrix.PosDef) :
    ∃ e, (s.runAll (onlineHPD n rgrad monitor) ops).estimate = some e ∧ e.PosDef ∧
      (s.runAll (onlineHPD n rgrad monitor) ops).covariance = some (.cplx (.d2 n n e)) := by
  refine C70_general (good := Matrix.PosDef) (cov := fun e => .cplx (.d2 n n e))
    (fun e _ => onlineHPD_cov hn rgrad monitor e) (fun x e g t e' he h1 h2 => ?_) s
    ⟨e₀, hs, h₀, hc⟩ ops hops
  simp only [onlineHPD, bind, Except.bind, pure, Except.pure] at h1
  cases hr : rgrad x e with
  | error err => rw [hr] at h1; simp at h1
  | ok u =>
    rw [hr] at h1
    simp only [Except.ok.injEq] at h1
    subst h1
    rw [Tangent.scale, onlineHPD_retr rgrad monitor he] at h2
    simp only [Except.ok.injEq] at h2
    subst h2
    exact C52_retr_posDef _ _ (fun _ => he) (fun _ => isHermitian_real_smul (hg x e u he hr) t) 0

/-- With a gradient defined on all positive definite matrices, `fit` and `update` do return. -/
theorem C70_hpd_returns {n : ℕ} (hn : 0 < n)
    (rgrad : NDArr → Matrix (Fin n) (Fin n) ℂ → Py (Matrix (Fin n) (Fin n) ℂ))
    (hg : ∀ x e, e.PosDef → ∃ g, rgrad x e = .ok g ∧ g.IsHermitian)
    (s : Online (Matrix (Fin n) (Fin n) ℂ)) (e₀ : Matrix (Fin n) (Fin n) ℂ) (h₀ : e₀.PosDef)
    (X : NDArr) (xs : List NDArr) (hX : RowsOf X xs) (lr : String) :
    (s.fit (onlineHPD n rgrad none) X (some e₀) lr).2 = .ok () := by
  have hup : ∀ (s : Online (Matrix (Fin n) (Fin n) ℂ)) (e : Matrix (Fin n) (Fin n) ℂ), e.PosDef →
      s.estimate = some e → ∀ x, ∃ s', s.update (onlineHPD n rgrad none) x lr = (s', .ok ()) ∧
        ∃ e', s'.estimate = some e' ∧ e'.PosDef := fun s e he hs x => by
    obtain ⟨g, h1, h2⟩ := hg x e he
    have hp := C52_retr_posDef (fun _ : Fin 1 => e)
      (fun _ => currentLr s.lrate lr s.iteration • g) (fun _ => he)
      (fun _ => isHermitian_real_smul h2 _) 0
    refine ⟨⟨s.iteration, some (HPD.retr (fun _ : Fin 1 => e)
      (fun _ => currentLr s.lrate lr s.iteration • g) 0), some (.cplx (.d2 n n (HPD.retr (fun _ : Fin 1 => e)
      (fun _ => currentLr s.lrate lr s.iteration • g) 0))), s.lrate, s.errors⟩, ?_, _, rfl, hp⟩
    unfold Online.update
    rw [hs]
    have hr : (onlineHPD n rgrad none).rgrad x e = .ok (.arr g) := by
      simp only [onlineHPD, h1, bind, Except.bind, pure, Except.pure]
    simp only [hr, Tangent.scale, onlineHPD_retr rgrad none he]
    exact setEstimate_of_ok _ (onlineHPD_cov hn rgrad none _)
  have hloop : ∀ (xs : List NDArr) (s : Online (Matrix (Fin n) (Fin n) ℂ))
      (e : Matrix (Fin n) (Fin n) ℂ), e.PosDef → s.estimate = some e →
      (s.loop (onlineHPD n rgrad none) X lr xs).2 = .ok () := by
    intro xs
    induction xs with
    | nil => intro s e _ _; rfl
    | cons x xs ih =>
      intro s e he hs
      obtain ⟨s', h1, e', h2, h3⟩ := hup s e he hs x
      unfold Online.loop
      rw [h1]
      exact ih _ e' h3 h2
  unfold Online.fit
  rw [setEstimate_of_ok s (onlineHPD_cov hn rgrad none e₀)]
  simp only [(rows_iff X xs).2 hX]
  exact hloop xs _ e₀ h₀ rfl

/-- The hypotheses of `C70_hpd` and `C70_hpd_returns` are met by a gradient which depends on the
sample and on the estimate, after `set_estimate` on a new object. -/
example (lrate : ℝ) :
    let rgrad : NDArr → Matrix (Fin 2) (Fin 2) ℂ → Py (Matrix (Fin 2) (Fin 2) ℂ) := fun x e =>
      match x with
      | .cplx (.d2 1 2 X) => .ok (Xᵀ * Xᵀᴴ - e)
      | _ => .ok (-e)
    let s := ((Online.new lrate).setEstimate (onlineHPD 2 rgrad none) (some 1)).1
    (∀ x e, e.PosDef → ∃ g, rgrad x e = .ok g ∧ g.IsHermitian) ∧
    s.estimate = some 1 ∧ s.covariance = some (.cplx (.d2 2 2 1)) ∧
    (1 : Matrix (Fin 2) (Fin 2) ℂ).PosDef := by
  intro rgrad s
  have hs : s = ⟨0, some 1, some (.cplx (.d2 2 2 1)), lrate, 0⟩ := by
    change ((Online.new lrate).setEstimate (onlineHPD 2 rgrad none) (some 1)).1 = _
    rw [setEstimate_of_ok _ (onlineHPD_cov (by norm_num) rgrad none 1)]
    rfl
  refine ⟨fun x e he => ?_, by rw [hs], by rw [hs], PosDef.one⟩
  have h1 : (-e).IsHermitian := he.isHermitian.neg
  by_cases hx : ∃ X : Matrix (Fin 1) (Fin 2) ℂ, x = .cplx (.d2 1 2 X)
  · obtain ⟨X, rfl⟩ := hx
    exact ⟨_, rfl, (isHermitian_mul_conjTranspose_self _).sub he.isHermitian⟩
  · refine ⟨-e, ?_, h1⟩
    change (match x with
      | .cplx (.d2 1 2 X) => (.ok (Xᵀ * Xᵀᴴ - e) : Py _)
      | _ => .ok (-e)) = _
    split
    · rename_i X
      exact absurd ⟨X, rfl⟩ hx
    · rfl

/-- The same on the manifold of the Kronecker-structured matrices: the first factor keeps
determinant 1, both stay positive definite, and `covariance_` is their Kronecker product. -/
theorem C70_kron {a b : ℕ} (ha : 0 < a) (hb : 0 < b)
    (rgrad : NDArr → Matrix (Fin a) (Fin a) ℂ × Matrix (Fin b) (Fin b) ℂ →
      Py (Matrix (Fin a) (Fin a) ℂ × Matrix (Fin b) (Fin b) ℂ))
    (hg : ∀ x e g, e.1.PosDef → e.2.PosDef → rgrad x e = .ok g →
      g.1.IsHermitian ∧ g.2.IsHermitian)
    (monitor : Option (NDArr → Matrix (Fin a) (Fin a) ℂ × Matrix (Fin b) (Fin b) ℂ → Py Unit))
    (s : Online (Matrix (Fin a) (Fin a) ℂ × Matrix (Fin b) (Fin b) ℂ))
    (A₀ : Matrix (Fin a) (Fin a) ℂ) (B₀ : Matrix (Fin b) (Fin b) ℂ) (hA : A₀.PosDef)
    (hdet : A₀.det = 1) (hB : B₀.PosDef) (hs : s.estimate = some (A₀, B₀))
    (hc : s.covariance = some (.cplx (.d2 (a * b) (a * b) (kron A₀ B₀))))
    (ops : List (OnlineOp (Matrix (Fin a) (Fin a) ℂ × Matrix (Fin b) (Fin b) ℂ)))
    (hops : ∀ op ∈ ops, op.Admissible fun e => e.1.PosDef ∧ e.1.det = 1 ∧ e.2.PosDef) :
    ∃ A B, (s.runAll (onlineKron a b rgrad monitor) ops).estimate = some (A, B) ∧ A.PosDef ∧
      A.det = 1 ∧ B.PosDef ∧ (s.runAll (onlineKron a b rgrad monitor) ops).covariance =
        some (.cplx (.d2 (a * b) (a * b) (kron A B))) := by
  have := C70_general (P := onlineKron a b rgrad monitor)
    (good := fun e => e.1.PosDef ∧ e.1.det = 1 ∧ e.2.PosDef)
    (cov := fun e => .cplx (.d2 (a * b) (a * b) (kron e.1 e.2)))
    (fun e _ => ?_) (fun x e g t e' he h1 h2 => ?_) s
    ⟨(A₀, B₀), hs, ⟨hA, hdet, hB⟩, hc⟩ ops hops
  · obtain ⟨⟨A, B⟩, h1, ⟨h2, h3, h4⟩, h5⟩ := this
    exact ⟨A, B, h1, h2, h3, h4, h5⟩
  · simp only [onlineCov, onlineKron, bind, Except.bind, npKron_eq]
    exact setCovariance_complex _ (Nat.mul_pos ha hb) _
  · simp only [onlineKron, bind, Except.bind, pure, Except.pure] at h1
    cases hr : rgrad x e with
    | error err => rw [hr] at h1; simp at h1
    | ok u =>
      rw [hr] at h1
      simp only [Except.ok.injEq] at h1
      subst h1
      have n1 := isUnit_iff_ne_zero.1 ((isUnit_iff_isUnit_det _).1 he.1.isUnit)
      have n2 := isUnit_iff_ne_zero.1 ((isUnit_iff_isUnit_det _).1 he.2.2.isUnit)
      obtain ⟨k1, k2⟩ := hg x e u he.1 he.2.2 hr
      have h2' : (Except.ok (SHPD.retr (fun _ : Fin 1 => e.1) (fun _ => t • u.1) 0,
          HPD.retr (fun _ : Fin 1 => e.2) (fun _ => t • u.2) 0) : Py _) = .ok e' := by
        rw [← h2]
        simp only [Tangent.scale, List.map, onlineKron]
        rw [dif_pos ⟨rfl, rfl⟩, if_neg (by push Not; exact ⟨n1, n2⟩)]
        rfl
      simp only [Except.ok.injEq] at h2'
      subst h2'
      obtain ⟨r1, r2⟩ := C56_retr (fun _ : Fin 1 => e.1) (fun _ => t • u.1) (fun _ => he.1)
        (fun _ => isHermitian_real_smul k1 t) 0
      exact ⟨r1, r2, C52_retr_posDef (fun _ : Fin 1 => e.2) (fun _ => t • u.2) (fun _ => he.2.2)
        (fun _ => isHermitian_real_smul k2 t) 0⟩

/-! ## C72: history -/

theorem update_congr (P : OnlineParams E V) {s t : Online E} (he : s.estimate = t.estimate)
    (x : NDArr) (lr : String)
    (hl : currentLr s.lrate lr s.iteration = currentLr t.lrate lr t.iteration) :
    (s.update P x lr).2 = (t.update P x lr).2 ∧
    (s.update P x lr).1.estimate = (t.update P x lr).1.estimate ∧
    (s.update P x lr).1.lrate = s.lrate ∧ (s.update P x lr).1.iteration = s.iteration ∧
    (t.update P x lr).1.lrate = t.lrate ∧ (t.update P x lr).1.iteration = t.iteration ∧
    (s.covariance = t.covariance →
      (s.update P x lr).1.covariance = (t.update P x lr).1.covariance) := by
  unfold Online.update
  rw [he, hl]
  cases t.estimate with
  | none => exact ⟨rfl, rfl, rfl, rfl, rfl, rfl, id⟩
  | some e =>
    simp only
    cases P.rgrad x e with
    | error err => exact ⟨rfl, he, rfl, rfl, rfl, rfl, id⟩
    | ok g =>
      simp only
      cases P.retr e (g.scale (currentLr t.lrate lr t.iteration)) with
      | error err => exact ⟨rfl, he, rfl, rfl, rfl, rfl, id⟩
      | ok e' =>
        simp only [Online.setEstimate]
        cases onlineCov P (some e') with
        | error err => exact ⟨rfl, rfl, rfl, rfl, rfl, rfl, id⟩
        | ok C => exact ⟨rfl, rfl, rfl, rfl, rfl, rfl, fun _ => rfl⟩

theorem loop_congr (P : OnlineParams E V) (X : NDArr) (lr : String) (xs : List NDArr)
    {s t : Online E} (he : s.estimate = t.estimate)
    (hl : ∀ k, currentLr s.lrate lr (s.iteration + k) = currentLr t.lrate lr (t.iteration + k))
    (hc : s.covariance = t.covariance) :
    (s.loop P X lr xs).2 = (t.loop P X lr xs).2 ∧
    (s.loop P X lr xs).1.estimate = (t.loop P X lr xs).1.estimate ∧
    (s.loop P X lr xs).1.covariance = (t.loop P X lr xs).1.covariance := by
  induction xs generalizing s t with
  | nil => exact ⟨rfl, he, hc⟩
  | cons x xs ih =>
    obtain ⟨h1, h2, h3, h4, h5, h6, h7⟩ := update_congr P he x lr (hl 0)
    have h7 := h7 hc
    unfold Online.loop
    rcases hs : s.update P x lr with ⟨s', o⟩
    rcases ht : t.update P x lr with ⟨t', o'⟩
    rw [hs] at h1 h2 h3 h4 h7
    rw [ht] at h1 h2 h5 h6 h7
    simp only at h1 h2 h3 h4 h5 h6 h7
    subst h1
    cases o with
    | error err => exact ⟨rfl, h2, h7⟩
    | ok u =>
      have hn := ih (s := { s' with iteration := s'.iteration + 1 })
        (t := { t' with iteration := t'.iteration + 1 }) h2 (fun k => by
          have := hl (k + 1)
          simp only [h3, h4, h5, h6]
          rw [show s.iteration + 1 + k = s.iteration + (k + 1) by omega,
            show t.iteration + 1 + k = t.iteration + (k + 1) by omega]
          exact this) h7
      simp only [h2] at hn ⊢
      cases hm : P.monitor with
      | none => exact hn
      | some m =>
        cases hte : t'.estimate with
        | none => rw [hte] at hn; exact hn
        | some e =>
          rw [hte] at hn
          simp only
          cases m X e with
          | error err => exact ⟨rfl, hte ▸ h2, h7⟩
          | ok u => exact hn

/-- `fit` depends on the past only through `lrate_` and, for `'inverse iteration'`, through the
number of samples seen by earlier fits: two objects which agree in these get the same outcome, the
same estimate, and (if it returns) the same covariance. -/
theorem C72_exact (P : OnlineParams E V) (s t : Online E) (X : NDArr) (init : Option E)
    (lr : String) (hr : s.lrate = t.lrate)
    (hi : lr = "inverse iteration" → s.iteration = t.iteration) :
    (s.fit P X init lr).2 = (t.fit P X init lr).2 ∧
    (s.fit P X init lr).1.estimate = (t.fit P X init lr).1.estimate ∧
    ((s.fit P X init lr).2 = .ok () →
      (s.fit P X init lr).1.covariance = (t.fit P X init lr).1.covariance) := by
  have hl : ∀ k, currentLr s.lrate lr (s.iteration + k) = currentLr t.lrate lr (t.iteration + k) :=
    fun k => by
      unfold currentLr
      rw [hr]
      by_cases h : lr = "inverse iteration"
      · rw [hi h]
      · rw [if_neg h, if_neg h]
  unfold Online.fit Online.setEstimate
  cases onlineCov P init with
  | error err => exact ⟨rfl, rfl, fun h => by simp at h⟩
  | ok C =>
    simp only
    cases init with
    | none => exact ⟨rfl, rfl, fun _ => rfl⟩
    | some e =>
      simp only
      cases X.rows with
      | none => exact ⟨rfl, rfl, fun h => by simp at h⟩
      | some xs =>
        obtain ⟨h1, h2, h3⟩ := loop_congr P X lr xs
          (s := { s with estimate := some e, covariance := some C })
          (t := { t with estimate := some e, covariance := some C }) rfl hl rfl
        exact ⟨h1, h2, fun _ => h3⟩

/-- The claim for every `lr_update` other than the default. Missing for the full claim: the default
`'inverse iteration'`, for which it fails. -/
theorem C72_partial (P : OnlineParams E V) (s : Online E) (X : NDArr) (init : Option E)
    (lr : String) (h : lr ≠ "inverse iteration") :
    (s.fit P X init lr).2 = ((Online.new s.lrate).fit P X init lr).2 ∧
    (s.fit P X init lr).1.estimate = ((Online.new s.lrate).fit P X init lr).1.estimate ∧
    ((s.fit P X init lr).2 = .ok () →
      (s.fit P X init lr).1.covariance = ((Online.new s.lrate).fit P X init lr).1.covariance) :=
  C72_exact P s _ X init lr rfl fun h' => absurd h' h

/-- The estimator on `1 × 1` matrices with the gradient 1 everywhere. -/
noncomputable def unitOnline : OnlineParams (Matrix (Fin 1) (Fin 1) ℂ) (Matrix (Fin 1) (Fin 1) ℂ) :=
  onlineHPD 1 (fun _ _ => .ok 1) none

theorem unitOnline_update (s : Online (Matrix (Fin 1) (Fin 1) ℂ)) (c : ℝ) (hc : 0 < c)
    (hs : s.estimate = some (c • 1)) (x : NDArr) (lr : String) :
    s.update unitOnline x lr =
      (⟨s.iteration,
        some ((c + currentLr s.lrate lr s.iteration + currentLr s.lrate lr s.iteration ^ 2 / (2 * c)) • 1),
        some (.cplx (.d2 1 1
          ((c + currentLr s.lrate lr s.iteration + currentLr s.lrate lr s.iteration ^ 2 / (2 * c)) • 1))),
        s.lrate, s.errors⟩, .ok ()) := by
  have hp : (c • (1 : Matrix (Fin 1) (Fin 1) ℂ)).PosDef := PosDef.one.smul hc
  generalize hlr : currentLr s.lrate lr s.iteration = l
  have hr : unitOnline.retr (c • 1) (.arr (l • 1)) = .ok ((c + l + l ^ 2 / (2 * c)) • 1) := by
    refine (onlineHPD_retr _ none hp (l • 1)).trans (congrArg _ ?_)
    ext i j
    fin_cases i; fin_cases j
    have hi : (c • (1 : Matrix (Fin 1) (Fin 1) ℂ))⁻¹ = c⁻¹ • 1 := by
      apply inv_eq_left_inv
      ext i j
      fin_cases i; fin_cases j
      simp [hc.ne']
    simp only [HPD.retr, hi]
    simp
    ring
  unfold Online.update
  rw [hs]
  have hg : unitOnline.rgrad x (c • 1) = .ok (.arr 1) := rfl
  simp only [hg, Tangent.scale, hlr, hr]
  exact setEstimate_of_ok _ (onlineHPD_cov one_pos _ _ _)

theorem unitOnline_set (s : Online (Matrix (Fin 1) (Fin 1) ℂ)) :
    s.setEstimate unitOnline (some 1) =
      (⟨s.iteration, some 1, some (.cplx (.d2 1 1 1)), s.lrate, s.errors⟩, .ok ()) :=
  setEstimate_of_ok (P := unitOnline) s (onlineHPD_cov one_pos _ _ 1)

theorem unitOnline_fit (s : Online (Matrix (Fin 1) (Fin 1) ℂ)) (x : Matrix (Fin 1) (Fin 1) ℂ) :
    s.fit unitOnline (.cplx (.d2 1 1 x)) (some 1) "inverse iteration" =
      (⟨s.iteration + 1,
        some ((1 + s.lrate / (s.iteration + 1) + (s.lrate / (s.iteration + 1)) ^ 2 / 2) • 1),
        some (.cplx (.d2 1 1
          ((1 + s.lrate / (s.iteration + 1) + (s.lrate / (s.iteration + 1)) ^ 2 / 2) • 1))),
        s.lrate, s.errors⟩, .ok ()) := by
  unfold Online.fit
  rw [unitOnline_set]
  simp only [NDArr.rows, List.ofFn_succ, List.ofFn_zero, Online.loop]
  rw [unitOnline_update _ 1 one_pos (by simp)]
  have hm : unitOnline.monitor = none := rfl
  simp only [hm, currentLr, if_true, mul_one]

/-- C72 is false: the same call, made twice on an object with `lrate = 1`, gives `5/2` and then
`13/8`. -/
theorem C72_violated (x : Matrix (Fin 1) (Fin 1) ℂ) :
    let s₁ := ((Online.new 1).fit unitOnline (.cplx (.d2 1 1 x)) (some 1) "inverse iteration").1
    let s₂ := (s₁.fit unitOnline (.cplx (.d2 1 1 x)) (some 1) "inverse iteration").1
    s₁.estimate = some ((5 / 2 : ℝ) • 1) ∧ s₂.estimate = some ((13 / 8 : ℝ) • 1) := by
  simp only [unitOnline_fit, Online.new]
  norm_num

/-- The hypothesis of C71 is met: an object that has already seen a sample is fitted again. -/
example (x : Matrix (Fin 1) (Fin 1) ℂ) :
    ∃ (s s' : Online (Matrix (Fin 1) (Fin 1) ℂ)), s.iteration = 1 ∧
      s.fit unitOnline (.cplx (.d2 1 1 x)) (some 1) "inverse iteration" = (s', .ok ()) ∧
      s'.estimate = some ((13 / 8 : ℝ) • 1) := by
  refine ⟨((Online.new 1).fit unitOnline (.cplx (.d2 1 1 x)) (some 1) "inverse iteration").1, _,
    ?_, unitOnline_fit _ x, ?_⟩
  · rw [unitOnline_fit]; rfl
  · simp only [unitOnline_fit, Online.new]
    norm_num

/-! ## C96: sample by sample -/

/-- Feeding the samples one by one to `update` gives the same estimate and covariance as `fit` with
the same constant step. Missing for the full claim: `'inverse iteration'`, where `update` does not
count. -/
theorem C96_partial (P : OnlineParams E V) (hm : P.monitor = none) (s : Online E) (X : NDArr)
    (xs : List NDArr) (hX : RowsOf X xs) (e₀ : E) (lr : String) (h : lr ≠ "inverse iteration")
    (s' : Online E) (hf : s.fit P X (some e₀) lr = (s', .ok ())) :
    (s.runAll P (.setEstimate (some e₀) :: xs.map fun x => .update x lr)).estimate = s'.estimate ∧
    (s.runAll P (.setEstimate (some e₀) :: xs.map fun x => .update x lr)).covariance =
      s'.covariance := by
  have hloop : ∀ (xs : List NDArr) (s t : Online E), s.estimate = t.estimate →
      s.covariance = t.covariance → s.lrate = t.lrate →
      (t.loop P X lr xs).2 = .ok () →
      (s.runAll P (xs.map fun x => .update x lr)).estimate = (t.loop P X lr xs).1.estimate ∧
      (s.runAll P (xs.map fun x => .update x lr)).covariance =
        (t.loop P X lr xs).1.covariance := by
    intro xs
    induction xs with
    | nil => intro s t he hc _ _; exact ⟨he, hc⟩
    | cons x xs ih =>
      intro s t he hc hl hok
      obtain ⟨h1, h2, h3, h4, h5, h6, h7⟩ := update_congr P he x lr
        (by simp only [currentLr, if_neg h, hl])
      have h7 := h7 hc
      unfold Online.loop at hok ⊢
      rcases ht : t.update P x lr with ⟨t', o'⟩
      rw [ht] at hok h2 h5 h7
      cases o' with
      | error err => simp at hok
      | ok u =>
        simp only [hm] at hok ⊢
        exact ih (s.update P x lr).1 { t' with iteration := t'.iteration + 1 } h2 h7
          (by rw [h3]; exact hl.trans h5.symm) hok
  unfold Online.fit at hf
  rcases hs : s.setEstimate P (some e₀) with ⟨s₁, o⟩
  rw [hs] at hf
  cases o with
  | error err => simp at hf
  | ok u =>
    obtain ⟨C, hC, rfl⟩ := setEstimate_ok hs
    simp only [(rows_iff X xs).2 hX] at hf
    have := hloop xs { s with estimate := some e₀, covariance := some C }
      { s with estimate := some e₀, covariance := some C } rfl rfl rfl (by rw [hf])
    rw [hf] at this
    have e : s.runAll P (.setEstimate (some e₀) :: xs.map fun x => .update x lr) =
        Online.runAll P { s with estimate := some e₀, covariance := some C }
          (xs.map fun x => .update x lr) := by
      simp only [Online.runAll, List.foldl_cons, Online.run, hs]
    rw [e]
    exact this

/-- `update` never counts: whatever the number of samples it has seen, the step stays
`lrate_ / (c + 1)`, where `c` counts the samples of the fits. -/
theorem C96_no_decay (P : OnlineParams E V) (s : Online E) (xs : List (NDArr × String)) :
    (s.runAll P (xs.map fun x => .update x.1 x.2)).iteration = s.iteration := by
  induction xs generalizing s with
  | nil => rfl
  | cons x xs ih =>
    have h := (update_congr P (s := s) (t := s) rfl x.1 x.2 rfl).2.2.2.1
    exact (ih (s.update P x.1 x.2).1).trans h

/-- C96 is false: two samples lead from 1 to `61/20` when given to `fit`, and to `37/10` when given
to `update` one by one. -/
theorem C96_violated (X : Matrix (Fin 2) (Fin 1) ℂ) :
    ∃ x y, RowsOf (.cplx (.d2 2 1 X)) [x, y] ∧
      (((Online.new 1).fit unitOnline (.cplx (.d2 2 1 X)) (some 1)
        "inverse iteration").1).estimate = some ((61 / 20 : ℝ) • 1) ∧
      ((Online.new 1).runAll unitOnline [.setEstimate (some 1), .update x "inverse iteration",
        .update y "inverse iteration"]).estimate = some ((37 / 10 : ℝ) • 1) := by
  have hm : unitOnline.monitor = none := rfl
  refine ⟨_, _, RowsOf.cplx 2 1 X, ?_, ?_⟩
  · unfold Online.fit
    rw [unitOnline_set]
    simp only [NDArr.rows, List.ofFn_succ, List.ofFn_zero, Online.loop]
    rw [unitOnline_update _ 1 one_pos (by simp)]
    simp only [hm, currentLr, if_true]
    rw [unitOnline_update _ (5 / 2) (by norm_num) (by simp only [Online.new]; norm_num)]
    simp only [currentLr, if_true, Online.new]
    norm_num
  · simp only [Online.runAll, List.foldl_cons, List.foldl_nil, Online.run]
    rw [unitOnline_set]
    simp only [Online.new]
    rw [unitOnline_update ⟨0, some 1, some (.cplx (.d2 1 1 1)), 1, 0⟩ 1 one_pos (by simp),
      unitOnline_update _ (5 / 2) (by norm_num) (by simp only [currentLr]; norm_num)]
    simp only [currentLr, if_true]
    norm_num

/-! ## C95: the direction of a step -/

/-- One update with learning rate `t` along the Riemannian gradient of a cost changes that cost, to
first order in `t`, by `t` times the squared norm of the gradient: the step goes up. -/
theorem C95_exact {n : ℕ} (f : (Fin 1 → Matrix (Fin n) (Fin n) ℂ) → ℝ)
    (g : (Fin 1 → Matrix (Fin n) (Fin n) ℂ) → Fin 1 → Matrix (Fin n) (Fin n) ℂ)
    (hf : IsEGradHPD f g) (e : Matrix (Fin n) (Fin n) ℂ) (he : e.PosDef) :
    HasDerivAt (fun t : ℝ => f (HPD.retr (fun _ => e) (t • HPD.egrad2rgrad (fun _ => e) (g fun _ => e))))
      (HPD.inner (fun _ : Fin 1 => e) (HPD.egrad2rgrad (fun _ => e) (g fun _ => e))
        (HPD.egrad2rgrad (fun _ => e) (g fun _ => e))) 0 := by
  obtain ⟨h0, h1⟩ := C86_retr_first_order (fun _ : Fin 1 => e)
    (HPD.egrad2rgrad (fun _ => e) (g fun _ => e))
  have hh : ∀ i, (HPD.egrad2rgrad (fun _ : Fin 1 => e) (g fun _ => e) i).IsHermitian :=
    (C54_gradient (fun _ => e) (g fun _ => e) 0 (fun _ => he) fun _ => isHermitian_zero).1
  have h2 := hf (fun t : ℝ => HPD.retr (fun _ => e) (t • HPD.egrad2rgrad (fun _ => e) (g fun _ => e)))
    _ 0 (fun t => C52_retr_posDef _ _ (fun _ => he) fun i => isHermitian_real_smul (hh i) t) h1
  refine h2.congr_deriv ?_
  rw [h0, (C54_gradient (fun _ : Fin 1 => e) (g fun _ => e) _ (fun _ => he) hh).2]

/-- The gradient function which hands the Riemannian gradient of a cost to the estimator. -/
noncomputable def gradOf {n : ℕ}
    (g : (Fin 1 → Matrix (Fin n) (Fin n) ℂ) → Fin 1 → Matrix (Fin n) (Fin n) ℂ) :
    NDArr → Matrix (Fin n) (Fin n) ℂ → Py (Matrix (Fin n) (Fin n) ℂ) :=
  fun _ e => .ok (HPD.egrad2rgrad (fun _ => e) (g fun _ => e) 0)

theorem update_gradOf {n : ℕ} (hn : 0 < n)
    (g : (Fin 1 → Matrix (Fin n) (Fin n) ℂ) → Fin 1 → Matrix (Fin n) (Fin n) ℂ)
    (s : Online (Matrix (Fin n) (Fin n) ℂ)) (e : Matrix (Fin n) (Fin n) ℂ) (he : e.PosDef)
    (hs : s.estimate = some e) (hi : s.iteration = 0) (x : NDArr) (lr : String) :
    (s.update (onlineHPD n (gradOf g) none) x lr).1.estimate =
      some (HPD.retr (fun _ : Fin 1 => e)
        (s.lrate • HPD.egrad2rgrad (fun _ => e) (g fun _ => e)) 0) := by
  have hl : currentLr s.lrate lr s.iteration = s.lrate := by
    unfold currentLr
    rw [hi]
    simp
  unfold Online.update
  rw [hs]
  have hr : (onlineHPD n (gradOf g) none).rgrad x e =
      .ok (.arr (HPD.egrad2rgrad (fun _ => e) (g fun _ => e) 0)) := rfl
  simp only [hr, Tangent.scale, hl, onlineHPD_retr (gradOf g) none he]
  rw [setEstimate_of_ok _ (onlineHPD_cov hn (gradOf g) none _)]
  rfl

theorem deriv_pos_near {F : ℝ → ℝ} {d : ℝ} (h : HasDerivAt F d 0) (hd : 0 < d) :
    ∃ ε > 0, ∀ t, 0 < t → t < ε → F (-t) < F 0 ∧ F 0 < F t := by
  have h' := (hasDerivAt_iff_tendsto_slope.1 h).eventually (lt_mem_nhds hd)
  rw [eventually_nhdsWithin_iff, Metric.eventually_nhds_iff] at h'
  obtain ⟨ε, hε, h'⟩ := h'
  refine ⟨ε, hε, fun t ht hlt => ⟨?_, ?_⟩⟩
  · have := h' (y := -t) (by simpa [abs_of_pos ht] using hlt) (by simp [ht.ne'])
    rw [slope_def_field, sub_zero, div_pos_iff] at this
    rcases this with h | h
    · linarith [h.2]
    · linarith [h.1]
  · have := h' (y := t) (by simpa [abs_of_pos ht] using hlt) (by simp [ht.ne'])
    rw [slope_def_field, sub_zero, div_pos_iff] at this
    rcases this with h | h
    · linarith [h.1]
    · linarith [h.2]

/-- C95 is false everywhere: with the Riemannian gradient of any differentiable cost, at any point
where it is not zero, an update with any small enough positive learning rate increases the cost. -/
theorem C95_violated {n : ℕ} (hn : 0 < n) (f : (Fin 1 → Matrix (Fin n) (Fin n) ℂ) → ℝ)
    (g : (Fin 1 → Matrix (Fin n) (Fin n) ℂ) → Fin 1 → Matrix (Fin n) (Fin n) ℂ)
    (hf : IsEGradHPD f g) (e : Matrix (Fin n) (Fin n) ℂ) (he : e.PosDef)
    (h0 : HPD.egrad2rgrad (fun _ => e) (g fun _ => e) ≠ 0) :
    ∃ ε > 0, ∀ s : Online (Matrix (Fin n) (Fin n) ℂ), s.estimate = some e → s.iteration = 0 →
      0 < s.lrate → s.lrate < ε → ∀ x lr, ∃ e',
        (s.update (onlineHPD n (gradOf g) none) x lr).1.estimate = some e' ∧
        f (fun _ => e) < f fun _ => e' := by
  have hh : ∀ i, (HPD.egrad2rgrad (fun _ : Fin 1 => e) (g fun _ => e) i).IsHermitian :=
    (C54_gradient (fun _ => e) (g fun _ => e) 0 (fun _ => he) fun _ => isHermitian_zero).1
  have hpos := C54_posDef (fun _ : Fin 1 => e) _ (fun _ => he) hh
  obtain ⟨ε, hε, h⟩ := deriv_pos_near (C95_exact f g hf e he)
    (lt_of_le_of_ne hpos.1 fun h => h0 (hpos.2.1 h.symm))
  refine ⟨ε, hε, fun s hs hi h1 h2 x lr => ⟨_, update_gradOf hn g s e he hs hi x lr, ?_⟩⟩
  have := (h s.lrate h1 h2).2
  rw [(C86_retr_first_order (fun _ : Fin 1 => e) _).1] at this
  convert this using 2
  funext i
  rw [Subsingleton.elim i 0]

/-- The claim for negative learning rates. Missing for the full claim: positive ones, for which the
opposite holds. -/
theorem C95_partial {n : ℕ} (hn : 0 < n) (f : (Fin 1 → Matrix (Fin n) (Fin n) ℂ) → ℝ)
    (g : (Fin 1 → Matrix (Fin n) (Fin n) ℂ) → Fin 1 → Matrix (Fin n) (Fin n) ℂ)
    (hf : IsEGradHPD f g) (e : Matrix (Fin n) (Fin n) ℂ) (he : e.PosDef)
    (h0 : HPD.egrad2rgrad (fun _ => e) (g fun _ => e) ≠ 0) :
    ∃ ε > 0, ∀ s : Online (Matrix (Fin n) (Fin n) ℂ), s.estimate = some e → s.iteration = 0 →
      -ε < s.lrate → s.lrate < 0 → ∀ x lr, ∃ e',
        (s.update (onlineHPD n (gradOf g) none) x lr).1.estimate = some e' ∧
        f (fun _ => e') < f fun _ => e := by
  have hh : ∀ i, (HPD.egrad2rgrad (fun _ : Fin 1 => e) (g fun _ => e) i).IsHermitian :=
    (C54_gradient (fun _ => e) (g fun _ => e) 0 (fun _ => he) fun _ => isHermitian_zero).1
  have hpos := C54_posDef (fun _ : Fin 1 => e) _ (fun _ => he) hh
  obtain ⟨ε, hε, h⟩ := deriv_pos_near (C95_exact f g hf e he)
    (lt_of_le_of_ne hpos.1 fun h => h0 (hpos.2.1 h.symm))
  refine ⟨ε, hε, fun s hs hi h1 h2 x lr => ⟨_, update_gradOf hn g s e he hs hi x lr, ?_⟩⟩
  have := (h (-s.lrate) (by linarith) (by linarith)).1
  rw [(C86_retr_first_order (fun _ : Fin 1 => e) _).1, neg_neg] at this
  convert this using 2
  funext i
  rw [Subsingleton.elim i 0]

/-- The hypotheses are met, at every point, by the trace of the matrix as cost. -/
example {n : ℕ} (hn : 0 < n) (e : Matrix (Fin n) (Fin n) ℂ) (he : e.PosDef) :
    IsEGradHPD (k := 1) (fun x : Fin 1 → Matrix (Fin n) (Fin n) ℂ => (x 0).trace.re)
      (fun _ _ => 1) ∧
    HPD.egrad2rgrad (fun _ : Fin 1 => e) (fun _ => 1) ≠ 0 := by
  constructor
  · intro c c' t _ hc
    have h : HasDerivAt (fun s => ∑ a, (c s 0 a a).re) (∑ a, (c' 0 a a).re) t := by
      exact HasDerivAt.fun_sum fun a _ => Complex.reCLM.hasFDerivAt.comp_hasDerivAt t (hc 0 a a)
    have e1 : (fun s => (c s 0).trace.re) = fun s => ∑ a, (c s 0 a a).re := by
      funext s
      simp [trace, Complex.re_sum]
    rw [e1]
    refine h.congr_deriv ?_
    unfold euclid
    rw [Fin.sum_univ_one]
    refine Finset.sum_congr rfl fun a _ => ?_
    rw [Finset.sum_eq_single a]
    · simp
    · intro b _ hb
      simp [Matrix.one_apply_ne hb.symm]
    · intro h
      exact absurd (Finset.mem_univ a) h
  · intro h
    have h1 := congrFun h 0
    have e2 : (multiherm (fun _ => 1) : Stack n 1) = fun _ => 1 :=
      multiherm_of_isHermitian fun _ => isHermitian_one
    simp only [HPD.egrad2rgrad, e2, Matrix.mul_one] at h1
    have hu : IsUnit (e * e) := he.isUnit.mul he.isUnit
    rw [show e * e = 0 from h1] at hu
    have : Nonempty (Fin n) := ⟨⟨0, hn⟩⟩
    exact not_isUnit_zero hu

end RS
