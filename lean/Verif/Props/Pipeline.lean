import Verif.Lemmas.Pipeline
import Verif.Spec.Pipeline
import Verif.Props.Estimators

/-
`CovariancesEstimation` with the estimators of the package (C146).
-/
set_option autoImplicit false

namespace RS
open Matrix

theorem freshFit_iff {L : Lib} {c : Bool} {cls : Cls} {A : Attrs} {m : Method}
    (hs : cls = .tyler → setMethod A.method 0 = .ok (m, 0)) (hm : cls ≠ .tyler → m = .fixedPoint)
    (init : Option NDArr) (x C : NDArr) :
    FreshFit L c cls A init x C ↔ ∃ R, fitRes L c cls m A x init = .ok R ∧ R.covariance = C := by
  obtain ⟨o, h1, ho, hk, -⟩ := construct_ok [] c cls A m hs
  have hf : fit L (construct [] c cls A).1 0 x init =
      store (construct [] c cls A).1 0 o (fitRes L c cls m A x init) := ho.fit hm hk x init
  unfold FreshFit
  rw [hf]
  cases hr : fitRes L c cls m A x init with
  | error e => exact ⟨fun ⟨_, h, _⟩ => (by cases h), fun ⟨_, h, _⟩ => (by cases h)⟩
  | ok R =>
    constructor
    · rintro ⟨-, -, err, k, h⟩
      exact ⟨R, rfl, ((store_fitted ho.get R).unique h).1⟩
    · rintro ⟨R', h, rfl⟩
      cases h
      exact ⟨h1, rfl, _, _, store_fitted ho.get R⟩

theorem freshFails_iff {L : Lib} {c : Bool} {cls : Cls} {A : Attrs} {m : Method}
    (hs : cls = .tyler → setMethod A.method 0 = .ok (m, 0)) (hm : cls ≠ .tyler → m = .fixedPoint)
    (init : Option NDArr) (x : NDArr) (e : PyErr) :
    FreshFails L c cls A init x e ↔ fitRes L c cls m A x init = .error e := by
  obtain ⟨o, h1, ho, hk, -⟩ := construct_ok [] c cls A m hs
  have hf : fit L (construct [] c cls A).1 0 x init =
      store (construct [] c cls A).1 0 o (fitRes L c cls m A x init) := ho.fit hm hk x init
  unfold FreshFails
  rw [hf]
  cases hr : fitRes L c cls m A x init with
  | error e' =>
    simp only [store, Except.error.injEq]
    exact ⟨fun h => h.2, fun h => ⟨h1, h⟩⟩
  | ok R => exact ⟨fun ⟨_, h⟩ => (by cases h), fun h => (by cases h)⟩

/-- The parallel runs, for every object whose closure refers to itself. -/
theorem covEst_parallel {L : Lib} {h : Heap} {a : ℕ} {c : Bool} {cls : Cls} {m : Method} {A : Attrs}
    {o : Est} (ho : Own h a c cls m A o) (hm : cls ≠ .tyler → m = .fixedPoint) (init : Option NDArr)
    (X : NDArr) (isInt : Bool) {p : ℕ} {xs : List NDArr} (hX : trialsOf X = .ok (p, xs)) (b : Backend)
    (hb : b.Parallel) (hc : b.Completes xs.length) :
    (covEstTransform L h a X isInt init b).2 = some (do
      let cs ← xs.mapM (callResult L o c cls m A init)
      let ms ← cs.mapM (assignNd (dtypeOf isInt X) p)
      return ⟨p, ms⟩) ∧
    ∃ cs, (covEstTransform L h a X isInt init b).1 = some (h ++ cs) := by
  cases b with
  | sequential => exact hb.elim
  | threads sched =>
    obtain ⟨h1, h2, -⟩ := pipeRun_gather (L := L) ho hm init (fun _ => 0) xs [h] rfl
      (fun _ _ => rfl) sched hc
    simp only [covEstTransform, hX]
    rw [h1]
    exact ⟨rfl, h2⟩
  | processes n batch sched =>
    obtain ⟨h1, h2, -⟩ := pipeRun_gather (L := L) ho hm init (fun i => batch i + 1) xs
      (h :: List.replicate n h) rfl (fun i hi => by
        rw [List.getElem?_cons_succ, List.getElem?_replicate, if_pos (hc.1 i hi)]) sched hc.2
    simp only [covEstTransform, hX]
    rw [h1]
    exact ⟨rfl, h2⟩

theorem assignNd_real {p : ℕ} (C : Matrix (Fin p) (Fin p) ℝ) :
    assignNd .float p (.real (.d2 p p C)) = .ok (C.map fun r => (r : ℂ)) := by
  simp only [assignNd, dif_pos, assignCov]
  congr 1

theorem assignNd_cplx {p : ℕ} (C : Matrix (Fin p) (Fin p) ℂ) :
    assignNd .complex p (.cplx (.d2 p p C)) = .ok C := by
  simp only [assignNd, dif_pos, assignCov]
  congr 1

theorem mapM_finRange_ok {T : ℕ} {α β : Type} (g : Fin T → α) (f : α → Py β) (r : Fin T → β)
    (h : ∀ t, f (g t) = .ok (r t)) : ((List.finRange T).map g).mapM f = .ok (List.ofFn r) := by
  rw [List.mapM_map, mapM_ok_of (f ∘ g) r _ (fun t _ => h t), List.ofFn_eq_map]

theorem mapM_finRange_err {T : ℕ} {α β : Type} (g : Fin T → α) (f : α → Py β) (t : Fin T) (e : PyErr)
    (h : f (g t) = .error e) : ∃ e, ((List.finRange T).map g).mapM f = .error e :=
  mapM_err_of f _ ⟨g t, List.mem_map.2 ⟨t, List.mem_finRange t, rfl⟩, e, h⟩

theorem covEst_ok {L : Lib} {h : Heap} {a : ℕ} {c : Bool} {cls : Cls} {m : Method} {A : Attrs}
    {o : Est} {k : ℕ} (ho : Own h a c cls m A o) (hk : o.iteration = some k)
    (hm : cls ≠ .tyler → m = .fixedPoint) (init : Option NDArr)
    (X : NDArr) (isInt : Bool) {p T : ℕ} (g : Fin T → NDArr)
    (hX : trialsOf X = .ok (p, (List.finRange T).map g)) (b : Backend)
    (hb : m = .fixedPoint ∨ b.Parallel) (hc : b.Completes T) (C : Fin T → NDArr)
    (D : Fin T → Matrix (Fin p) (Fin p) ℂ)
    (hC : ∀ t, ∃ R, fitRes L c cls m A (g t) init = .ok R ∧ R.covariance = C t)
    (hD : ∀ t, assignNd (dtypeOf isInt X) p (C t) = .ok (D t)) :
    (covEstTransform L h a X isInt init b).2 = some (.ok ⟨p, List.ofFn D⟩) := by
  by_cases hp : b.Parallel
  · rw [(covEst_parallel ho hm init X isInt hX b hp (by simpa using hc)).1,
      mapM_finRange_ok g _ C (fun t => by
        obtain ⟨R, h1, h2⟩ := hC t
        simp only [callResult, hk, h1, h2])]
    have : (List.ofFn C).mapM (assignNd (dtypeOf isInt X) p) = .ok (List.ofFn D) := by
      rw [List.ofFn_eq_map (f := C), mapM_finRange_ok C _ D hD]
    simp only [bind, Except.bind, this]
    rfl
  · cases b with
    | sequential =>
      obtain rfl := hb.resolve_right hp
      simp only [covEstTransform, hX]
      rw [pipeSeq_eq init (dtypeOf isInt X) p _ ho hk, mapM_finRange_ok g _ D (fun t => by
        obtain ⟨R, h1, h2⟩ := hC t
        simp only [h1, bind, Except.bind, h2, hD])]
      rfl
    | threads _ => exact absurd trivial hp
    | processes _ _ _ => exact absurd trivial hp

theorem covEst_err {L : Lib} {h : Heap} {a : ℕ} {c : Bool} {cls : Cls} {m : Method} {A : Attrs}
    {o : Est} {k : ℕ} (ho : Own h a c cls m A o) (hk : o.iteration = some k)
    (hm : cls ≠ .tyler → m = .fixedPoint) (init : Option NDArr)
    (X : NDArr) (isInt : Bool) {p T : ℕ} (g : Fin T → NDArr)
    (hX : trialsOf X = .ok (p, (List.finRange T).map g)) (b : Backend)
    (hb : m = .fixedPoint ∨ b.Parallel) (hc : b.Completes T) (t : Fin T) (e : PyErr)
    (he : fitRes L c cls m A (g t) init = .error e) :
    ∃ e, (covEstTransform L h a X isInt init b).2 = some (.error e) := by
  by_cases hp : b.Parallel
  · rw [(covEst_parallel ho hm init X isInt hX b hp (by simpa using hc)).1]
    obtain ⟨e', h'⟩ := mapM_finRange_err g (callResult L o c cls m A init) t e
      (by simp only [callResult, hk, he])
    rw [h']
    exact ⟨e', rfl⟩
  · cases b with
    | sequential =>
      obtain rfl := hb.resolve_right hp
      simp only [covEstTransform, hX]
      rw [pipeSeq_eq init (dtypeOf isInt X) p _ ho hk]
      obtain ⟨e', h'⟩ := mapM_finRange_err g (fun x => do
        let r ← fitRes L c cls .fixedPoint A x init
        assignNd (dtypeOf isInt X) p r.covariance) t e (by simp only [he]; rfl)
      rw [h']
      exact ⟨e', rfl⟩
    | threads _ => exact absurd trivial hp
    | processes _ _ _ => exact absurd trivial hp

/-! ## C146 -/

/-- Real Huber, Student and fixed-point Tyler estimators on a stack of real trials, after any history
of the estimator, for every `n_jobs`, division of the work and order of the workers: the result is the
stack of the covariances that a newly constructed estimator computes trial by trial. What is missing
of C146 is the natural-gradient method. -/
theorem C146_real_partial (L : Lib) (h0 : Heap) (cls : Cls) (A : Attrs)
    (hA : cls = .tyler → A.method = "fixed-point") (ops : List Op)
    (hA' : cls = .tyler → (attrsAfter A ops).method = "fixed-point") {T n p : ℕ}
    (X : Fin T → Matrix (Fin n) (Fin p) ℝ) (init : Option NDArr) (b : Backend) (hb : b.Completes T)
    (C : Fin T → Matrix (Fin p) (Fin p) ℝ)
    (hC : ∀ t, FreshFit L false cls (attrsAfter A ops) init (.real (.d2 n p (X t)))
      (.real (.d2 p p (C t)))) :
    (covEstTransform L (after L h0 false cls A ops) h0.length (.real (.d3 T n p X)) false init b).2 =
      some (.ok ⟨p, List.ofFn fun t => (C t).map fun r => (r : ℂ)⟩) := by
  obtain ⟨o, k, ho, hk⟩ := own_after L h0 false cls A hA ops
  refine covEst_ok ho hk (fun _ => rfl) init _ false (fun t => .real (.d2 n p (X t))) rfl b
    (.inl rfl) hb (fun t => .real (.d2 p p (C t))) _ (fun t => ?_) (fun t => assignNd_real (C t))
  exact (freshFit_iff (fun h => setMethod_fp _ 0 (hA' h)) (fun _ => rfl) init _ _).1 (hC t)

/-- Complex estimators on a stack of complex trials. -/
theorem C146_complex_partial (L : Lib) (h0 : Heap) (cls : Cls) (A : Attrs)
    (hA : cls = .tyler → A.method = "fixed-point") (ops : List Op)
    (hA' : cls = .tyler → (attrsAfter A ops).method = "fixed-point") {T n p : ℕ}
    (X : Fin T → Matrix (Fin n) (Fin p) ℂ) (init : Option NDArr) (b : Backend) (hb : b.Completes T)
    (C : Fin T → Matrix (Fin p) (Fin p) ℂ)
    (hC : ∀ t, FreshFit L true cls (attrsAfter A ops) init (.cplx (.d2 n p (X t)))
      (.cplx (.d2 p p (C t)))) :
    (covEstTransform L (after L h0 true cls A ops) h0.length (.cplx (.d3 T n p X)) false init b).2 =
      some (.ok ⟨p, List.ofFn C⟩) := by
  obtain ⟨o, k, ho, hk⟩ := own_after L h0 true cls A hA ops
  refine covEst_ok ho hk (fun _ => rfl) init _ false (fun t => .cplx (.d2 n p (X t))) rfl b
    (.inl rfl) hb (fun t => .cplx (.d2 p p (C t))) _ (fun t => ?_) (fun t => assignNd_cplx (C t))
  exact (freshFit_iff (fun h => setMethod_fp _ 0 (hA' h)) (fun _ => rfl) init _ _).1 (hC t)

/-- Stacks of integers: the entries of the covariances are truncated toward zero, because the result
has the dtype of the data. -/
theorem C146_integers (L : Lib) (h0 : Heap) (cls : Cls) (A : Attrs)
    (hA : cls = .tyler → A.method = "fixed-point") (ops : List Op)
    (hA' : cls = .tyler → (attrsAfter A ops).method = "fixed-point") {T n p : ℕ}
    (X : Fin T → Matrix (Fin n) (Fin p) ℝ) (init : Option NDArr) (b : Backend) (hb : b.Completes T)
    (C : Fin T → Matrix (Fin p) (Fin p) ℝ)
    (hC : ∀ t, FreshFit L false cls (attrsAfter A ops) init (.real (.d2 n p (X t)))
      (.real (.d2 p p (C t)))) :
    ∃ D : Fin T → Matrix (Fin p) (Fin p) ℤ,
      (covEstTransform L (after L h0 false cls A ops) h0.length (.real (.d3 T n p X)) true init b).2 =
        some (.ok ⟨p, List.ofFn fun t => (D t).map fun k => (k : ℂ)⟩) ∧
      ∀ t i j, (0 ≤ C t i j → D t i j ≤ C t i j ∧ C t i j < D t i j + 1) ∧
        (C t i j < 0 → C t i j ≤ D t i j ∧ D t i j < C t i j + 1) := by
  obtain ⟨o, k, ho, hk⟩ := own_after L h0 false cls A hA ops
  choose D hD1 hD2 using fun t i j => C23_int_truncates ((C t i j : ℝ) : ℂ)
  refine ⟨fun t => of (D t), ?_, fun t i j => by simpa using hD2 t i j⟩
  refine covEst_ok ho hk (fun _ => rfl) init _ true (fun t => .real (.d2 n p (X t))) rfl b
    (.inl rfl) hb (fun t => .real (.d2 p p (C t))) _ (fun t => ?_) (fun t => ?_)
  · exact (freshFit_iff (fun h => setMethod_fp _ 0 (hA' h)) (fun _ => rfl) init _ _).1 (hC t)
  · simp only [assignNd, dif_pos, assignCov, dtypeOf, if_true]
    congr 1
    ext i j
    exact hD1 t i j

/-- If a trial cannot be fitted, the call raises, for every `n_jobs` (real; the complex case is
`C146_fails_complex`). -/
theorem C146_fails_real (L : Lib) (h0 : Heap) (cls : Cls) (A : Attrs)
    (hA : cls = .tyler → A.method = "fixed-point") (ops : List Op)
    (hA' : cls = .tyler → (attrsAfter A ops).method = "fixed-point") {T n p : ℕ}
    (X : Fin T → Matrix (Fin n) (Fin p) ℝ) (isInt : Bool) (init : Option NDArr) (b : Backend)
    (hb : b.Completes T) (t : Fin T) (e : PyErr)
    (he : FreshFails L false cls (attrsAfter A ops) init (.real (.d2 n p (X t))) e) :
    ∃ e, (covEstTransform L (after L h0 false cls A ops) h0.length (.real (.d3 T n p X)) isInt init
      b).2 = some (.error e) := by
  obtain ⟨o, k, ho, hk⟩ := own_after L h0 false cls A hA ops
  exact covEst_err ho hk (fun _ => rfl) init _ isInt (fun t => .real (.d2 n p (X t))) rfl b
    (.inl rfl) hb t e
    ((freshFails_iff (fun h => setMethod_fp _ 0 (hA' h)) (fun _ => rfl) init _ _).1 he)

/-- Complex trials. -/
theorem C146_fails_complex (L : Lib) (h0 : Heap) (cls : Cls) (A : Attrs)
    (hA : cls = .tyler → A.method = "fixed-point") (ops : List Op)
    (hA' : cls = .tyler → (attrsAfter A ops).method = "fixed-point") {T n p : ℕ}
    (X : Fin T → Matrix (Fin n) (Fin p) ℂ) (init : Option NDArr) (b : Backend)
    (hb : b.Completes T) (t : Fin T) (e : PyErr)
    (he : FreshFails L true cls (attrsAfter A ops) init (.cplx (.d2 n p (X t))) e) :
    ∃ e, (covEstTransform L (after L h0 true cls A ops) h0.length (.cplx (.d3 T n p X)) false init
      b).2 = some (.error e) := by
  obtain ⟨o, k, ho, hk⟩ := own_after L h0 true cls A hA ops
  exact covEst_err ho hk (fun _ => rfl) init _ false (fun t => .cplx (.d2 n p (X t))) rfl b
    (.inl rfl) hb t e
    ((freshFails_iff (fun h => setMethod_fp _ 0 (hA' h)) (fun _ => rfl) init _ _).1 he)

/-- The natural-gradient Tyler estimators, not fitted before, with `n_jobs` other than 1: the
covariances of the trials (real). -/
theorem C146_natural_gradient_parallel_real (L : Lib) (h0 : Heap) (A : Attrs)
    (hA : A.method = "natural gradient") {T n p : ℕ} (X : Fin T → Matrix (Fin n) (Fin p) ℝ)
    (init : Option NDArr) (b : Backend) (hp : b.Parallel) (hb : b.Completes T)
    (C : Fin T → Matrix (Fin p) (Fin p) ℝ)
    (hC : ∀ t, FreshFit L false .tyler A init (.real (.d2 n p (X t))) (.real (.d2 p p (C t)))) :
    (covEstTransform L (construct h0 false .tyler A).1 h0.length (.real (.d3 T n p X)) false init
      b).2 = some (.ok ⟨p, List.ofFn fun t => (C t).map fun r => (r : ℂ)⟩) := by
  obtain ⟨o, -, ho, hk, -⟩ := construct_ok h0 false .tyler A .naturalGradient
    (fun _ => setMethod_ng A _ hA)
  refine covEst_ok ho hk (fun h => absurd rfl h) init _ false (fun t => .real (.d2 n p (X t))) rfl b
    (.inr hp) hb (fun t => .real (.d2 p p (C t))) _ (fun t => ?_) (fun t => assignNd_real (C t))
  exact (freshFit_iff (fun _ => setMethod_ng _ 0 hA) (fun h => absurd rfl h) init _ _).1 (hC t)

/-- Complex trials. -/
theorem C146_natural_gradient_parallel_complex (L : Lib) (h0 : Heap) (A : Attrs)
    (hA : A.method = "natural gradient") {T n p : ℕ} (X : Fin T → Matrix (Fin n) (Fin p) ℂ)
    (init : Option NDArr) (b : Backend) (hp : b.Parallel) (hb : b.Completes T)
    (C : Fin T → Matrix (Fin p) (Fin p) ℂ)
    (hC : ∀ t, FreshFit L true .tyler A init (.cplx (.d2 n p (X t))) (.cplx (.d2 p p (C t)))) :
    (covEstTransform L (construct h0 true .tyler A).1 h0.length (.cplx (.d3 T n p X)) false init
      b).2 = some (.ok ⟨p, List.ofFn C⟩) := by
  obtain ⟨o, -, ho, hk, -⟩ := construct_ok h0 true .tyler A .naturalGradient
    (fun _ => setMethod_ng A _ hA)
  refine covEst_ok ho hk (fun h => absurd rfl h) init _ false (fun t => .cplx (.d2 n p (X t))) rfl b
    (.inr hp) hb (fun t => .cplx (.d2 p p (C t))) _ (fun t => ?_) (fun t => assignNd_cplx (C t))
  exact (freshFit_iff (fun _ => setMethod_ng _ 0 hA) (fun h => absurd rfl h) init _ _).1 (hC t)

/-- With `n_jobs = 1` and two or more trials of which the first can be fitted, the natural-gradient
Tyler estimators raise `TypeError`, whatever the other trials. -/
theorem C146_natural_gradient_sequential (L : Lib) (h0 : Heap) (A : Attrs)
    (hA : A.method = "natural gradient") {T n p : ℕ} (X : Fin (T + 2) → Matrix (Fin n) (Fin p) ℝ)
    (init : Option NDArr) (C : Matrix (Fin p) (Fin p) ℝ)
    (hC : FreshFit L false .tyler A init (.real (.d2 n p (X 0))) (.real (.d2 p p C))) :
    (covEstTransform L (construct h0 false .tyler A).1 h0.length (.real (.d3 (T + 2) n p X)) false
      init .sequential).2 = some (.error .typeError) := by
  obtain ⟨o, -, ho, hk, -⟩ := construct_ok h0 false .tyler A .naturalGradient
    (fun _ => setMethod_ng A _ hA)
  obtain ⟨R, h1, h2⟩ := (freshFit_iff (fun _ => setMethod_ng _ 0 hA) (fun h => absurd rfl h) init _
    _).1 hC
  have hf := ho.fit (L := L) (fun h => absurd rfl h) hk (.real (.d2 n p (X 0))) init
  rw [h1] at hf
  have hr := readCov_store ho.get R
  rw [← hf, h2] at hr
  have hok : (fit L (construct h0 false .tyler A).1 h0.length (.real (.d2 n p (X 0))) init).2 =
      .ok () := by rw [hf]; rfl
  have h3 := C45_refit_raises L h0 false A hA _ init hok [] (.real (.d2 n p (X 1))) init
  simp only [covEstTransform, trialsOf, List.finRange_succ, List.map_cons, pipeSeq]
  simp only [List.foldl_nil] at h3
  revert hok h3 hr
  cases fit L (construct h0 false .tyler A).1 h0.length (.real (.d2 n p (X 0))) init with
  | mk y1 y2 =>
    intro hr hok h3
    simp only at hok h3 hr
    subst hok
    simp only [hr, bind, Except.bind, dtypeOf, Bool.false_eq_true, if_false, assignNd_real]
    have e : (Fin.succ (0 : Fin (T + 1))) = (1 : Fin (T + 2)) := rfl
    simp only [e]
    cases hy : fit L y1 h0.length (.real (.d2 n p (X 1))) init with
    | mk z1 z2 =>
      rw [hy] at h3
      simp only at h3
      subst h3
      rfl

/-- A natural-gradient Tyler estimator that has been fitted before raises `TypeError` on every
non-empty stack, for every `n_jobs`. -/
theorem C146_natural_gradient_refitted (L : Lib) (h0 : Heap) (complex : Bool) (A : Attrs)
    (hA : A.method = "natural gradient") (X1 : NDArr) (init1 : Option NDArr)
    (h1 : (fit L (construct h0 complex .tyler A).1 h0.length X1 init1).2 = .ok ()) {T n p : ℕ}
    (X : Fin (T + 1) → Matrix (Fin n) (Fin p) ℝ) (isInt : Bool) (init : Option NDArr) (b : Backend)
    (hb : b.Completes (T + 1)) :
    (covEstTransform L (fit L (construct h0 complex .tyler A).1 h0.length X1 init1).1 h0.length
      (.real (.d3 (T + 1) n p X)) isInt init b).2 = some (.error .typeError) := by
  obtain ⟨o, -, ho, hk, -⟩ := construct_ok h0 complex .tyler A .naturalGradient
    (fun _ => setMethod_ng A _ hA)
  have hf := ho.fit (L := L) (fun h => absurd rfl h) hk X1 init1
  have hall := C45_refit_raises L h0 complex A hA X1 init1 h1 []
  simp only [List.foldl_nil] at hall
  rw [hf] at h1 hall ⊢
  cases hr : fitRes L complex .tyler .naturalGradient A X1 init1 with
  | error e => rw [hr] at h1; cases h1
  | ok R =>
    rw [hr] at hall
    simp only [store] at hall ⊢
    set h := (construct h0 complex .tyler A).1.set h0.length
      { o with covariance := some R.covariance, err := R.err, iteration := R.iteration } with hh
    have ho' : Own h h0.length complex .tyler .naturalGradient A
        { o with covariance := some R.covariance, err := R.err, iteration := R.iteration } :=
      ⟨get_set_self ho.get, ho.cplx, ho.cls_eq, ho.attrs_eq, ho.fn⟩
    have hX : trialsOf (.real (.d3 (T + 1) n p X)) =
      .ok (p, (List.finRange (T + 1)).map fun t => .real (.d2 n p (X t))) := rfl
    by_cases hp : b.Parallel
    · rw [(covEst_parallel ho' (fun h => absurd rfl h) init _ isInt hX b hp (by simpa using hb)).1]
      have h2 := copy_fit (L := L) (cs := []) ho' (fun h => absurd rfl h) (r := h0.length)
        (by rw [List.append_nil]; exact ho'.get) (.real (.d2 n p (X 0))) init
      rw [List.append_nil] at h2
      have h3 := hall (.real (.d2 n p (X 0))) init
      have h4 : callResult L { o with covariance := some R.covariance, err := R.err, iteration := R.iteration }
          complex .tyler .naturalGradient A init (.real (.d2 n p (X 0))) = .error .typeError := by
        rw [← h2.2]
        cases hy : fit L h h0.length (.real (.d2 n p (X 0))) init with
        | mk y1 y2 =>
          rw [hy] at h3
          simp only at h3
          subst h3
          rfl
      rw [List.finRange_succ, List.map_cons, List.mapM_cons, h4]
      rfl
    · cases b with
      | sequential =>
        simp only [covEstTransform, hX]
        rw [List.finRange_succ, List.map_cons]
        have h3 := hall (.real (.d2 n p (X 0))) init
        simp only [pipeSeq]
        cases hy : fit L h h0.length (.real (.d2 n p (X 0))) init with
        | mk y1 y2 =>
          rw [hy] at h3
          simp only at h3
          subst h3
          rfl
      | threads _ => exact absurd trivial hp
      | processes _ _ _ => exact absurd trivial hp

/-- With `n_jobs` other than 1 no object of the user changes, whatever the estimator did before. -/
theorem C146_untouched (L : Lib) (h0 : Heap) (complex : Bool) (cls : Cls) (A : Attrs)
    (hA : cls = .tyler → A.method = "fixed-point") (ops : List Op) (X : NDArr) (isInt : Bool)
    (init : Option NDArr) (b : Backend) (hp : b.Parallel) {p : ℕ} {xs : List NDArr}
    (hX : trialsOf X = .ok (p, xs)) (hb : b.Completes xs.length) :
    ∃ h', (covEstTransform L (after L h0 complex cls A ops) h0.length X isInt init b).1 = some h' ∧
      ∀ a < (after L h0 complex cls A ops).length, h'[a]? = (after L h0 complex cls A ops)[a]? := by
  obtain ⟨o, k, ho, hk⟩ := own_after L h0 complex cls A hA ops
  obtain ⟨cs, h1⟩ := (covEst_parallel (L := L) ho (fun _ => rfl) init X isInt hX b hp hb).2
  exact ⟨_, h1, fun a ha => List.getElem?_append_left ha⟩

/-- C146 is false: two trials, each of which a new estimator can fit; two processes return both
covariances, `n_jobs = 1` raises `TypeError`. -/
theorem C146_violated (eR : ∀ p, Eigh (Fin p) ℝ) (eC : ∀ p, Eigh (Fin p) ℂ) :
    ∃ (A : Attrs) (X : Fin 2 → Matrix (Fin 2) (Fin 2) ℝ) (C : Matrix (Fin 2) (Fin 2) ℝ),
      (∀ t, FreshFit (exLib eR eC) false .tyler A none (.real (.d2 2 2 (X t))) (.real (.d2 2 2 C))) ∧
      (covEstTransform (exLib eR eC) (construct [] false .tyler A).1 0 (.real (.d3 2 2 2 X)) false none
        (.processes 2 id [1, 0, 1, 0])).2 = some (.ok ⟨2, [C.map fun r => (r : ℂ), C.map fun r => (r : ℂ)]⟩) ∧
      (covEstTransform (exLib eR eC) (construct [] false .tyler A).1 0 (.real (.d3 2 2 2 X)) false none
        .sequential).2 = some (.error .typeError) := by
  let A : Attrs := ⟨0, 0, 1 / 10000, 100, "None", "natural gradient", false⟩
  obtain ⟨S, v, hS, h1, h2⟩ := C45_partial (exLib eR eC) [] A rfl (N := 2) (p := 2)
    (by norm_num) (by norm_num) !![1, 0; 0, 1] none (fun _ => ⟨1, PosDef.one, rfl⟩)
  obtain ⟨o, h3, -⟩ := construct_ok [] false .tyler A .naturalGradient
    (fun _ => setMethod_ng A _ rfl)
  have hF : FreshFit (exLib eR eC) false .tyler A none (.real (.d2 2 2 !![1, 0; 0, 1]))
      (.real (.d2 2 2 S)) := ⟨h3, h1, _, _, h2⟩
  refine ⟨A, fun _ => !![1, 0; 0, 1], S, fun _ => hF, ?_, ?_⟩
  · have := C146_natural_gradient_parallel_real (exLib eR eC) [] A rfl
      (fun _ : Fin 2 => (!![1, 0; 0, 1] : Matrix (Fin 2) (Fin 2) ℝ)) none
      (.processes 2 id [1, 0, 1, 0]) trivial ⟨fun i hi => hi, fun i hi => by
        interval_cases i <;> decide⟩ (fun _ => S) (fun _ => hF)
    simpa using this
  · exact C146_natural_gradient_sequential (exLib eR eC) [] A rfl (T := 0)
      (fun _ => !![1, 0; 0, 1]) none S hF

/-- The hypotheses of `C146_real_partial` are met: two trials of four samples, a Student-t estimator
fitted and changed before. -/
example (L : Lib) (hL : ∀ N p, (L.envR N p).eigh.Ok) (hc : L.chi2.Ok) :
    ∃ C : Fin 2 → Matrix (Fin 2) (Fin 2) ℝ, ∀ t, FreshFit L false .student
      (attrsAfter ⟨3, 0, 1 / 10000, 100, "None", "fixed-point", false⟩
        [.fit (.real (.d0 1)) none, .set fun A => { A with df := 5 }]) none
      (.real (.d2 4 2 (demoX ℝ))) (.real (.d2 2 2 (C t))) := by
  obtain ⟨S, delta, iteration, -, h1, h2⟩ := C44_fit_posDef_real L hL hc [] .student
    (attrsAfter ⟨3, 0, 1 / 10000, 100, "None", "fixed-point", false⟩
        [.fit (.real (.d0 1)) none, .set fun A => { A with df := 5 }]) (by intro h; cases h) []
    (by norm_num) two_pos (demoX ℝ) demoX_spans
    (by norm_num [Cls.realEst, attrsAfter, RealEst.Valid]) none (by simp)
  exact ⟨fun _ => S, fun _ => ⟨rfl, h1, _, _, h2⟩⟩

end RS
