import Verif.Model.FeaturePipe
import Verif.Props.Pipeline
import Verif.Props.FeatureJobs

/-
`FeaturesEstimation` with the estimators of the package (C154).
-/
set_option autoImplicit false

namespace RS
open Matrix

/-! ## Specification -/

/-- The nested lists of a matrix. -/
def matItem {m n : ℕ} (C : Matrix (Fin m) (Fin n) ℂ) : NDVal ℂ :=
  .node (List.ofFn fun i => .node (List.ofFn fun j => .leaf (C i j)))

/-- The feature array holds the matrices `Cs`, in order: their number, the shape of an item, and what
`export` returns. -/
def HoldsMatrices (f : FArr ℂ) (dt : DType) (p : ℕ) (Cs : List (Matrix (Fin p) (Fin p) ℂ)) : Prop :=
  f.len = Cs.length ∧ f.shapes = [[p, p]] ∧
  f.export = .ok (.single (packed dt [p, p] (Cs.map matItem)))

/-- The item of an array determines the matrix. -/
theorem matItem_inj {m n : ℕ} {C D : Matrix (Fin m) (Fin n) ℂ} (h : matItem C = matItem D) : C = D := by
  simp only [matItem, NDVal.node.injEq, List.ofFn_inj] at h
  ext i j
  have := congrFun h i
  simp only [NDVal.node.injEq, List.ofFn_inj] at this
  simpa using congrFun this j

/-! ## Lemmas -/

/-- The object at `a` is a fixed-point estimator with attributes `A`. -/
def Usable (a : ℕ) (c : Bool) (cls : Cls) (A : Attrs) (h : Heap) : Prop :=
  ∃ o k, Own h a c cls .fixedPoint A o ∧ o.iteration = some k

theorem fit_heap_cases (L : Lib) (h : Heap) (a : ℕ) (x : NDArr) (init : Option NDArr) :
    (fit L h a x init).1 = h ∨ ∃ (o : Est) (k : ℕ) (R : FitRes), h[a]? = some o ∧
      o.iteration = some k ∧ (fit L h a x init).1 = h.set a
        { o with covariance := some R.covariance, err := R.err, iteration := R.iteration } := by
  unfold fit
  cases ho : h[a]? with
  | none => exact .inl rfl
  | some o =>
    simp only
    cases hk : o.iteration with
    | none => exact .inl rfl
    | some k =>
      simp only
      split
      · exact .inl rfl
      · split
        · exact .inl rfl
        · exact .inr ⟨o, k, _, rfl, hk, rfl⟩

theorem usable_fit (L : Lib) (a : ℕ) (c : Bool) (cls : Cls) (A : Attrs) (h : Heap) (x : NDArr)
    (init : Option NDArr) : Usable a c cls A (fit L h a x init).1 = Usable a c cls A h := by
  apply propext
  constructor
  · rintro ⟨o', k', ho', hk'⟩
    rcases fit_heap_cases L h a x init with e | ⟨o, k, R, ho, hk, e⟩
    · rw [e] at ho'
      exact ⟨o', k', ho', hk'⟩
    · rw [e] at ho'
      have hg := ho'.get
      rw [get_set_self ho] at hg
      cases hg
      exact ⟨o, k, ⟨ho, ho'.cplx, ho'.cls_eq, ho'.attrs_eq, ho'.fn⟩, hk⟩
  · rintro ⟨o, k, ho, hk⟩
    obtain ⟨o', k', h1, h2⟩ := ho.run (L := L) hk (.fit x init)
    exact ⟨o', k', h1, h2⟩

theorem transform_store {h : Heap} {a : ℕ} {o : Est} (ho : h[a]? = some o) (R : FitRes) (x : NDArr) :
    transform (store h a o (.ok R)).1 a x = .ok R.covariance := by
  simp only [store, transform, get_set_self ho]

/-- The feature of a trial, for every usable object. -/
theorem usable_feature {L : Lib} {a : ℕ} {c : Bool} {cls : Cls} {A : Attrs} {h : Heap}
    (hu : Usable a c cls A h) (x : NDArr) :
    trialFeature (estFeatures L a) h x = (do
      let R ← fitRes L c cls .fixedPoint A x none
      let y ← covFeature R.covariance
      return [y]) := by
  obtain ⟨o, k, ho, hk⟩ := hu
  have hf := ho.fit (L := L) (fun _ => rfl) hk x none
  simp only [trialFeature, estFeatures, hf]
  cases hr : fitRes L c cls .fixedPoint A x none with
  | error e => rfl
  | ok R =>
    have ht := transform_store ho.get R x
    simp only [store] at ht ⊢
    simp only [ht]
    rfl

theorem usable_after (L : Lib) (h0 : Heap) (c : Bool) (cls : Cls) (A : Attrs)
    (hA : cls = .tyler → A.method = "fixed-point") (ops : List Op) :
    Usable h0.length c cls (attrsAfter A ops) (after L h0 c cls A ops) := by
  obtain ⟨o, k, ho, hk⟩ := own_after L h0 c cls A hA ops
  exact ⟨o, k, ho, hk⟩

/-- What the trials should give. -/
noncomputable def freshFeature (L : Lib) (c : Bool) (cls : Cls) (A : Attrs) (x : NDArr) :
    Py (List (NArr ℂ)) := do
  let R ← fitRes L c cls .fixedPoint A x none
  let y ← covFeature R.covariance
  return [y]

/-- The result in terms of the features of the trials. -/
theorem featEst_result {L : Lib} {a : ℕ} {c : Bool} {cls : Cls} {A : Attrs} {h : Heap}
    (hu : Usable a c cls A h) (xs : List NDArr) (b : Backend) (hb : b.Possible xs.length)
    (hth : ∀ sched, b = .threads sched → Exclusive (fun _ => 0) sched) :
    (featEstTransform L h a xs b).2 = some (featuresTransform 0 (freshFeature L c cls A) xs) := by
  have hkeep : ∀ s x, Usable a c cls A ((estFeatures L a).fit s x).1 = Usable a c cls A s :=
    fun s x => usable_fit L a c cls A s x none
  have hfeat : ∀ s x, Usable a c cls A s = True → x ∈ xs →
      trialFeature (estFeatures L a) s x = freshFeature L c cls A x :=
    fun s x hs _ => usable_feature (of_eq_true hs) x
  rw [featuresTransform_eq]
  cases b with
  | sequential =>
    simp only [featEstTransform, featuresTransformObj]
    rw [seqFeatures_eq hkeep xs h (eq_true hu) hfeat]
  | threads sched =>
    simp only [featEstTransform, featuresTransformObj]
    rw [featRun_gather hkeep hfeat [h] (by simpa using eq_true hu) (by simp) sched (hth _ rfl) hb]
    rfl
  | processes m batch sched =>
    obtain ⟨h1, h2, h3⟩ := hb
    simp only [featEstTransform, featuresTransformObj]
    rw [featRun_gather hkeep hfeat (h :: List.replicate m h) (fun s hs => by
        have : s = h := by
          rcases List.mem_cons.1 hs with e | e
          · exact e
          · exact List.eq_of_mem_replicate e
        rw [this]; exact eq_true hu)
      (by simpa using h3) sched
      (fun i l₁ l₂ h h' j hj hji => h2 i l₁ l₂ h h' j hj (by simpa using hji)) h1]
    rfl

/-- Features that are matrices of one size. -/
theorem holds_of_features {T : ℕ} (hT : 0 < T) (est : NDArr → Py (List (NArr ℂ))) (dt : DType) {p : ℕ}
    (x : Fin T → NDArr) (C : Fin T → Matrix (Fin p) (Fin p) ℂ)
    (h : ∀ t, est (x t) = .ok [⟨dt, [p, p], matItem (C t)⟩]) :
    ∃ f, featuresTransform 0 est (List.ofFn x) = .ok f ∧ HoldsMatrices f dt p (List.ofFn C) := by
  classical
  let feat : NDArr → List (NDVal ℂ) := fun y => match est y with
    | .ok l => l.map NArr.val
    | .error _ => []
  have hf : ∀ t, feat (x t) = [matItem (C t)] := fun t => by simp only [feat, h t]; rfl
  obtain ⟨f, h1, h2, h3, h4⟩ := C21_transform [(dt, [p, p])] (by simp) (0 : ℂ) est feat (List.ofFn x)
    (fun e => by
      have := congrArg List.length e
      rw [List.length_ofFn] at this
      simp at this
      omega)
    (fun y hy => by
      obtain ⟨t, rfl⟩ := (List.mem_ofFn' _ _).1 hy
      rw [hf]; rfl)
    (fun y hy => by
      obtain ⟨t, rfl⟩ := (List.mem_ofFn' _ _).1 hy
      rw [hf, h]; rfl)
  refine ⟨f, h1, by rw [h2]; simp, h3, h4.trans ?_⟩
  congr 1
  have e : ((List.ofFn x).flatMap fun y => ((feat y)[0]?).toList) = (List.ofFn C).map matItem := by
    rw [List.ofFn_eq_map, List.flatMap_map, List.ofFn_eq_map, List.map_map]
    induction List.finRange T with
    | nil => rfl
    | cons t l ih => rw [List.flatMap_cons, ih, hf]; rfl
  simp only [List.length_singleton, List.range_one, List.map_cons, List.map_nil, e]
  rfl

/-! ## C154 -/

/-- Real Huber, Student and fixed-point Tyler estimators, after any history of the estimator, with
`n_jobs = 1` or with processes, for every division of the work and order of the workers, or with
threads that do not interleave: the feature array holds the covariances that a newly constructed
estimator computes trial by trial. The trials may differ in their number of samples. Missing of
C154: threads that interleave, and the natural-gradient method. -/
theorem C154_real_partial (L : Lib) (h0 : Heap) (cls : Cls) (A : Attrs)
    (hA : cls = .tyler → A.method = "fixed-point") (ops : List Op)
    (hA' : cls = .tyler → (attrsAfter A ops).method = "fixed-point") {T p : ℕ} (hT : 0 < T)
    (x : Fin T → NDArr) (b : Backend) (hb : b.Possible T)
    (hth : ∀ sched, b = .threads sched → Exclusive (fun _ => 0) sched)
    (C : Fin T → Matrix (Fin p) (Fin p) ℝ)
    (hC : ∀ t, FreshFit L false cls (attrsAfter A ops) none (x t) (.real (.d2 p p (C t)))) :
    ∃ f, (featEstTransform L (after L h0 false cls A ops) h0.length (List.ofFn x) b).2 =
        some (.ok f) ∧
      HoldsMatrices f .float64 p (List.ofFn fun t => (C t).map fun r => (r : ℂ)) := by
  rw [featEst_result (usable_after L h0 false cls A hA ops) _ b (by simpa using hb) hth]
  obtain ⟨f, h1, h2⟩ := holds_of_features hT (freshFeature L false cls (attrsAfter A ops)) .float64 x
    (fun t => (C t).map fun r => (r : ℂ)) fun t => by
      obtain ⟨R, h1, h2⟩ := (freshFit_iff (fun h => setMethod_fp _ 0 (hA' h)) (fun _ => rfl) none _
        _).1 (hC t)
      simp only [freshFeature, h1, bind, Except.bind, h2]
      rfl
  exact ⟨f, by rw [h1], h2⟩

/-- Complex estimators. -/
theorem C154_complex_partial (L : Lib) (h0 : Heap) (cls : Cls) (A : Attrs)
    (hA : cls = .tyler → A.method = "fixed-point") (ops : List Op)
    (hA' : cls = .tyler → (attrsAfter A ops).method = "fixed-point") {T p : ℕ} (hT : 0 < T)
    (x : Fin T → NDArr) (b : Backend) (hb : b.Possible T)
    (hth : ∀ sched, b = .threads sched → Exclusive (fun _ => 0) sched)
    (C : Fin T → Matrix (Fin p) (Fin p) ℂ)
    (hC : ∀ t, FreshFit L true cls (attrsAfter A ops) none (x t) (.cplx (.d2 p p (C t)))) :
    ∃ f, (featEstTransform L (after L h0 true cls A ops) h0.length (List.ofFn x) b).2 =
        some (.ok f) ∧ HoldsMatrices f .complex128 p (List.ofFn C) := by
  rw [featEst_result (usable_after L h0 true cls A hA ops) _ b (by simpa using hb) hth]
  obtain ⟨f, h1, h2⟩ := holds_of_features hT (freshFeature L true cls (attrsAfter A ops)) .complex128 x
    C fun t => by
      obtain ⟨R, h1, h2⟩ := (freshFit_iff (fun h => setMethod_fp _ 0 (hA' h)) (fun _ => rfl) none _
        _).1 (hC t)
      simp only [freshFeature, h1, bind, Except.bind, h2]
      rfl
  exact ⟨f, by rw [h1], h2⟩

/-- If a newly constructed estimator cannot be fitted on one of the trials, the call raises. -/
theorem C154_fails (L : Lib) (h0 : Heap) (c : Bool) (cls : Cls) (A : Attrs)
    (hA : cls = .tyler → A.method = "fixed-point") (ops : List Op)
    (hA' : cls = .tyler → (attrsAfter A ops).method = "fixed-point") {T : ℕ}
    (x : Fin T → NDArr) (b : Backend) (hb : b.Possible T)
    (hth : ∀ sched, b = .threads sched → Exclusive (fun _ => 0) sched) (t : Fin T) (e : PyErr)
    (he : FreshFails L c cls (attrsAfter A ops) none (x t) e) :
    ∃ e, (featEstTransform L (after L h0 c cls A ops) h0.length (List.ofFn x) b).2 =
      some (.error e) := by
  rw [featEst_result (usable_after L h0 c cls A hA ops) _ b (by simpa using hb) hth,
    featuresTransform_eq]
  have h1 := (freshFails_iff (fun h => setMethod_fp _ 0 (hA' h)) (fun _ => rfl) none _ _).1 he
  obtain ⟨e', h2⟩ := mapM_finRange_err x (featureEstimation 0 (freshFeature L c cls (attrsAfter A ops)))
    t e (by simp only [featureEstimation_eq, freshFeature, h1]; rfl)
  rw [List.ofFn_eq_map, h2]
  exact ⟨e', rfl⟩

/-- With processes no object of the user changes. -/
theorem C154_untouched (L : Lib) (h : Heap) (a : ℕ) (xs : List NDArr) (n : ℕ) (batch : ℕ → ℕ)
    (sched : List ℕ) : (featEstTransform L h a xs (.processes n batch sched)).1 = some h :=
  C106_processes_untouched _ _ _ _ _ _ _

theorem wrapFeature_one (dt : DType) (p : ℕ) (v : NDVal ℂ) :
    ∃ g, wrapFeature 0 [⟨dt, [p, p], v⟩] = .ok g := ⟨_, rfl⟩

theorem covFeature_ok {C : NDArr} {p : ℕ}
    (h : (∃ D : Matrix (Fin p) (Fin p) ℝ, C = .real (.d2 p p D)) ∨
      ∃ D : Matrix (Fin p) (Fin p) ℂ, C = .cplx (.d2 p p D)) :
    ∃ dt v, covFeature C = .ok ⟨dt, [p, p], v⟩ := by
  rcases h with ⟨D, rfl⟩ | ⟨D, rfl⟩
  · exact ⟨_, _, rfl⟩
  · exact ⟨_, _, rfl⟩

/-- With `n_jobs = 1` the estimator of the user is left fitted on the last trial. -/
theorem C154_sequential (L : Lib) (h0 : Heap) (c : Bool) (cls : Cls) (A : Attrs)
    (hA : cls = .tyler → A.method = "fixed-point") (ops : List Op)
    (hA' : cls = .tyler → (attrsAfter A ops).method = "fixed-point") (xs : List NDArr) (y : NDArr)
    (C : NDArr → NDArr) (hC : ∀ x ∈ xs ++ [y], FreshFit L c cls (attrsAfter A ops) none x (C x))
    (hp : ∀ x ∈ xs ++ [y], ∃ p : ℕ, (∃ D : Matrix (Fin p) (Fin p) ℝ, C x = .real (.d2 p p D)) ∨
      ∃ D : Matrix (Fin p) (Fin p) ℂ, C x = .cplx (.d2 p p D)) :
    ∃ h' err k, (featEstTransform L (after L h0 c cls A ops) h0.length (xs ++ [y]) .sequential).1 =
        some h' ∧ Fitted h' h0.length (C y) err k := by
  have key : ∀ (xs : List NDArr),
      (∀ x ∈ xs ++ [y], ∃ R, fitRes L c cls .fixedPoint (attrsAfter A ops) x none = .ok R ∧
        R.covariance = C x) →
      (∀ x ∈ xs ++ [y], ∃ (p : ℕ) (dt : DType) (v : NDVal ℂ), covFeature (C x) = .ok ⟨dt, [p, p], v⟩) →
      ∀ h, Usable h0.length c cls (attrsAfter A ops) h → ∃ err k,
        Fitted (seqFeatures (estFeatures L h0.length) 0 h (xs ++ [y])).1 h0.length (C y) err k := by
    intro xs
    have step : ∀ (h : Heap) (x : NDArr) (l : List NDArr), Usable h0.length c cls (attrsAfter A ops) h →
        (∃ R, fitRes L c cls .fixedPoint (attrsAfter A ops) x none = .ok R ∧ R.covariance = C x) →
        (∃ (p : ℕ) (dt : DType) (v : NDVal ℂ), covFeature (C x) = .ok ⟨dt, [p, p], v⟩) →
        ∃ h' err k, Fitted h' h0.length (C x) err k ∧ Usable h0.length c cls (attrsAfter A ops) h' ∧
          (seqFeatures (estFeatures L h0.length) 0 h (x :: l)).1 =
            (seqFeatures (estFeatures L h0.length) 0 h' l).1 := by
      rintro h x l hu ⟨R, h1, h2⟩ ⟨p, dt, v, h3⟩
      have hu' := usable_fit L h0.length c cls (attrsAfter A ops) h x none
      obtain ⟨o, k, ho, hk⟩ := hu
      have hf := ho.fit (L := L) (fun _ => rfl) hk x none
      rw [h1] at hf
      have hfit := store_fitted ho.get R
      have htr := transform_store ho.get R x
      rw [h2] at hfit htr
      rw [hf] at hu'
      obtain ⟨g, hg⟩ := wrapFeature_one dt p v
      refine ⟨_, _, _, hfit, hu'.symm ▸ ⟨o, k, ho, hk⟩, ?_⟩
      simp only [store] at htr
      simp only [seqFeatures, estFeatures, hf, store, htr, bind, Except.bind, h3, pure, Except.pure, hg]
      split <;> rename_i he <;> rw [he]
    induction xs with
    | nil =>
      intro hC hp h hu
      obtain ⟨h', err, k, h1, h2, h3⟩ := step h y [] hu (hC y (by simp)) (hp y (by simp))
      exact ⟨err, k, h3 ▸ h1⟩
    | cons x xs ih =>
      intro hC hp h hu
      obtain ⟨h', err, k, h1, h2, h3⟩ := step h x (xs ++ [y]) hu (hC x (by simp)) (hp x (by simp))
      obtain ⟨err', k', h4⟩ := ih (fun z hz => hC z (by simp at hz ⊢; tauto))
        (fun z hz => hp z (by simp at hz ⊢; tauto)) h' h2
      exact ⟨err', k', by rw [List.cons_append, h3]; exact h4⟩
  obtain ⟨err, k, h⟩ := key xs (fun x hx => (freshFit_iff (fun h => setMethod_fp _ 0 (hA' h))
    (fun _ => rfl) none _ _).1 (hC x hx)) (fun x hx => by
      obtain ⟨p, hp⟩ := hp x hx
      exact ⟨p, covFeature_ok hp⟩) _ (usable_after L h0 c cls A hA ops)
  exact ⟨_, err, k, rfl, h⟩

/-- Threads that fit two trials one after the other and read the results afterwards: both items are
the covariance of the second trial. -/
theorem C154_threads (L : Lib) (h0 : Heap) (cls : Cls) (A : Attrs)
    (hA : cls = .tyler → A.method = "fixed-point") (ops : List Op)
    (hA' : cls = .tyler → (attrsAfter A ops).method = "fixed-point") {p : ℕ} (x y : NDArr)
    (C D : Matrix (Fin p) (Fin p) ℝ)
    (hC : FreshFit L false cls (attrsAfter A ops) none x (.real (.d2 p p C)))
    (hD : FreshFit L false cls (attrsAfter A ops) none y (.real (.d2 p p D))) :
    ∃ f, (featEstTransform L (after L h0 false cls A ops) h0.length [x, y]
        (.threads [0, 1, 0, 1])).2 = some (.ok f) ∧
      HoldsMatrices f .float64 p [D.map fun r => (r : ℂ), D.map fun r => (r : ℂ)] := by
  obtain ⟨R, h1, h2⟩ := (freshFit_iff (fun h => setMethod_fp _ 0 (hA' h)) (fun _ => rfl) none _ _).1 hC
  obtain ⟨R', h3, h4⟩ := (freshFit_iff (fun h => setMethod_fp _ 0 (hA' h)) (fun _ => rfl) none _ _).1 hD
  obtain ⟨o, k, ho, hk⟩ := own_after L h0 false cls A hA ops
  set h := after L h0 false cls A ops with hh
  have hf := ho.fit (L := L) (fun _ => rfl) hk x none
  rw [h1] at hf
  have hu := usable_fit L h0.length false cls (attrsAfter A ops) h x none
  obtain ⟨o', k', ho', hk'⟩ : Usable h0.length false cls (attrsAfter A ops)
    (fit L h h0.length x none).1 := hu.symm ▸ ⟨o, k, ho, hk⟩
  rw [hf] at ho'
  have hf' := ho'.fit (L := L) (fun _ => rfl) hk' y none
  rw [h3] at hf'
  have htr : ∀ z, transform (store (store h h0.length o (.ok R)).1 h0.length o' (.ok R')).1 h0.length z =
    .ok (.real (.d2 p p D)) := fun z => by rw [transform_store ho'.get R' z, h4]
  obtain ⟨f, e1, e2⟩ := holds_of_features (T := 2) two_pos
    (fun _ => .ok [⟨.float64, [p, p], matItem (D.map fun r => (r : ℂ))⟩]) .float64 (fun _ => x)
    (fun _ => D.map fun r => (r : ℂ)) fun _ => rfl
  refine ⟨f, ?_, e2⟩
  rw [← e1]
  simp only [store] at hf hf' htr
  simp only [featEstTransform, featuresTransformObj, featRun, List.foldl, featStep, estFeatures,
    List.length_cons, List.length_nil, List.replicate, List.getElem?_cons_zero, List.getElem?_cons_succ,
    List.set_cons_zero, List.set_cons_succ, hf, hf', htr]
  rfl

/-- The natural-gradient Tyler estimators, `n_jobs = 1`: with two or more trials of which the first
can be fitted, `TypeError`. -/
theorem C154_natural_gradient_sequential (L : Lib) (h0 : Heap) (c : Bool) (A : Attrs)
    (hA : A.method = "natural gradient") (x y : NDArr) (xs : List NDArr) (C : NDArr)
    (hC : FreshFit L c .tyler A none x C)
    (hp : ∃ p : ℕ, (∃ D : Matrix (Fin p) (Fin p) ℝ, C = .real (.d2 p p D)) ∨
      ∃ D : Matrix (Fin p) (Fin p) ℂ, C = .cplx (.d2 p p D)) :
    (featEstTransform L (construct h0 c .tyler A).1 h0.length (x :: y :: xs) .sequential).2 =
      some (.error .typeError) := by
  obtain ⟨o, -, ho, hk, -⟩ := construct_ok h0 c .tyler A .naturalGradient
    (fun _ => setMethod_ng A _ hA)
  obtain ⟨R, h1, h2⟩ := (freshFit_iff (fun _ => setMethod_ng _ 0 hA) (fun h => absurd rfl h) none _
    _).1 hC
  have hf := ho.fit (L := L) (fun h => absurd rfl h) hk x none
  rw [h1] at hf
  have htr := transform_store ho.get R x
  rw [h2] at htr
  have hok : (fit L (construct h0 c .tyler A).1 h0.length x none).2 = .ok () := by rw [hf]; rfl
  have h3 := C45_refit_raises L h0 c A hA _ none hok [] y none
  simp only [List.foldl_nil, hf] at h3
  obtain ⟨p, hp⟩ := hp
  obtain ⟨dt, v, h4⟩ := covFeature_ok hp
  obtain ⟨g, hg⟩ := wrapFeature_one dt p v
  simp only [store] at htr hf h3
  simp only [featEstTransform, featuresTransformObj, seqFeatures, estFeatures, hf, htr, bind,
    Except.bind, h4, pure, Except.pure, hg]
  cases hy : fit L ((construct h0 c .tyler A).1.set h0.length
    { o with covariance := some R.covariance, err := R.err, iteration := R.iteration }) h0.length y
      none with
  | mk z1 z2 =>
    rw [hy] at h3
    simp only at h3
    subst h3
    rfl

/-- The same with processes, if one process gets both trials in a batch. -/
theorem C154_natural_gradient_batch (L : Lib) (h0 : Heap) (c : Bool) (A : Attrs)
    (hA : A.method = "natural gradient") (x y : NDArr) (C : NDArr)
    (hC : FreshFit L c .tyler A none x C)
    (hp : ∃ p : ℕ, (∃ D : Matrix (Fin p) (Fin p) ℝ, C = .real (.d2 p p D)) ∨
      ∃ D : Matrix (Fin p) (Fin p) ℂ, C = .cplx (.d2 p p D)) :
    (featEstTransform L (construct h0 c .tyler A).1 h0.length [x, y]
      (.processes 1 (fun _ => 0) [0, 0, 1, 1])).2 = some (.error .typeError) := by
  obtain ⟨o, -, ho, hk, -⟩ := construct_ok h0 c .tyler A .naturalGradient
    (fun _ => setMethod_ng A _ hA)
  obtain ⟨R, h1, h2⟩ := (freshFit_iff (fun _ => setMethod_ng _ 0 hA) (fun h => absurd rfl h) none _
    _).1 hC
  have hf := ho.fit (L := L) (fun h => absurd rfl h) hk x none
  rw [h1] at hf
  have htr := transform_store ho.get R x
  rw [h2] at htr
  have hok : (fit L (construct h0 c .tyler A).1 h0.length x none).2 = .ok () := by rw [hf]; rfl
  have h3 := C45_refit_raises L h0 c A hA _ none hok [] y none
  simp only [List.foldl_nil, hf] at h3
  obtain ⟨p, hp⟩ := hp
  obtain ⟨dt, v, h4⟩ := covFeature_ok hp
  obtain ⟨g, hg⟩ := wrapFeature_one dt p v
  simp only [store] at htr hf h3
  cases hy : fit L ((construct h0 c .tyler A).1.set h0.length
    { o with covariance := some R.covariance, err := R.err, iteration := R.iteration }) h0.length y
      none with
  | mk z1 z2 =>
    rw [hy] at h3
    simp only at h3
    subst h3
    simp only [featEstTransform, featuresTransformObj, featRun, List.foldl, featStep, estFeatures,
      List.length_cons, List.length_nil, List.replicate, List.getElem?_cons_zero,
      List.getElem?_cons_succ, List.set_cons_zero, List.set_cons_succ, hf, htr, hy, bind, Except.bind, h4,
      pure, Except.pure, hg]
    rfl

/-- A Tyler estimator whose `iter_max` is 0 stores the empirical covariance. -/
theorem freshFit_iter0 (L : Lib) {N p : ℕ} (hN : 0 < N) (hp : 0 < p) (X : Matrix (Fin N) (Fin p) ℝ) :
    FreshFit L false .tyler ⟨0, 0, 1, 0, "None", "fixed-point", false⟩ none (.real (.d2 N p X))
      (.real (.d2 p p (empiricalCovariance X))) := by
  refine (freshFit_iff (fun _ => setMethod_fp _ 0 rfl) (fun _ => rfl) none _ _).2 ?_
  have h := fitRes_real hN hp L .tyler ⟨0, 0, 1, 0, "None", "fixed-point", false⟩ X none
  have hl : ∀ step, fpLoop (p := p) (𝕜 := ℝ) step 1 0 ⟨.fin (empiricalCovariance X), .inf, 0⟩ =
      .ok ⟨.fin (empiricalCovariance X), .inf, 0⟩ := fun step => by
    rw [fpLoop]; simp
  have hn : FMat.normalise "None" (.fin (empiricalCovariance X)) = .fin (empiricalCovariance X) := by
    simp [FMat.normalise, normFn]
  simp only [Option.map_none, Cls.realEst, RealEst.run, tylerFixedPoint, Option.getD_none, runLoop, hl,
    bind, Except.bind, pure, Except.pure, hn, setCovReal_fin hp] at h
  exact ⟨_, h, rfl⟩

/-- C154 is false. Two trials, each of which a new fixed-point estimator can fit: with two threads
both items can be the covariance of the second trial. Two trials that a new natural-gradient
estimator can fit: `n_jobs = 1` raises `TypeError`. -/
theorem C154_violated (eR : ∀ p, Eigh (Fin p) ℝ) (eC : ∀ p, Eigh (Fin p) ℂ) :
    (∃ (A : Attrs) (x : Fin 2 → NDArr) (C : Fin 2 → Matrix (Fin 2) (Fin 2) ℝ),
      (∀ t, FreshFit (exLib eR eC) false .tyler A none (x t) (.real (.d2 2 2 (C t)))) ∧
      Backend.Possible 2 (.threads [0, 1, 0, 1]) ∧
      ∃ f, (featEstTransform (exLib eR eC) (construct [] false .tyler A).1 0 (List.ofFn x)
          (.threads [0, 1, 0, 1])).2 = some (.ok f) ∧
        ¬ HoldsMatrices f .float64 2 (List.ofFn fun t => (C t).map fun r => (r : ℂ))) ∧
    ∃ (A : Attrs) (x C : NDArr), FreshFit (exLib eR eC) false .tyler A none x C ∧
      (featEstTransform (exLib eR eC) (construct [] false .tyler A).1 0 [x, x] .sequential).2 =
        some (.error .typeError) := by
  constructor
  · let X : Fin 2 → Matrix (Fin 2) (Fin 2) ℝ := fun t => if t = 0 then 0 else 1
    refine ⟨⟨0, 0, 1, 0, "None", "fixed-point", false⟩, fun t => .real (.d2 2 2 (X t)),
      fun t => empiricalCovariance (X t), fun t => freshFit_iter0 _ two_pos two_pos _,
      by unfold Backend.Possible Complete; decide, ?_⟩
    obtain ⟨f, h1, h2⟩ := C154_threads (exLib eR eC) [] .tyler
      ⟨0, 0, 1, 0, "None", "fixed-point", false⟩ (fun _ => rfl) [] (fun _ => rfl) _ _ _ _
      (freshFit_iter0 _ two_pos two_pos (X 0)) (freshFit_iter0 _ two_pos two_pos (X 1))
    refine ⟨f, h1, fun h => ?_⟩
    have h3 := h.2.2
    rw [h2.2.2] at h3
    simp only [List.ofFn_succ, List.ofFn_zero, List.map_cons, List.map_nil, packed, Except.ok.injEq,
      Export.single.injEq, NArr.mk.injEq, NDVal.node.injEq, List.cons.injEq] at h3
    have h4 := matItem_inj h3.2.2.1
    have h5 := congrFun (congrFun h4 0) 0
    simp [X, empiricalCovariance] at h5
  · let A : Attrs := ⟨0, 0, 1 / 10000, 100, "None", "natural gradient", false⟩
    obtain ⟨S, v, hS, h1, h2⟩ := C45_partial (exLib eR eC) [] A rfl (N := 2) (p := 2)
      (by norm_num) (by norm_num) !![1, 0; 0, 1] none (fun _ => ⟨1, PosDef.one, rfl⟩)
    obtain ⟨o, h3, -⟩ := construct_ok [] false .tyler A .naturalGradient
      (fun _ => setMethod_ng A _ rfl)
    have hF : FreshFit (exLib eR eC) false .tyler A none (.real (.d2 2 2 !![1, 0; 0, 1]))
        (.real (.d2 2 2 S)) := ⟨h3, h1, _, _, h2⟩
    exact ⟨A, _, _, hF, C154_natural_gradient_sequential (exLib eR eC) [] false A rfl _ _ [] _ hF
      ⟨2, .inl ⟨S, rfl⟩⟩⟩

/-- The hypotheses of `C154_real_partial` are met by two trials of different lengths. -/
example (L : Lib) : ∃ (x : Fin 2 → NDArr) (C : Fin 2 → Matrix (Fin 2) (Fin 2) ℝ),
    (∀ t, FreshFit L false .tyler ⟨0, 0, 1, 0, "None", "fixed-point", false⟩ none (x t)
      (.real (.d2 2 2 (C t)))) ∧ C 0 ≠ C 1 := by
  refine ⟨![.real (.d2 2 2 1), .real (.d2 1 2 !![1, 1])], ![empiricalCovariance (1 : Matrix (Fin 2) (Fin 2) ℝ),
    empiricalCovariance !![1, 1]], fun t => ?_, fun h => ?_⟩
  · fin_cases t
    · exact freshFit_iter0 L two_pos two_pos _
    · exact freshFit_iter0 L one_pos two_pos _
  · have := congrFun (congrFun h 0) 0
    simp [empiricalCovariance, Matrix.mul_apply] at this

end RS
