import Verif.Lemmas.Estimators
import Verif.Props.CovRun
import Verif.Props.Mappings

/-
The estimator objects: a zero sample (C43), history independence (C44), refitting with the natural
gradient (C45), changing parameters (C46), the complex natural gradient (C48), scoring (C78), copies (C79).
-/
set_option autoImplicit false

namespace RS
open Matrix ComplexOrder

/-! ## C43 -/

/-- `TylerShapeMatrix` (fixed point): whatever happened before, fitting data with a zero sample
raises `ValueError` and changes nothing, for every initial point. -/
theorem C43_real (L : Lib) (h0 : Heap) (A : Attrs) (hA : A.method = "fixed-point") (ops : List Op)
    {N p : ℕ} (hp : 0 < p) (Z : Matrix (Fin N) (Fin p) ℝ) (i : Fin N) (hi : sample Z i = 0)
    (init : Option (Matrix (Fin p) (Fin p) ℝ)) (hmax : 1 ≤ (attrsAfter A ops).iterMax) :
    fit L (after L h0 false .tyler A ops) h0.length (.real (.d2 N p Z))
        (init.map fun S => .real (.d2 p p S)) =
      (after L h0 false .tyler A ops, .error .valueError) := by
  obtain ⟨o, k, h1, h2, h3⟩ := fit_after L h0 false .tyler A (fun _ => hA) ops (.real (.d2 N p Z))
    (init.map fun S => .real (.d2 p p S))
  have hN : 0 < N := i.pos
  rw [h3, fitRes_real hN hp]
  have hz : ∀ j, Z i j = 0 := fun j => congrFun hi j
  have hrun : ((Cls.tyler.realEst (attrsAfter A ops)).run (L.envR N p) L.chi2 Z init
      (attrsAfter A ops).tol (attrsAfter A ops).iterMax) =
      .ok ⟨.nan, .nan, 1, (1 : ℤ) == (attrsAfter A ops).iterMax⟩ := by
    simp only [Cls.realEst, RealEst.run, tylerFixedPoint]
    rw [runLoop_nan _ _ (by omega) _ (by rw [tylerStep_zero (L.envR N p) Z i hz])]
    rfl
  rw [hrun]
  rfl

/-- `ComplexTylerShapeMatrix`. -/
theorem C43_complex (L : Lib) (h0 : Heap) (A : Attrs) (hA : A.method = "fixed-point")
    (ops : List Op) {N p : ℕ} (hp : 0 < p) (Z : Matrix (Fin N) (Fin p) ℂ) (i : Fin N)
    (hi : sample Z i = 0) (init : Option (Matrix (Fin p) (Fin p) ℂ))
    (hmax : 1 ≤ (attrsAfter A ops).iterMax) :
    fit L (after L h0 true .tyler A ops) h0.length (.cplx (.d2 N p Z))
        (init.map fun S => .cplx (.d2 p p S)) =
      (after L h0 true .tyler A ops, .error .valueError) := by
  obtain ⟨o, k, h1, h2, h3⟩ := fit_after L h0 true .tyler A (fun _ => hA) ops (.cplx (.d2 N p Z))
    (init.map fun S => .cplx (.d2 p p S))
  have hN : 0 < N := i.pos
  rw [h3, fitRes_complex hN hp]
  have hz : ∀ j, Z i j = 0 := fun j => congrFun hi j
  have hrun : ((Cls.tyler.complexEst (attrsAfter A ops)).run (L.envC N p) L.chi2 Z init
      (attrsAfter A ops).tol (attrsAfter A ops).iterMax) =
      .ok ⟨.nan, .nan, 1, (1 : ℤ) == (attrsAfter A ops).iterMax⟩ := by
    simp only [Cls.complexEst, ComplexEst.run, complexTylerFixedPoint]
    rw [runLoop_nan _ _ (by omega) _ (by rw [complexTylerStep_zero (L.envC N p) Z i hz])]
    rfl
  rw [hrun]
  rfl

/-- The underlying function itself returns after one iteration, with NaN and without the
non-convergence warning (unless `iter_max` is 1). -/
theorem C43_silent_real {N p : ℕ} (env : NumEnv N p ℝ) (Z : Matrix (Fin N) (Fin p) ℝ) (i : Fin N)
    (hi : sample Z i = 0) (init : Option (Matrix (Fin p) (Fin p) ℝ)) (tol : ℝ) (iterMax : ℤ)
    (hmax : 2 ≤ iterMax) (name : String) :
    tylerFixedPoint env Z init tol iterMax name = .ok ⟨.nan, .nan, 1, false⟩ := by
  simp only [tylerFixedPoint]
  rw [runLoop_nan _ _ (by omega) _ (by rw [tylerStep_zero env Z i (fun j => congrFun hi j)])]
  have : ((1 : ℤ) == iterMax) = false := by rw [beq_eq_false_iff_ne]; omega
  rw [this]
  rfl

/-- Complex data. -/
theorem C43_silent_complex {N p : ℕ} (env : NumEnv N p ℂ) (Z : Matrix (Fin N) (Fin p) ℂ) (i : Fin N)
    (hi : sample Z i = 0) (init : Option (Matrix (Fin p) (Fin p) ℂ)) (tol : ℝ) (iterMax : ℤ)
    (hmax : 2 ≤ iterMax) (name : String) :
    complexTylerFixedPoint env Z init tol iterMax name = .ok ⟨.nan, .nan, 1, false⟩ := by
  simp only [complexTylerFixedPoint]
  rw [runLoop_nan _ _ (by omega) _ (by rw [complexTylerStep_zero env Z i (fun j => congrFun hi j)])]
  have : ((1 : ℤ) == iterMax) = false := by rw [beq_eq_false_iff_ne]; omega
  rw [this]
  rfl

/-- The hypotheses of `C43` are met: default arguments, two samples of which the second is 0. -/
example : ∃ (A : Attrs) (Z : Matrix (Fin 2) (Fin 2) ℝ), A.method = "fixed-point" ∧
    sample Z 1 = 0 ∧ Z ≠ 0 ∧ 1 ≤ (attrsAfter A []).iterMax :=
  ⟨⟨0, 0, 1 / 10000, 100, "None", "fixed-point", false⟩, !![1, 2; 0, 0], rfl,
    by ext j; fin_cases j <;> rfl, fun h => by simpa using congrFun (congrFun h 0) 0,
    by decide⟩

/-! ## C44 -/

/-- `fit` on an object with any history of fits (successful or not) and parameter changes has the
same outcome, and stores the same `covariance_`, `err_` and `iteration_`, as `fit` on a fresh
object with the same parameters. -/
theorem C44_history_independent (L : Lib) (h0 h0' : Heap) (complex : Bool) (cls : Cls) (A : Attrs)
    (hm : cls = .tyler → A.method = "fixed-point") (ops : List Op)
    (hm' : cls = .tyler → (attrsAfter A ops).method = "fixed-point") (X : NDArr)
    (init : Option NDArr) :
    let used := fit L (after L h0 complex cls A ops) h0.length X init
    let fresh := fit L (construct h0' complex cls (attrsAfter A ops)).1 h0'.length X init
    used.2 = fresh.2 ∧ (used.2 = .ok () → ∃ C err k,
      Fitted used.1 h0.length C err k ∧ Fitted fresh.1 h0'.length C err k) := by
  obtain ⟨o, k, h1, h2, h3⟩ := fit_after L h0 complex cls A hm ops X init
  obtain ⟨o', k', h1', h2', h3'⟩ := fit_after L h0' complex cls (attrsAfter A ops) hm' [] X init
  have e : after L h0' complex cls (attrsAfter A ops) [] =
    (construct h0' complex cls (attrsAfter A ops)).1 := rfl
  have e' : attrsAfter (attrsAfter A ops) [] = attrsAfter A ops := rfl
  rw [e] at h1' h3'
  rw [e'] at h1' h3'
  simp only [h3, h3']
  cases hr : fitRes L complex cls .fixedPoint (attrsAfter A ops) X init with
  | error e => exact ⟨rfl, fun h => by cases h⟩
  | ok r => exact ⟨rfl, fun _ => ⟨_, _, _, store_fitted h1.get r, store_fitted h1'.get r⟩⟩

/-- What is stored is what the estimation function returns for the current parameters (real). -/
theorem C44_real (L : Lib) (h0 : Heap) (cls : Cls) (A : Attrs)
    (hm : cls = .tyler → A.method = "fixed-point") (ops : List Op) {N p : ℕ} (hN : 0 < N)
    (hp : 0 < p) (Z : Matrix (Fin N) (Fin p) ℝ) (init : Option (Matrix (Fin p) (Fin p) ℝ))
    (S : Matrix (Fin p) (Fin p) ℝ) (delta : Delta) (iteration : ℕ) (warned : Bool)
    (hrun : (cls.realEst (attrsAfter A ops)).run (L.envR N p) L.chi2 Z init
      (attrsAfter A ops).tol (attrsAfter A ops).iterMax = .ok ⟨.fin S, delta, iteration, warned⟩) :
    (fit L (after L h0 false cls A ops) h0.length (.real (.d2 N p Z))
      (init.map fun S => .real (.d2 p p S))).2 = .ok () ∧
    Fitted (fit L (after L h0 false cls A ops) h0.length (.real (.d2 N p Z))
      (init.map fun S => .real (.d2 p p S))).1 h0.length (.real (.d2 p p S)) (.delta delta)
      (some iteration) := by
  obtain ⟨o, k, h1, h2, h3⟩ := fit_after L h0 false cls A hm ops (.real (.d2 N p Z))
    (init.map fun S => .real (.d2 p p S))
  have hr : fitRes L false cls .fixedPoint (attrsAfter A ops) (.real (.d2 N p Z))
      (init.map fun S => .real (.d2 p p S)) =
      .ok ⟨.real (.d2 p p S), .delta delta, some iteration⟩ := by
    rw [fitRes_real hN hp, hrun]
    simp only [bind, Except.bind, setCovReal_fin hp]
    rfl
  rw [h3, hr]
  exact ⟨rfl, store_fitted h1.get _⟩

/-- Complex estimators. -/
theorem C44_complex (L : Lib) (h0 : Heap) (cls : Cls) (A : Attrs)
    (hm : cls = .tyler → A.method = "fixed-point") (ops : List Op) {N p : ℕ} (hN : 0 < N)
    (hp : 0 < p) (Z : Matrix (Fin N) (Fin p) ℂ) (init : Option (Matrix (Fin p) (Fin p) ℂ))
    (S : Matrix (Fin p) (Fin p) ℂ) (delta : Delta) (iteration : ℕ) (warned : Bool)
    (hrun : (cls.complexEst (attrsAfter A ops)).run (L.envC N p) L.chi2 Z init
      (attrsAfter A ops).tol (attrsAfter A ops).iterMax = .ok ⟨.fin S, delta, iteration, warned⟩) :
    (fit L (after L h0 true cls A ops) h0.length (.cplx (.d2 N p Z))
      (init.map fun S => .cplx (.d2 p p S))).2 = .ok () ∧
    Fitted (fit L (after L h0 true cls A ops) h0.length (.cplx (.d2 N p Z))
      (init.map fun S => .cplx (.d2 p p S))).1 h0.length (.cplx (.d2 p p S)) (.delta delta)
      (some iteration) := by
  obtain ⟨o, k, h1, h2, h3⟩ := fit_after L h0 true cls A hm ops (.cplx (.d2 N p Z))
    (init.map fun S => .cplx (.d2 p p S))
  have hr : fitRes L true cls .fixedPoint (attrsAfter A ops) (.cplx (.d2 N p Z))
      (init.map fun S => .cplx (.d2 p p S)) =
      .ok ⟨.cplx (.d2 p p S), .delta delta, some iteration⟩ := by
    rw [fitRes_complex hN hp, hrun]
    simp only [bind, Except.bind, setCovComplex_fin hp]
    rfl
  rw [h3, hr]
  exact ⟨rfl, store_fitted h1.get _⟩

/-- On spanning data with meaningful parameters `fit` always succeeds, after any history, and
stores a positive definite matrix (real). -/
theorem C44_fit_posDef_real (L : Lib) (hL : ∀ N p, (L.envR N p).eigh.Ok) (hc : L.chi2.Ok) (h0 : Heap)
    (cls : Cls) (A : Attrs) (hm : cls = .tyler → A.method = "fixed-point") (ops : List Op) {N p : ℕ}
    (hN : 0 < N) (hp : 0 < p) (Z : Matrix (Fin N) (Fin p) ℝ) (hZ : Spans Z)
    (hv : (cls.realEst (attrsAfter A ops)).Valid Z) (init : Option (Matrix (Fin p) (Fin p) ℝ))
    (hi : ∀ S ∈ init, S.PosDef) :
    ∃ (S : Matrix (Fin p) (Fin p) ℝ) (delta : Delta) (iteration : ℕ), S.PosDef ∧
      (fit L (after L h0 false cls A ops) h0.length (.real (.d2 N p Z))
        (init.map fun S => .real (.d2 p p S))).2 = .ok () ∧
      Fitted (fit L (after L h0 false cls A ops) h0.length (.real (.d2 N p Z))
        (init.map fun S => .real (.d2 p p S))).1 h0.length (.real (.d2 p p S)) (.delta delta)
        (some iteration) := by
  obtain ⟨sigma, result, delta, iteration, h1, -, -, h4⟩ := C34_real
    (cls.realEst (attrsAfter A ops)) (L.envR N p) (hL N p) L.chi2 hc Z hp hZ hv init hi
    (attrsAfter A ops).tol (attrsAfter A ops).iterMax
  exact ⟨result, delta, iteration, h4, C44_real L h0 cls A hm ops hN hp Z init _ _ _ _ h1⟩

/-- Complex estimators. -/
theorem C44_fit_posDef_complex (L : Lib) (hL : ∀ N p, (L.envC N p).eigh.Ok) (hc : L.chi2.Ok)
    (h0 : Heap) (cls : Cls) (A : Attrs) (hm : cls = .tyler → A.method = "fixed-point")
    (ops : List Op) {N p : ℕ} (hN : 0 < N) (hp : 0 < p) (Z : Matrix (Fin N) (Fin p) ℂ) (hZ : Spans Z)
    (hv : (cls.complexEst (attrsAfter A ops)).Valid Z) (init : Option (Matrix (Fin p) (Fin p) ℂ))
    (hi : ∀ S ∈ init, S.PosDef) :
    ∃ (S : Matrix (Fin p) (Fin p) ℂ) (delta : Delta) (iteration : ℕ), S.PosDef ∧
      (fit L (after L h0 true cls A ops) h0.length (.cplx (.d2 N p Z))
        (init.map fun S => .cplx (.d2 p p S))).2 = .ok () ∧
      Fitted (fit L (after L h0 true cls A ops) h0.length (.cplx (.d2 N p Z))
        (init.map fun S => .cplx (.d2 p p S))).1 h0.length (.cplx (.d2 p p S)) (.delta delta)
        (some iteration) := by
  obtain ⟨sigma, result, delta, iteration, h1, -, -, h4⟩ := C34_complex
    (cls.complexEst (attrsAfter A ops)) (L.envC N p) (hL N p) L.chi2 hc Z hp hZ hv init hi
    (attrsAfter A ops).tol (attrsAfter A ops).iterMax
  exact ⟨result, delta, iteration, h4, C44_complex L h0 cls A hm ops hN hp Z init _ _ _ _ h1⟩

/-- The hypotheses of C44 are met: a Student-t object fitted on bad data, given another `df`, and
then fitted on four samples. -/
example (L : Lib) (hL : ∀ N p, (L.envR N p).eigh.Ok) (hc : L.chi2.Ok) :
    ∃ (S : Matrix (Fin 2) (Fin 2) ℝ) (delta : Delta) (iteration : ℕ), S.PosDef ∧
      (fit L (after L [] false .student ⟨3, 0, 1 / 10000, 100, "None", "fixed-point", false⟩
        [.fit (.real (.d0 1)) none, .set fun A => { A with df := 5 }]) 0
        (.real (.d2 4 2 (demoX ℝ))) none).2 = .ok () ∧
      Fitted (fit L (after L [] false .student ⟨3, 0, 1 / 10000, 100, "None", "fixed-point", false⟩
        [.fit (.real (.d0 1)) none, .set fun A => { A with df := 5 }]) 0
        (.real (.d2 4 2 (demoX ℝ))) none).1 0 (.real (.d2 2 2 S)) (.delta delta) (some iteration) :=
  C44_fit_posDef_real L hL hc [] .student _ (by intro h; cases h) _ (by norm_num) two_pos (demoX ℝ)
    demoX_spans (by norm_num [Cls.realEst, attrsAfter, RealEst.Valid]) none (by simp)

/-! ## C45 -/

/-- A `TylerShapeMatrix(method='natural gradient')` that has been fitted once: every later `fit`
raises `TypeError`, whatever the data, initial point and parameter changes in between. -/
theorem C45_refit_raises (L : Lib) (h0 : Heap) (complex : Bool) (A : Attrs)
    (hA : A.method = "natural gradient") (X1 : NDArr) (init1 : Option NDArr)
    (h1 : (fit L (construct h0 complex .tyler A).1 h0.length X1 init1).2 = .ok ())
    (ops : List Op) (X : NDArr) (init : Option NDArr) :
    (fit L (ops.foldl (Op.run L h0.length)
      (fit L (construct h0 complex .tyler A).1 h0.length X1 init1).1) h0.length X init).2 =
      .error .typeError := by
  obtain ⟨o, -, ho, hk, -⟩ := construct_ok h0 complex .tyler A .naturalGradient
    (fun _ => setMethod_ng A _ hA)
  have hfit := ho.fit (L := L) (fun h => absurd rfl h) hk X1 init1
  have key : ∀ (ops : List Op) (h : Heap), (∃ o, h[h0.length]? = some o ∧ o.iteration = none) →
      ∃ o, (ops.foldl (Op.run L h0.length) h)[h0.length]? = some o ∧ o.iteration = none := by
    intro ops
    induction ops with
    | nil => intro h hh; exact hh
    | cons op ops ih =>
      rintro h ⟨o, g1, g2⟩
      refine ih _ ?_
      cases op with
      | set f =>
        exact ⟨{ o with attrs := f o.attrs }, by
          simp only [Op.run, setAttr, g1]; exact get_set_self g1, g2⟩
      | fit X init =>
        simp only [Op.run, fit_none g1 g2]
        exact ⟨o, g1, g2⟩
  have hnone : ∃ o, ((fit L (construct h0 complex .tyler A).1 h0.length X1 init1).1)[h0.length]? =
      some o ∧ o.iteration = none := by
    rw [hfit] at h1 ⊢
    cases hr : fitRes L complex .tyler .naturalGradient A X1 init1 with
    | error e => rw [hr] at h1; cases h1
    | ok r =>
      have hn : r.iteration = none := by
        unfold fitRes at hr
        cases complex
        · simp only [Bool.false_eq_true, if_false] at hr
          unfold fitReal at hr
          cases g1 : checkArray X1 with
          | error e => simp [g1, bind, Except.bind] at hr
          | ok y =>
            simp only [g1, bind, Except.bind] at hr
            match y, hr with
            | .real (.d2 N p Z), hr =>
              simp only at hr
              cases g2 : initReal p init1 with
              | error e => simp [g2] at hr
              | ok i =>
                simp only [g2] at hr
                cases g3 : ngReal L Z i A.normalisation with
                | error e => simp [g3] at hr
                | ok r' =>
                  simp only [g3] at hr
                  cases g4 : setCovReal r'.1 with
                  | error e => simp [g4] at hr
                  | ok C => simp only [g4, pure, Except.pure] at hr; cases hr; rfl
        · simp only [if_true] at hr
          unfold fitComplex at hr
          cases g1 : validateData X1 with
          | error e => simp [g1, bind, Except.bind] at hr
          | ok y =>
            simp only [g1, bind, Except.bind] at hr
            match y, hr with
            | .cplx (.d2 N p Z), hr =>
              simp only at hr
              cases g2 : initReal (p + p) init1 with
              | error e => simp [g2] at hr
              | ok i =>
                simp only [g2] at hr
                cases g3 : ngComplex L Z i A.normalisation with
                | error e => simp [g3] at hr
                | ok r' =>
                  simp only [g3] at hr
                  cases g4 : setCovComplex r'.1 with
                  | error e => simp [g4] at hr
                  | ok C => simp only [g4, pure, Except.pure] at hr; cases hr; rfl
      refine ⟨_, get_set_self ho.get, ?_⟩
      exact hn
  obtain ⟨o', g1, g2⟩ := key ops _ hnone
  rw [fit_none g1 g2]

/-- The first fit works whenever the solver returns a positive definite matrix at which the cost
can be evaluated: what is missing of C45 is everything after the first fit. -/
theorem C45_partial (L : Lib) (h0 : Heap) (A : Attrs)
    (hA : A.method = "natural gradient") {N p : ℕ} (hN : 0 < N) (hp : 0 < p)
    (Z : Matrix (Fin N) (Fin p) ℝ) (init : Option (Matrix (Fin p) (Fin p) ℝ))
    (hsolve : ∀ cost, ∃ S : Matrix (Fin p) (Fin p) ℝ, S.PosDef ∧
      L.solve p cost init = .ok (.fin S)) :
    ∃ (S : Matrix (Fin p) (Fin p) ℝ) (v : CostVal), S.PosDef ∧
      (fit L (construct h0 false .tyler A).1 h0.length (.real (.d2 N p Z))
        (init.map fun S => .real (.d2 p p S))).2 = .ok () ∧
      Fitted (fit L (construct h0 false .tyler A).1 h0.length (.real (.d2 N p Z))
        (init.map fun S => .real (.d2 p p S))).1 h0.length (.real (.d2 p p S)) (.negCost v) none := by
  obtain ⟨o, -, ho, hk, -⟩ := construct_ok h0 false .tyler A .naturalGradient
    (fun _ => setMethod_ng A _ hA)
  have hfit := ho.fit (L := L) (fun h => absurd rfl h) hk (.real (.d2 N p Z))
    (init.map fun S => .real (.d2 p p S))
  have hng : ∃ (S : Matrix (Fin p) (Fin p) ℝ) (v : CostVal), S.PosDef ∧
      ngReal L Z init A.normalisation = .ok (.fin S, v) := by
    obtain ⟨S, hS, h2⟩ := hsolve (ngCost L Z)
    obtain ⟨S', hS', hpd⟩ := C31_posDef A.normalisation hp S hS
    obtain ⟨v, hv⟩ := ngCost_ok L Z S
    refine ⟨S', v, hpd, ?_⟩
    simp only [ngReal, bind, Except.bind, h2, hv, hS']
    rfl
  obtain ⟨S, v, hS, h2⟩ := hng
  have hr : fitRes L false .tyler .naturalGradient A (.real (.d2 N p Z))
      (init.map fun S => .real (.d2 p p S)) = .ok ⟨.real (.d2 p p S), .negCost v, none⟩ := by
    simp only [fitRes, Bool.false_eq_true, if_false, fitReal, checkArray_real hN hp, bind,
      Except.bind, initReal_some, h2, setCovReal_fin hp]
    rfl
  rw [hfit, hr]
  exact ⟨S, v, hS, rfl, store_fitted ho.get _⟩

/-- A library whose solver returns the identity. -/
noncomputable def exLib (eR : ∀ p, Eigh (Fin p) ℝ) (eC : ∀ p, Eigh (Fin p) ℂ) : Lib where
  envR _ p := ⟨eR p, fun _ _ => .nan⟩
  envC _ p := ⟨eC p, fun _ _ => .nan⟩
  chi2 := ⟨fun q _ => q, fun _ _ => 0⟩
  solve _ _ _ := .ok (.fin 1)
  tScore _ _ _ := .ok 0
  scoreValidates := true

/-- C45 is false: there are data that can be fitted once and not twice. -/
theorem C45_violated (eR : ∀ p, Eigh (Fin p) ℝ) (eC : ∀ p, Eigh (Fin p) ℂ) :
    ∃ (A : Attrs) (X : NDArr),
      (fit (exLib eR eC) (construct [] false .tyler A).1 0 X none).2 = .ok () ∧
      (fit (exLib eR eC) (fit (exLib eR eC) (construct [] false .tyler A).1 0 X none).1 0 X none).2 =
        .error .typeError := by
  let A : Attrs := ⟨0, 0, 1 / 10000, 100, "None", "natural gradient", false⟩
  obtain ⟨S, v, hS, h1, -⟩ := C45_partial (exLib eR eC) [] A rfl (N := 2) (p := 2)
    (by norm_num) (by norm_num) !![1, 0; 0, 1] none (fun _ => ⟨1, PosDef.one, rfl⟩)
  exact ⟨A, _, h1, C45_refit_raises (exLib eR eC) [] false A rfl _ none h1 [] _ none⟩

/-! ## C46 -/

/-- Changes of `tol`, `iter_max`, `normalisation` (and `df`, `q`) between fits are honoured by
the next fit: it is the fit of a fresh object with the new values. What is missing of C46 is
the change of `method`. -/
theorem C46_partial (L : Lib) (h0 : Heap) (complex : Bool) (cls : Cls) (A : Attrs)
    (hm : cls = .tyler → A.method = "fixed-point") (ops : List Op) (f : Attrs → Attrs)
    (hf : ∀ A, (f A).method = A.method)
    (hops : cls = .tyler → (attrsAfter A ops).method = "fixed-point") (X : NDArr)
    (init : Option NDArr) :
    let used := fit L (setAttr (after L h0 complex cls A ops) h0.length f) h0.length X init
    let fresh := fit L (construct h0 complex cls (f (attrsAfter A ops))).1 h0.length X init
    used.2 = fresh.2 ∧ (used.2 = .ok () → ∃ C err k,
      Fitted used.1 h0.length C err k ∧ Fitted fresh.1 h0.length C err k) := by
  have e1 : setAttr (after L h0 complex cls A ops) h0.length f =
      after L h0 complex cls A (ops ++ [.set f]) := by
    simp only [after, List.foldl_append, List.foldl_cons, List.foldl_nil, Op.run]
  have e2 : f (attrsAfter A ops) = attrsAfter A (ops ++ [.set f]) := by
    simp only [attrsAfter, List.foldl_append, List.foldl_cons, List.foldl_nil]
  rw [e1, e2]
  exact C44_history_independent L h0 h0 complex cls A hm (ops ++ [.set f])
    (fun hc => by rw [← e2, hf]; exact hops hc) X init

/-- A change of `method` has no effect at all: the next fit is the one without the change. -/
theorem C46_method_ignored (L : Lib) (h0 : Heap) (complex : Bool) (A : Attrs)
    (hm : A.method = "fixed-point") (ops : List Op) (method : String) (X : NDArr)
    (init : Option NDArr) :
    let changed := fit L (setAttr (after L h0 complex .tyler A ops) h0.length
      fun A => { A with method := method }) h0.length X init
    let unchanged := fit L (after L h0 complex .tyler A ops) h0.length X init
    changed.2 = unchanged.2 ∧ (changed.2 = .ok () → ∃ C err k,
      Fitted changed.1 h0.length C err k ∧ Fitted unchanged.1 h0.length C err k) := by
  have e1 : setAttr (after L h0 complex .tyler A ops) h0.length
      (fun A => { A with method := method }) =
      after L h0 complex .tyler A (ops ++ [.set fun A => { A with method := method }]) := by
    simp only [after, List.foldl_append, List.foldl_cons, List.foldl_nil, Op.run]
  have e2 : attrsAfter A (ops ++ [.set fun A => { A with method := method }]) =
      { attrsAfter A ops with method := method } := by
    simp only [attrsAfter, List.foldl_append, List.foldl_cons, List.foldl_nil]
  rw [e1]
  obtain ⟨o, k, h1, h2, h3⟩ := fit_after L h0 complex .tyler A (fun _ => hm) ops X init
  obtain ⟨o', k', h1', h2', h3'⟩ := fit_after L h0 complex .tyler A (fun _ => hm)
    (ops ++ [.set fun A => { A with method := method }]) X init
  have e3 : fitRes L complex .tyler .fixedPoint { attrsAfter A ops with method := method } X init =
      fitRes L complex .tyler .fixedPoint (attrsAfter A ops) X init := rfl
  rw [e2, e3] at h3'
  simp only [h3, h3']
  cases hr : fitRes L complex .tyler .fixedPoint (attrsAfter A ops) X init with
  | error e => exact ⟨rfl, fun h => by cases h⟩
  | ok r => exact ⟨rfl, fun _ => ⟨_, _, _, store_fitted h1'.get r, store_fitted h1.get r⟩⟩

/-- C46 is false: after `est.method = 'natural gradient'` a fit still reports an iteration count,
which an estimator constructed with that method never does. -/
theorem C46_violated (eR : ∀ p, Eigh (Fin p) ℝ) (eC : ∀ p, Eigh (Fin p) ℂ) (hR : ∀ p, (eR p).Ok) :
    ∃ (A : Attrs) (X : NDArr), A.method = "fixed-point" ∧
      (∃ C err k, Fitted (fit (exLib eR eC) (setAttr (construct [] false .tyler A).1 0
        fun A => { A with method := "natural gradient" }) 0 X none).1 0 C err (some k)) ∧
      ∃ C err, Fitted (fit (exLib eR eC) (construct [] false .tyler
        { A with method := "natural gradient" }).1 0 X none).1 0 C err none := by
  let A : Attrs := ⟨0, 0, 1 / 10000, 100, "None", "fixed-point", false⟩
  let Z : Matrix (Fin 2) (Fin 2) ℝ := !![1, 0; 0, 1]
  have hZ : Spans Z := fun v hv => by
    have h0 := hv 0
    have h1 := hv 1
    simp [sample, dotProduct, Fin.sum_univ_two, Z] at h0 h1
    funext j
    fin_cases j
    · exact h0
    · exact h1
  have hn : NonzeroSamples Z := fun i h => by
    fin_cases i
    · simpa [sample, Z] using congrFun h 0
    · simpa [sample, Z] using congrFun h 1
  refine ⟨A, .real (.d2 2 2 Z), rfl, ?_, ?_⟩
  · obtain ⟨S, d, k, -, h2, h3⟩ := C44_fit_posDef_real (exLib eR eC) (fun _ p => hR p)
      ⟨fun _ => rfl, fun _ _ h _ _ => h, fun _ _ => le_rfl⟩ [] .tyler A (fun _ => rfl)
      [.set fun A => { A with method := "natural gradient" }] (by norm_num) (by norm_num) Z hZ hn
      none (fun S h => by simp at h)
    exact ⟨_, _, k, h3⟩
  · obtain ⟨S, v, hS, h1, h2⟩ := C45_partial (exLib eR eC) []
      { A with method := "natural gradient" } rfl (N := 2) (p := 2)
      (by norm_num) (by norm_num) Z none (fun _ => ⟨1, PosDef.one, rfl⟩)
    exact ⟨_, _, h2⟩

/-! ## C48 -/

/-- The returned matrix is Hermitian, whatever the solver returned. -/
theorem C48_hermitian (L : Lib) {N p : ℕ} (X : Matrix (Fin N) (Fin p) ℂ)
    (init : Option (Matrix (Fin (p + p)) (Fin (p + p)) ℝ)) (name : String)
    (M : Matrix (Fin p) (Fin p) ℂ) (v : CostVal)
    (h : ngComplex L X init name = .ok (.fin M, v)) : M.IsHermitian := by
  have hH : ∀ S : Matrix (Fin (p + p)) (Fin (p + p)) ℝ, (ngToComplex S).IsHermitian := by
    intro S
    ext i j
    rw [conjTranspose_apply, ngToComplex_apply, ngToComplex_apply]
    apply Complex.ext <;> simp
    ring
  unfold ngComplex at h
  simp only [bind, Except.bind] at h
  cases hr : ngReal L (of fun i => Fin.append (fun j => (X i j).re) (fun j => (X i j).im)) init
      "None" with
  | error e => simp [hr] at h
  | ok r =>
    obtain ⟨r1, r2⟩ := r
    simp only [hr] at h
    cases r1 with
    | nan => cases h
    | fin S =>
      have h' := (Prod.mk.inj (Except.ok.inj h)).1
      clear h hr
      have hS := hH S
      generalize ngToComplex S = C at h' hS
      unfold FMat.normalise normFn at h'
      simp only at h'
      have real : ∀ r : ℝ, ((r : ℂ)⁻¹ • C).IsHermitian := fun r => by
        rw [IsHermitian, conjTranspose_smul, hS.eq]
        simp
      split_ifs at h' <;> simp only at h' <;> split_ifs at h' <;> injection h' with h' <;> subst h'
      · exact real _
      · exact real _
      · rename_i hp _
        have : ((C ⟨0, hp⟩ ⟨0, hp⟩).re : ℂ) = C ⟨0, hp⟩ ⟨0, hp⟩ :=
          hS.coe_re_apply_self ⟨0, hp⟩
        rw [← this]
        exact real _
      · simpa using real 1
      · simpa using real 1

/-- Positive definite when the solver's matrix has the block form of a complex covariance, for
every normalisation. What is missing of C48 are the other symmetric positive definite solver
outputs. -/
theorem C48_partial (L : Lib) {N p : ℕ} (hp : 0 < p) (X : Matrix (Fin N) (Fin p) ℂ)
    (init : Option (Matrix (Fin (p + p)) (Fin (p + p)) ℝ)) (name : String)
    (hsolve : ∀ cost, ∃ S : Matrix (Fin (p + p)) (Fin (p + p)) ℝ, S.PosDef ∧ IsBlockForm S ∧
      L.solve (p + p) cost init = .ok (.fin S)) :
    ∃ (M : Matrix (Fin p) (Fin p) ℂ) (v : CostVal),
      ngComplex L X init name = .ok (.fin M, v) ∧ M.PosDef := by
  set Y : Matrix (Fin N) (Fin (p + p)) ℝ := of fun i => Fin.append (fun j => (X i j).re)
    (fun j => (X i j).im) with hY
  obtain ⟨S, hS, ⟨P, Q, hB⟩, h2⟩ := hsolve (ngCost L Y)
  let M0 : Matrix (Fin p) (Fin p) ℂ := of fun i j => ⟨2 * P i j, 2 * Q i j⟩
  have hM : realify M0 = S := by
    ext a b
    induction a using Fin.addCases with
    | left i =>
      induction b using Fin.addCases with
      | left j => rw [realify_castAdd_castAdd, (hB i j).1]; simp [M0]
      | right j => rw [realify_castAdd_natAdd, (hB i j).2.1]; simp [M0]
    | right i =>
      induction b using Fin.addCases with
      | left j => rw [realify_natAdd_castAdd, (hB i j).2.2.1]; simp [M0]
      | right j => rw [realify_natAdd_natAdd, (hB i j).2.2.2]; simp [M0]
  have hpd : M0.PosDef := by rw [← realify_posDef, hM]; exact hS
  have hng : ngToComplex S = M0 := by
    ext i j
    have h1 := congrFun (congrFun hpd.1 i) j
    rw [conjTranspose_apply] at h1
    have hre : 2 * P j i = 2 * P i j := by simpa [M0] using congrArg Complex.re h1
    have him : -(2 * Q j i) = 2 * Q i j := by simpa [M0] using congrArg Complex.im h1
    rw [ngToComplex_apply, (hB i j).1, (hB j i).1, (hB i j).2.2.1, (hB j i).2.2.1]
    apply Complex.ext
    · simp only [M0, of_apply]; linarith
    · simp only [M0, of_apply]; linarith
  obtain ⟨v, hv⟩ := ngCost_ok L Y S
  obtain ⟨M, hM1, hM2⟩ := C31_posDef name hp M0 hpd
  have hr : ngReal L Y init "None" = .ok (.fin S, v) := by
    simp only [ngReal, bind, Except.bind, h2, hv, C30_none "None" (by decide +kernel)]
    rfl
  refine ⟨M, v, ?_, hM2⟩
  simp only [ngComplex, bind, Except.bind]
  rw [← hY, hr]
  simp only [hng, hM1]
  rfl

/-- C48 is false: the symmetric positive definite matrix
`[[1,0,0,-2],[0,1,2,0],[0,2,5,0],[-2,0,0,5]]` gives `[[2,4i],[-4i,2]]`, whose determinant is
negative. -/
theorem C48_violated (L0 : Lib) {N : ℕ} (X : Matrix (Fin N) (Fin 2) ℂ)
    (init : Option (Matrix (Fin (2 + 2)) (Fin (2 + 2)) ℝ)) :
    ∃ (L : Lib) (S : Matrix (Fin (2 + 2)) (Fin (2 + 2)) ℝ), S.PosDef ∧
      (∀ cost, L.solve (2 + 2) cost init = .ok (.fin S)) ∧
        ∃ (M : Matrix (Fin 2) (Fin 2) ℂ) (v : CostVal),
          ngComplex L X init "None" = .ok (.fin M, v) ∧ ¬ M.PosDef := by
  let S : Matrix (Fin (2 + 2)) (Fin (2 + 2)) ℝ :=
    !![1, 0, 0, -2; 0, 1, 2, 0; 0, 2, 5, 0; -2, 0, 0, 5]
  have hS : S.PosDef := by
    refine PosDef.of_dotProduct_mulVec_pos ?_ ?_
    · ext i j
      fin_cases i <;> fin_cases j <;> simp [S]
    · intro x hx
      have e : star x ⬝ᵥ (S *ᵥ x) = (x 0 - 2 * x 3) ^ 2 + x 3 ^ 2 + (x 1 + 2 * x 2) ^ 2 + x 2 ^ 2 := by
        simp [S, dotProduct, mulVec, Fin.sum_univ_four]
        ring
      rw [e]
      by_contra hcon
      have h3 : x 3 = 0 := by nlinarith [sq_nonneg (x 0 - 2 * x 3), sq_nonneg (x 1 + 2 * x 2), sq_nonneg (x 2), sq_nonneg (x 3)]
      have h2 : x 2 = 0 := by nlinarith [sq_nonneg (x 0 - 2 * x 3), sq_nonneg (x 1 + 2 * x 2), sq_nonneg (x 2), sq_nonneg (x 3)]
      rw [h3, h2] at hcon
      have h0 : x 0 = 0 := by nlinarith [sq_nonneg (x 0), sq_nonneg (x 1)]
      have h1 : x 1 = 0 := by nlinarith [sq_nonneg (x 0), sq_nonneg (x 1)]
      exact hx (by funext i; fin_cases i <;> assumption)
  let L : Lib := { L0 with
    solve := fun m _ _ => if h : 2 + 2 = m then .ok (.fin (h ▸ S)) else .error .valueError }
  have hsolve : ∀ cost, L.solve (2 + 2) cost init = .ok (.fin S) := fun cost => rfl
  refine ⟨L, S, hS, hsolve, ?_⟩
  obtain ⟨v, hv⟩ := ngCost_ok L (of fun i => Fin.append (fun j => (X i j).re)
    (fun j => (X i j).im)) S
  have hr : ngReal L (of fun i => Fin.append (fun j => (X i j).re) (fun j => (X i j).im)) init
      "None" = .ok (.fin S, v) := by
    simp only [ngReal, bind, Except.bind, hsolve, hv, C30_none "None" (by decide +kernel)]
    rfl
  refine ⟨ngToComplex S, v, ?_, ?_⟩
  · simp only [ngComplex, bind, Except.bind]
    rw [hr]
    simp only [C30_none "None" (by decide +kernel)]
    rfl
  · intro hpd
    have h := (RCLike.pos_iff.1 hpd.det_pos).1
    rw [det_fin_two, ngToComplex_apply, ngToComplex_apply, ngToComplex_apply, ngToComplex_apply] at h
    simp [S] at h
    norm_num at h


/-! ## C78 -/

/-- `CenteredStudentMLE.score` (and the complex one) before the first fit returns `None`. -/
theorem C78_student_unfitted (L : Lib) (h0 : Heap) (complex : Bool) (A : Attrs)
    (sets : List (Attrs → Attrs)) (X : NDArr) (model : String) :
    score L (after L h0 complex .student A (sets.map .set)) h0.length X model = .ok .none := by
  obtain ⟨o, -, ho, hk, -⟩ := construct_ok h0 complex .student A .fixedPoint (fun h => by cases h)
  have key : ∀ (sets : List (Attrs → Attrs)) (h : Heap), (∃ o, h[h0.length]? = some o ∧
      o.cls = .student ∧ o.iteration = some 0) →
      ∃ o, ((sets.map Op.set).foldl (Op.run L h0.length) h)[h0.length]? = some o ∧
        o.cls = .student ∧ o.iteration = some 0 := by
    intro sets
    induction sets with
    | nil => intro h hh; exact hh
    | cons f fs ih =>
      rintro h ⟨o, g1, g2, g3⟩
      exact ih _ ⟨{ o with attrs := f o.attrs }, by
        simp only [Op.run, setAttr, g1]; exact get_set_self g1, g2, g3⟩
  obtain ⟨o', g1, g2, g3⟩ := key sets _ ⟨o, ho.get, ho.cls_eq, hk⟩
  unfold after score
  rw [g1]
  simp only [g2, g3, if_true]

/-- After a fit that did at least one iteration, `score` is the sum of the log-densities at the
stored covariance with the current `df`. -/
theorem C78_student_fitted (L : Lib) (h0 : Heap) (complex : Bool) (A : Attrs) (ops : List Op)
    (C : NDArr) (err : Err) (k : ℕ)
    (hfit : Fitted (after L h0 complex .student A ops) h0.length C err (some (k + 1))) (X : NDArr)
    (model : String) :
    score L (after L h0 complex .student A ops) h0.length X model =
      (L.tScore C (attrsAfter A ops).df X).map .value := by
  obtain ⟨o, k', ho, hk⟩ := own_after L h0 complex .student A (fun h => by cases h) ops
  obtain ⟨⟨o', g1, g2, g3, g4⟩⟩ := hfit
  obtain rfl := Option.some.inj (ho.get.symm.trans g1)
  unfold score
  rw [ho.get]
  simp only [ho.cls_eq, g4, g2, ho.attrs_eq]
  rw [if_neg (by simp)]
  cases L.tScore C (attrsAfter A ops).df X <;> rfl

/-- Huber's `score` raises `NotImplementedError` whatever happened before. -/
theorem C78_huber (L : Lib) (h0 : Heap) (complex : Bool) (A : Attrs) (ops : List Op) (X : NDArr)
    (model : String) :
    score L (after L h0 complex .huber A ops) h0.length X model = .error .notImplementedError := by
  obtain ⟨o, k', ho, hk⟩ := own_after L h0 complex .huber A (fun h => by cases h) ops
  unfold score
  rw [ho.get]
  simp only [ho.cls_eq]

/-- Tyler's `score` raises whatever happened before, fitted or not. -/
theorem C78_tyler_violated (L : Lib) (h0 : Heap) (complex : Bool) (A : Attrs)
    (hm : A.method = "fixed-point") (ops : List Op) (X : NDArr) (model : String) :
    ∃ e, score L (after L h0 complex .tyler A ops) h0.length X model = .error e := by
  obtain ⟨o, k', ho, hk⟩ := own_after L h0 complex .tyler A (fun _ => hm) ops
  unfold score
  rw [ho.get]
  simp only [ho.cls_eq]
  split_ifs
  · exact ⟨_, rfl⟩
  · cases checkArray X <;> exact ⟨_, rfl⟩
  · exact ⟨_, rfl⟩
  · exact ⟨_, rfl⟩

/-- With valid test data the Gaussian score of a real Tyler estimator raises `AttributeError`
(there is no `location_`); another model raises `NotImplementedError`. -/
theorem C78_tyler_error (L : Lib) (h0 : Heap) (A : Attrs) (hm : A.method = "fixed-point")
    (ops : List Op) {N p : ℕ} (hN : 0 < N) (hp : 0 < p) (Z : Matrix (Fin N) (Fin p) ℝ)
    (model : String) :
    score L (after L h0 false .tyler A ops) h0.length (.real (.d2 N p Z)) model =
      .error (if model = "Gaussian" then .attributeError else .notImplementedError) := by
  obtain ⟨o, k', ho, hk⟩ := own_after L h0 false .tyler A (fun _ => hm) ops
  unfold score
  rw [ho.get]
  simp only [ho.cls_eq, ho.cplx, checkArray_real hN hp]
  split_ifs <;> first | rfl | contradiction

/-! ## C79 -/

/-- A deep copy of a Tyler estimator: whatever is done to the attributes of the copy, fitting it
uses the attributes of the original. -/
theorem C79_copy_reads_original (L : Lib) (h0 : Heap) (complex : Bool) (A : Attrs)
    (hm : A.method = "fixed-point") (ops : List Op) (f : Attrs → Attrs) (X : NDArr)
    (init : Option NDArr) :
    ∃ b, (deepcopy (after L h0 complex .tyler A ops) h0.length).2 = .ok b ∧ b ≠ h0.length ∧
      let copy := fit L (setAttr (deepcopy (after L h0 complex .tyler A ops) h0.length).1 b f) b X init
      let original := fit L (after L h0 complex .tyler A ops) h0.length X init
      copy.2 = original.2 ∧ (copy.2 = .ok () → ∃ C err k,
        Fitted copy.1 b C err k ∧ Fitted original.1 h0.length C err k) := by
  obtain ⟨o, k, h1, h2, h3⟩ := fit_after L h0 complex .tyler A (fun _ => hm) ops X init
  have hlt : h0.length < (after L h0 complex .tyler A ops).length :=
    (List.getElem?_eq_some_iff.1 h1.get).1
  generalize after L h0 complex .tyler A ops = h at *
  refine ⟨h.length, by simp only [deepcopy, h1.get], hlt.ne', ?_⟩
  have e0 : (deepcopy h h0.length).1 = h ++ [o] := by simp only [deepcopy, h1.get]
  have e1 : setAttr (h ++ [o]) h.length f = h ++ [{ o with attrs := f o.attrs }] := by
    simp only [setAttr, get_append_length]
    rw [List.set_append_right _ _ le_rfl]
    simp
  have e2 : (h ++ [{ o with attrs := f o.attrs }])[h0.length]? = some o := by
    rw [List.getElem?_append_left hlt]; exact h1.get
  have e3 := fit_tyler (L := L) (h := h ++ [{ o with attrs := f o.attrs }]) (a := h.length)
    (get_append_length h _) (k := k) h2 h1.cls_eq (h1.fn rfl) e2 X init
  have hq : fitRes L o.complex .tyler .fixedPoint o.attrs X init =
      fitRes L complex .tyler .fixedPoint (attrsAfter A ops) X init := by
    rw [h1.cplx, h1.attrs_eq]
  simp only [e0, e1, e3, h3, hq]
  cases hr : fitRes L complex .tyler .fixedPoint (attrsAfter A ops) X init with
  | error e => exact ⟨rfl, fun h => by cases h⟩
  | ok r => exact ⟨rfl, fun _ => ⟨_, _, _, store_fitted (get_append_length h _) r,
      store_fitted h1.get r⟩⟩

/-- C79 is false for Tyler: a copy whose `iter_max` is set to 0 still iterates. -/
theorem C79_violated (eR : ∀ p, Eigh (Fin p) ℝ) (eC : ∀ p, Eigh (Fin p) ℂ) (hR : ∀ p, (eR p).Ok) :
    ∃ (A : Attrs) (X : NDArr) (C : NDArr) (err : Err) (k : ℕ),
      (deepcopy (construct [] false .tyler A).1 0).2 = .ok 1 ∧
      Fitted (fit (exLib eR eC) (setAttr (deepcopy (construct [] false .tyler A).1 0).1 1
        fun A => { A with iterMax := 0 }) 1 X none).1 1 C err (some (k + 1)) := by
  let A : Attrs := ⟨0, 0, 1 / 10000, 1, "None", "fixed-point", false⟩
  let Z : Matrix (Fin 1) (Fin 1) ℝ := !![1]
  have hZ : Spans Z := fun v hv => by
    have h0 := hv 0
    simp [sample, dotProduct, Z] at h0
    funext j
    fin_cases j
    exact h0
  have hn : NonzeroSamples Z := fun i h => by
    fin_cases i
    simpa [sample, Z] using congrFun h 0
  obtain ⟨b, hb, -, h1, h2⟩ := C79_copy_reads_original (exLib eR eC) [] false A rfl []
    (fun A => { A with iterMax := 0 }) (.real (.d2 1 1 Z)) none
  have hb1 : b = 1 := by
    have : (deepcopy (after (exLib eR eC) [] false .tyler A []) ([] : Heap).length).2 = .ok 1 := rfl
    exact Except.ok.inj (hb.symm.trans this)
  subst hb1
  obtain ⟨sigma, result, delta, iteration, g1, g2, -, g4⟩ := C34_real (.tyler "None")
    ((exLib eR eC).envR 1 1) (hR 1) (exLib eR eC).chi2
    ⟨fun _ => rfl, fun _ _ h _ _ => h, fun _ _ => le_rfl⟩ Z (by norm_num) hZ hn none
    (fun S h => by simp at h) (1 / 10000) 1
  obtain ⟨f1, f2⟩ := C44_real (exLib eR eC) [] .tyler A (fun _ => rfl) [] (by norm_num)
    (by norm_num) Z none result delta iteration _ g1
  obtain ⟨C, err, k, c1, c2⟩ := h2 (h1.trans f1)
  obtain ⟨-, -, c3⟩ := c2.unique f2
  have hit : iteration ≠ 0 := fun h0 => by
    refine g2.stopped (by rw [h0]; norm_num) ?_
    rw [g2.err_zero h0]
    trivial
  obtain ⟨k', rfl⟩ := Nat.exists_eq_succ_of_ne_zero hit
  refine ⟨A, .real (.d2 1 1 Z), C, err, k', rfl, ?_⟩
  rw [c3] at c1
  exact c1

/-- Copies of the other estimators are independent of the original, and so are sklearn clones of
all of them: a fit of the copy only depends on the attributes of the copy. What is missing of
C79 are deep copies of Tyler estimators. -/
theorem C79_deepcopy_partial (L : Lib) (h0 : Heap) (complex : Bool) (cls : Cls) (A : Attrs)
    (hc : cls ≠ .tyler) (ops : List Op) (f g : Attrs → Attrs) (X : NDArr) (init : Option NDArr) :
    ∃ b, (deepcopy (after L h0 complex cls A ops) h0.length).2 = .ok b ∧ b ≠ h0.length ∧
      let copy := fit L (setAttr (setAttr (deepcopy (after L h0 complex cls A ops) h0.length).1 b f)
        h0.length g) b X init
      let fresh := fit L (construct h0 complex cls (f (attrsAfter A ops))).1 h0.length X init
      copy.2 = fresh.2 ∧ (copy.2 = .ok () → ∃ C err k,
        Fitted copy.1 b C err k ∧ Fitted fresh.1 h0.length C err k) := by
  obtain ⟨o, k, h1, h2⟩ := own_after L h0 complex cls A (fun h => absurd h hc) ops
  obtain ⟨o', k', h1', h2', h3'⟩ := fit_after L h0 complex cls (f (attrsAfter A ops))
    (fun h => absurd h hc) [] X init
  have e : after L h0 complex cls (f (attrsAfter A ops)) [] =
    (construct h0 complex cls (f (attrsAfter A ops))).1 := rfl
  have e' : attrsAfter (f (attrsAfter A ops)) [] = f (attrsAfter A ops) := rfl
  rw [e] at h1' h3'
  rw [e'] at h1' h3'
  have hlt : h0.length < (after L h0 complex cls A ops).length :=
    (List.getElem?_eq_some_iff.1 h1.get).1
  generalize after L h0 complex cls A ops = h at *
  refine ⟨h.length, by simp only [deepcopy, h1.get], hlt.ne', ?_⟩
  have e0 : (deepcopy h h0.length).1 = h ++ [o] := by simp only [deepcopy, h1.get]
  have e1 : setAttr (h ++ [o]) h.length f = h ++ [{ o with attrs := f o.attrs }] := by
    simp only [setAttr, get_append_length]
    rw [List.set_append_right _ _ le_rfl]
    simp
  have e2 : (h ++ [{ o with attrs := f o.attrs }])[h0.length]? = some o := by
    rw [List.getElem?_append_left hlt]; exact h1.get
  have e3 : (setAttr (h ++ [{ o with attrs := f o.attrs }]) h0.length g)[h.length]? =
      some { o with attrs := f o.attrs } := by
    simp only [setAttr, e2]
    rw [List.getElem?_set_ne hlt.ne]
    exact get_append_length h _
  have e4 := fit_other (L := L) e3 (k := k) h2 (by simpa [h1.cls_eq] using hc) X init
  have hq : fitRes L o.complex o.cls .fixedPoint (f o.attrs) X init =
      fitRes L complex cls .fixedPoint (f (attrsAfter A ops)) X init := by
    rw [h1.cplx, h1.attrs_eq, h1.cls_eq]
  simp only [e0, e1, e4, h3', hq]
  cases hr : fitRes L complex cls .fixedPoint (f (attrsAfter A ops)) X init with
  | error e => exact ⟨rfl, fun h => by cases h⟩
  | ok r => exact ⟨rfl, fun _ => ⟨_, _, _, store_fitted e3 r, store_fitted h1'.get r⟩⟩

/-- sklearn's `clone` of any of the estimators (fixed point): later changes of the original do not
affect the clone, changes of the clone are honoured by its fit. -/
theorem C79_clone_partial (L : Lib) (h0 : Heap) (complex : Bool) (cls : Cls) (A : Attrs)
    (hm : cls = .tyler → A.method = "fixed-point") (ops : List Op)
    (hops : cls = .tyler → (attrsAfter A ops).method = "fixed-point") (f g : Attrs → Attrs)
    (hf : ∀ A, (f A).method = A.method) (X : NDArr) (init : Option NDArr) :
    ∃ b, (clone (after L h0 complex cls A ops) h0.length).2 = .ok b ∧ b ≠ h0.length ∧
      let copy := fit L (setAttr (setAttr (clone (after L h0 complex cls A ops) h0.length).1 b f)
        h0.length g) b X init
      let fresh := fit L (construct h0 complex cls (f (attrsAfter A ops))).1 h0.length X init
      copy.2 = fresh.2 ∧ (copy.2 = .ok () → ∃ C err k,
        Fitted copy.1 b C err k ∧ Fitted fresh.1 h0.length C err k) := by
  obtain ⟨o, k, h1, h2⟩ := own_after L h0 complex cls A hm ops
  obtain ⟨o', k', h1', h2', h3'⟩ := fit_after L h0 complex cls (f (attrsAfter A ops))
    (fun h => by rw [hf]; exact hops h) [] X init
  have e : after L h0 complex cls (f (attrsAfter A ops)) [] =
    (construct h0 complex cls (f (attrsAfter A ops))).1 := rfl
  have e' : attrsAfter (f (attrsAfter A ops)) [] = f (attrsAfter A ops) := rfl
  rw [e] at h1' h3'
  rw [e'] at h1' h3'
  have hlt : h0.length < (after L h0 complex cls A ops).length :=
    (List.getElem?_eq_some_iff.1 h1.get).1
  generalize after L h0 complex cls A ops = h at *
  have e0 : clone h h0.length = construct h complex cls (attrsAfter A ops) := by
    simp only [clone, h1.get, h1.cplx, h1.cls_eq, h1.attrs_eq]
  obtain ⟨oc, hc1, hc2, hc3, -⟩ := construct_ok h complex cls (attrsAfter A ops) .fixedPoint
    (fun hc => setMethod_fp _ _ (hops hc))
  rw [e0]
  refine ⟨h.length, hc1, hlt.ne', ?_⟩
  generalize (construct h complex cls (attrsAfter A ops)).1 = hh at *
  have b1 : (setAttr hh h.length f)[h.length]? = some { oc with attrs := f oc.attrs } := by
    simp only [setAttr, hc2.get]
    exact get_set_self hc2.get
  have b2 : (setAttr (setAttr hh h.length f) h0.length g)[h.length]? =
      some { oc with attrs := f oc.attrs } := by
    unfold setAttr at b1 ⊢
    split
    · exact b1
    · rw [List.getElem?_set_ne hlt.ne]
      exact b1
  have hown : Own (setAttr (setAttr hh h.length f) h0.length g) h.length complex cls .fixedPoint
      (f (attrsAfter A ops)) { oc with attrs := f oc.attrs } :=
    ⟨b2, hc2.cplx, hc2.cls_eq, by simp only [hc2.attrs_eq], hc2.fn⟩
  have hfit := hown.fit (L := L) (fun _ => rfl) (k := 0) hc3 X init
  simp only [hfit, h3']
  cases hr : fitRes L complex cls .fixedPoint (f (attrsAfter A ops)) X init with
  | error e => exact ⟨rfl, fun h => by cases h⟩
  | ok r => exact ⟨rfl, fun _ => ⟨_, _, _, store_fitted b2 r, store_fitted h1'.get r⟩⟩

/-! ## C125 -/

/-- The constructors succeed except those of the two Tyler classes called with a `method` which is
neither 'fixed-point' nor 'natural gradient', which raise NotImplementedError. The objects that
exist stay as they are. -/
theorem C125_construct (h : Heap) (complex : Bool) (cls : Cls) (A : Attrs) :
    ((cls = .tyler ∧ A.method ≠ "fixed-point" ∧ A.method ≠ "natural gradient") →
      construct h complex cls A = (h, .error .notImplementedError)) ∧
    (¬ (cls = .tyler ∧ A.method ≠ "fixed-point" ∧ A.method ≠ "natural gradient") →
      ∃ o, construct h complex cls A = (h ++ [o], .ok h.length) ∧ o.cls = cls ∧
        o.complex = complex ∧ o.attrs = A ∧ o.covariance = none) := by
  constructor
  · rintro ⟨rfl, h1, h2⟩
    simp [construct, setMethod, h1, h2]
  · intro hn
    cases cls with
    | tyler =>
      by_cases h1 : A.method = "fixed-point"
      · exact ⟨⟨complex, .tyler, A, some (.fixedPoint, h.length), none, .delta .inf, some 0⟩,
          by simp only [construct, setMethod_fp A _ h1], rfl, rfl, rfl, rfl⟩
      · have h2 : A.method = "natural gradient" := by
          by_contra h2
          exact hn ⟨rfl, h1, h2⟩
        exact ⟨⟨complex, .tyler, A, some (.naturalGradient, h.length), none, .delta .inf, some 0⟩,
          by simp only [construct, setMethod_ng A _ h2], rfl, rfl, rfl, rfl⟩
    | huber => exact ⟨_, rfl, rfl, rfl, rfl, rfl⟩
    | student => exact ⟨_, rfl, rfl, rfl, rfl, rfl⟩

/-- sklearn's `clone` of an object whose `method` has been set to something else raises. -/
theorem C125_clone (h : Heap) (a : ℕ) (o : Est) (ho : h[a]? = some o) (hc : o.cls = .tyler)
    (method : String) (h1 : method ≠ "fixed-point") (h2 : method ≠ "natural gradient") :
    (clone (setAttr h a fun A => { A with method := method }) a).2 =
      .error .notImplementedError := by
  have e : (setAttr h a fun A => { A with method := method })[a]? =
      some { o with attrs := { o.attrs with method := method } } := by
    simp only [setAttr, ho]
    exact get_set_self ho
  simp only [clone, e, hc]
  rw [(C125_construct _ _ _ _).1 ⟨rfl, h1, h2⟩]

/-- A misspelt method. -/
example (A : Attrs) : (construct [] true .tyler { A with method := "fixed point" }).2 =
    .error .notImplementedError := by
  have h1 : ("fixed point" : String) ≠ "fixed-point" := by decide +kernel
  have h2 : ("fixed point" : String) ≠ "natural gradient" := by decide +kernel
  rw [(C125_construct _ _ _ _).1 ⟨rfl, h1, h2⟩]

end RS
