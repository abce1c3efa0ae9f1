import Verif.Spec.Estimators
import Verif.Props.Base
import Verif.Lemmas.Steps

/- Helper lemmas about estimator objects. -/
set_option autoImplicit false

namespace RS
open Matrix

/-- What a fit with method `m` and attributes `A` computes. -/
noncomputable def fitRes (L : Lib) (complex : Bool) (cls : Cls) (m : Method) (A : Attrs) (X : NDArr)
    (init : Option NDArr) : Py FitRes :=
  if complex then fitComplex L cls m A X init else fitReal L cls m A X init

/-- Heap and outcome after a computed result. -/
def store (h : Heap) (a : ℕ) (o : Est) : Py FitRes → Heap × Py Unit
  | .error e => (h, .error e)
  | .ok r => (h.set a { o with covariance := some r.covariance, err := r.err,
                               iteration := r.iteration }, .ok ())

theorem fit_other {L : Lib} {h : Heap} {a : ℕ} {o : Est} {k : ℕ} (ho : h[a]? = some o)
    (hk : o.iteration = some k) (hc : o.cls ≠ .tyler) (X : NDArr) (init : Option NDArr) :
    fit L h a X init = store h a o (fitRes L o.complex o.cls .fixedPoint o.attrs X init) := by
  unfold fit
  rw [ho]
  simp only [hk]
  unfold fitRes
  split_ifs <;> [cases fitComplex L o.cls .fixedPoint o.attrs X init; cases fitReal L o.cls .fixedPoint o.attrs X init] <;> rfl

theorem fit_tyler {L : Lib} {h : Heap} {a : ℕ} {o s : Est} {k self : ℕ} {m : Method}
    (ho : h[a]? = some o) (hk : o.iteration = some k) (hc : o.cls = .tyler)
    (hf : o.fn = some (m, self)) (hs : h[self]? = some s) (X : NDArr) (init : Option NDArr) :
    fit L h a X init = store h a o (fitRes L o.complex .tyler m s.attrs X init) := by
  unfold fit
  rw [ho]
  cases o
  simp only at hk hc hf
  subst hk hc hf
  simp only [hs]
  unfold fitRes
  split_ifs <;> [cases fitComplex L .tyler m s.attrs X init; cases fitReal L .tyler m s.attrs X init] <;> rfl

theorem fit_none {L : Lib} {h : Heap} {a : ℕ} {o : Est} (ho : h[a]? = some o)
    (hk : o.iteration = none) (X : NDArr) (init : Option NDArr) :
    fit L h a X init = (h, .error .typeError) := by
  unfold fit
  rw [ho]
  simp only [hk]

/-- An object as its constructor made it: the closure, if any, refers to the object itself. -/
structure Own (h : Heap) (a : ℕ) (complex : Bool) (cls : Cls) (m : Method) (A : Attrs) (o : Est) :
    Prop where
  get : h[a]? = some o
  cplx : o.complex = complex
  cls_eq : o.cls = cls
  attrs_eq : o.attrs = A
  fn : cls = .tyler → o.fn = some (m, a)

theorem Own.fit {L : Lib} {h : Heap} {a : ℕ} {c : Bool} {cls : Cls} {m : Method} {A : Attrs} {o : Est}
    (ho : Own h a c cls m A o) (hm : cls ≠ .tyler → m = .fixedPoint) {k : ℕ}
    (hk : o.iteration = some k) (X : NDArr) (init : Option NDArr) :
    fit L h a X init = store h a o (fitRes L c cls m A X init) := by
  by_cases hc : cls = .tyler
  · rw [fit_tyler ho.get hk (ho.cls_eq.trans hc) (ho.fn hc) ho.get, ho.cplx, ho.attrs_eq, hc]
  · rw [fit_other ho.get hk (by rwa [ho.cls_eq]), ho.cplx, ho.attrs_eq, ho.cls_eq, hm hc]

theorem fitRes_iteration {L : Lib} {c : Bool} {cls : Cls} {A : Attrs} {X : NDArr}
    {init : Option NDArr} {r : FitRes} (h : fitRes L c cls .fixedPoint A X init = .ok r) :
    ∃ k, r.iteration = some k := by
  unfold fitRes at h
  cases c
  · simp only [Bool.false_eq_true, if_false] at h
    unfold fitReal at h
    cases h1 : checkArray X with
    | error e => simp [h1, bind, Except.bind] at h
    | ok y =>
      simp only [h1, bind, Except.bind] at h
      match y, h with
      | .real (.d2 N p Z), h =>
        simp only at h
        cases h2 : initReal p init with
        | error e => simp [h2] at h
        | ok i =>
          simp only [h2] at h
          cases cls
          · simp only at h
            cases h3 : huberFixedPoint (L.envR N p) L.chi2 Z A.q i A.tol A.iterMax with
            | error e => simp [h3] at h
            | ok r' =>
              simp only [h3] at h
              cases h4 : setCovReal r'.sigma with
              | error e => simp [h4] at h
              | ok C => simp only [h4, pure, Except.pure] at h; cases h; exact ⟨_, rfl⟩
          · simp only at h
            cases h3 : studentFixedPoint (L.envR N p) Z A.df i A.tol A.iterMax with
            | error e => simp [h3] at h
            | ok r' =>
              simp only [h3] at h
              cases h4 : setCovReal r'.sigma with
              | error e => simp [h4] at h
              | ok C => simp only [h4, pure, Except.pure] at h; cases h; exact ⟨_, rfl⟩
          · simp only at h
            cases h3 : tylerFixedPoint (L.envR N p) Z i A.tol A.iterMax A.normalisation with
            | error e => simp [h3] at h
            | ok r' =>
              simp only [h3] at h
              cases h4 : setCovReal r'.sigma with
              | error e => simp [h4] at h
              | ok C => simp only [h4, pure, Except.pure] at h; cases h; exact ⟨_, rfl⟩
  · simp only [if_true] at h
    unfold fitComplex at h
    cases h1 : validateData X with
    | error e => simp [h1, bind, Except.bind] at h
    | ok y =>
      simp only [h1, bind, Except.bind] at h
      match y, h with
      | .cplx (.d2 N p Z), h =>
        simp only at h
        cases cls
        all_goals
          simp only at h
          cases h2 : initComplex p init with
          | error e => simp [h2] at h
          | ok i =>
            simp only [h2] at h
            first
            | (cases h3 : complexHuberFixedPoint (L.envC N p) L.chi2 Z A.q i A.tol A.iterMax with
              | error e => simp [h3] at h
              | ok r' =>
                simp only [h3] at h
                cases h4 : setCovComplex r'.sigma with
                | error e => simp [h4] at h
                | ok C => simp only [h4, pure, Except.pure] at h; cases h; exact ⟨_, rfl⟩)
            | (cases h3 : complexStudentFixedPoint (L.envC N p) Z A.df i A.tol A.iterMax with
              | error e => simp [h3] at h
              | ok r' =>
                simp only [h3] at h
                cases h4 : setCovComplex r'.sigma with
                | error e => simp [h4] at h
                | ok C => simp only [h4, pure, Except.pure] at h; cases h; exact ⟨_, rfl⟩)
            | (cases h3 : complexTylerFixedPoint (L.envC N p) Z i A.tol A.iterMax A.normalisation with
              | error e => simp [h3] at h
              | ok r' =>
                simp only [h3] at h
                cases h4 : setCovComplex r'.sigma with
                | error e => simp [h4] at h
                | ok C => simp only [h4, pure, Except.pure] at h; cases h; exact ⟨_, rfl⟩)

theorem get_append_length (h : Heap) (o : Est) : (h ++ [o])[h.length]? = some o := by simp

theorem get_set_self {h : Heap} {a : ℕ} {o o' : Est} (ho : h[a]? = some o) :
    (h.set a o')[a]? = some o' := by
  rw [List.getElem?_set_self]
  exact (List.getElem?_eq_some_iff.1 ho).1

theorem construct_ok (h : Heap) (c : Bool) (cls : Cls) (A : Attrs) (m : Method)
    (hm : cls = .tyler → setMethod A.method h.length = .ok (m, h.length)) :
    ∃ o, (construct h c cls A).2 = .ok h.length ∧ Own (construct h c cls A).1 h.length c cls m A o ∧
      o.iteration = some 0 ∧ o.covariance = none ∧ o.err = .delta .inf := by
  cases cls
  · exact ⟨_, rfl, ⟨get_append_length h _, rfl, rfl, rfl, fun h => by simp at h⟩, rfl, rfl, rfl⟩
  · exact ⟨_, rfl, ⟨get_append_length h _, rfl, rfl, rfl, fun h => by simp at h⟩, rfl, rfl, rfl⟩
  · simp only [construct, hm rfl]
    exact ⟨_, trivial, ⟨get_append_length h _, rfl, rfl, rfl, fun h => rfl⟩, rfl, rfl, rfl⟩

theorem setMethod_fp (A : Attrs) (k : ℕ) (h : A.method = "fixed-point") :
    setMethod A.method k = .ok (.fixedPoint, k) := by simp [setMethod, h]

theorem setMethod_ng (A : Attrs) (k : ℕ) (h : A.method = "natural gradient") :
    setMethod A.method k = .ok (.naturalGradient, k) := by
  have e : ("natural gradient" = "fixed-point") = False := by decide +kernel
  simp [setMethod, h, e]

/-- The invariant along a history, fixed-point methods. -/
theorem Own.run {L : Lib} {h : Heap} {a : ℕ} {c : Bool} {cls : Cls} {A : Attrs} {o : Est}
    (ho : Own h a c cls .fixedPoint A o) {k : ℕ} (hk : o.iteration = some k) (op : Op) :
    ∃ o' k', Own (op.run L a h) a c cls .fixedPoint (attrsAfter A [op]) o' ∧
      o'.iteration = some k' := by
  cases op with
  | set f =>
    refine ⟨{ o with attrs := f o.attrs }, k, ⟨?_, ho.cplx, ho.cls_eq, ?_, ho.fn⟩, hk⟩
    · simp only [Op.run, setAttr, ho.get]
      exact get_set_self ho.get
    · simp only [attrsAfter, List.foldl_cons, List.foldl_nil, ho.attrs_eq]
  | fit X init =>
    simp only [Op.run, ho.fit (fun _ => rfl) hk]
    cases hr : fitRes L c cls .fixedPoint A X init with
    | error e => exact ⟨o, k, ho, hk⟩
    | ok r =>
      obtain ⟨k', hk'⟩ := fitRes_iteration hr
      exact ⟨{ o with covariance := some r.covariance, err := r.err, iteration := r.iteration }, k',
        ⟨get_set_self ho.get, ho.cplx, ho.cls_eq, ho.attrs_eq, ho.fn⟩, hk'⟩

theorem Own.runs {L : Lib} (ops : List Op) : ∀ {h : Heap} {a : ℕ} {c : Bool} {cls : Cls} {A : Attrs}
    {o : Est} (_ : Own h a c cls .fixedPoint A o) {k : ℕ} (_ : o.iteration = some k),
    ∃ o' k', Own (ops.foldl (Op.run L a) h) a c cls .fixedPoint (attrsAfter A ops) o' ∧
      o'.iteration = some k' := by
  induction ops with
  | nil => intro h a c cls A o ho k hk; exact ⟨o, k, ho, hk⟩
  | cons op ops ih =>
    intro h a c cls A o ho k hk
    obtain ⟨o', k', h1, h2⟩ := ho.run (L := L) hk op
    exact ih h1 h2

theorem own_after (L : Lib) (h0 : Heap) (c : Bool) (cls : Cls) (A : Attrs)
    (hm : cls = .tyler → A.method = "fixed-point") (ops : List Op) :
    ∃ o k, Own (after L h0 c cls A ops) h0.length c cls .fixedPoint (attrsAfter A ops) o ∧
      o.iteration = some k := by
  obtain ⟨o, -, h2, h3, -⟩ := construct_ok h0 c cls A .fixedPoint
    (fun hc => setMethod_fp A _ (hm hc))
  exact h2.runs ops h3

theorem fit_after (L : Lib) (h0 : Heap) (c : Bool) (cls : Cls) (A : Attrs)
    (hm : cls = .tyler → A.method = "fixed-point") (ops : List Op) (X : NDArr)
    (init : Option NDArr) :
    ∃ o k, Own (after L h0 c cls A ops) h0.length c cls .fixedPoint (attrsAfter A ops) o ∧
      o.iteration = some k ∧
      fit L (after L h0 c cls A ops) h0.length X init = store (after L h0 c cls A ops) h0.length o
        (fitRes L c cls .fixedPoint (attrsAfter A ops) X init) := by
  obtain ⟨o, k, h1, h2⟩ := own_after L h0 c cls A hm ops
  exact ⟨o, k, h1, h2, h1.fit (fun _ => rfl) h2 X init⟩

theorem store_fitted {h : Heap} {a : ℕ} {o : Est} (ho : h[a]? = some o) (r : FitRes) :
    Fitted (store h a o (.ok r)).1 a r.covariance r.err r.iteration :=
  ⟨⟨_, get_set_self ho, rfl, rfl, rfl⟩⟩

theorem Fitted.unique {h : Heap} {a : ℕ} {C C' : NDArr} {e e' : Err} {k k' : Option ℕ}
    (h1 : Fitted h a C e k) (h2 : Fitted h a C' e' k') : C = C' ∧ e = e' ∧ k = k' := by
  obtain ⟨⟨o, a1, a2, a3, a4⟩⟩ := h1
  obtain ⟨⟨o', b1, b2, b3, b4⟩⟩ := h2
  obtain rfl := Option.some.inj (a1.symm.trans b1)
  exact ⟨Option.some.inj (a2.symm.trans b2), a3.symm.trans b3, a4.symm.trans b4⟩

theorem initReal_some {p : ℕ} (S : Option (Matrix (Fin p) (Fin p) ℝ)) :
    initReal p (S.map fun S => .real (.d2 p p S)) = .ok S := by
  cases S <;> simp [initReal]; rfl

theorem initComplex_some {p : ℕ} (S : Option (Matrix (Fin p) (Fin p) ℂ)) :
    initComplex p (S.map fun S => .cplx (.d2 p p S)) = .ok S := by
  cases S <;> simp [initComplex]; rfl

theorem checkArray_real {N p : ℕ} (hN : 0 < N) (hp : 0 < p) (Z : Matrix (Fin N) (Fin p) ℝ) :
    checkArray (.real (.d2 N p Z)) = .ok (.real (.d2 N p Z)) := by
  simp [checkArray, hN.ne', hp.ne']

theorem setCovReal_fin {p : ℕ} (hp : 0 < p) (C : Matrix (Fin p) (Fin p) ℝ) :
    setCovReal (.fin C) = .ok (.real (.d2 p p C)) := checkArray_real hp hp C

theorem setCovComplex_fin {p : ℕ} (hp : 0 < p) (C : Matrix (Fin p) (Fin p) ℂ) :
    setCovComplex (.fin C) = .ok (.cplx (.d2 p p C)) := setCovariance_complex p hp C

/-- A real fit in terms of the function behind the class. -/
theorem fitRes_real {N p : ℕ} (hN : 0 < N) (hp : 0 < p) (L : Lib) (cls : Cls) (A : Attrs)
    (Z : Matrix (Fin N) (Fin p) ℝ) (init : Option (Matrix (Fin p) (Fin p) ℝ)) :
    fitRes L false cls .fixedPoint A (.real (.d2 N p Z)) (init.map fun S => .real (.d2 p p S)) =
      (do
        let r ← (cls.realEst A).run (L.envR N p) L.chi2 Z init A.tol A.iterMax
        let C ← setCovReal r.sigma
        return ⟨C, .delta r.delta, some r.iteration⟩) := by
  simp only [fitRes, Bool.false_eq_true, if_false, fitReal, checkArray_real hN hp, bind, Except.bind,
    initReal_some]
  cases cls <;> rfl

/-- A complex fit in terms of the function behind the class. -/
theorem fitRes_complex {N p : ℕ} (hN : 0 < N) (hp : 0 < p) (L : Lib) (cls : Cls) (A : Attrs)
    (Z : Matrix (Fin N) (Fin p) ℂ) (init : Option (Matrix (Fin p) (Fin p) ℂ)) :
    fitRes L true cls .fixedPoint A (.cplx (.d2 N p Z)) (init.map fun S => .cplx (.d2 p p S)) =
      (do
        let r ← (cls.complexEst A).run (L.envC N p) L.chi2 Z init A.tol A.iterMax
        let C ← setCovComplex r.sigma
        return ⟨C, .delta r.delta, some r.iteration⟩) := by
  simp only [fitRes, if_true, fitComplex, arraytoreal_check_complex N p hN hp, bind, Except.bind,
    initComplex_some]
  cases cls <;> rfl

theorem ngToComplex_apply {p : ℕ} (S : Matrix (Fin (p + p)) (Fin (p + p)) ℝ) (i j : Fin p) :
    ngToComplex S i j =
      ⟨S (Fin.castAdd p i) (Fin.castAdd p j) + S (Fin.castAdd p j) (Fin.castAdd p i),
       S (Fin.natAdd p i) (Fin.castAdd p j) - S (Fin.natAdd p j) (Fin.castAdd p i)⟩ := by
  have e2 : ∀ (i : Fin p) h, (⟨(p + p) / 2 + i.1, h⟩ : Fin (p + p)) = Fin.natAdd p i := by
    intro i h; ext; simp; omega
  have e1 : ∀ (i : Fin p) h, (⟨i.1, h⟩ : Fin (p + p)) = Fin.castAdd p i := fun i h => rfl
  simp only [ngToComplex, complexify, Matrix.smul_apply, Matrix.add_apply, conjTranspose_apply,
    submatrix_apply, Fin.val_cast, e1, e2]
  apply Complex.ext <;> simp <;> ring

theorem ngCost_ok (L : Lib) {N p : ℕ} (X : Matrix (Fin N) (Fin p) ℝ) (Q : Matrix (Fin p) (Fin p) ℝ) :
    ∃ v, ngCost L X Q = .ok v := by
  unfold ngCost
  cases normRows X with
  | none => exact ⟨_, rfl⟩
  | some Y =>
    simp only [tylerCostReal]
    rw [dif_neg (by simp)]
    split_ifs <;> exact ⟨_, rfl⟩

end RS
