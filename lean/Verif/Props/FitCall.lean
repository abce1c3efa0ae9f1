import Verif.Lemmas.FitCall
import Verif.Props.Estimators

/-
Keyword arguments of `fit` (C134), `n_features_in_` (C135), failed fits (C136), `transform` and
`fit_transform` (C137).
-/
set_option autoImplicit false

namespace RS
open Matrix ComplexOrder

/-! ## C134: keyword arguments -/

/-- The refused names: `fit` raises and no attribute stored by the object changes. What is missing
of C134 are all other names. -/
theorem C134_refused_partial (L : Lib) (s : CallStore) (a : ℕ) (o : Est) (ho : s.heap[a]? = some o)
    (m : Method) (hm : HasMethod o m) (X : NDArr) (init : Option NDArr) (kw : List String)
    (k : String) (hk : k ∈ kw) (hr : k ∈ refused o.cls m) :
    (∃ e, (fitCall L s a X init kw).2 = .error e) ∧ (fitCall L s a X init kw).1.heap = s.heap := by
  unfold fitCall
  cases hb : fitSig.bind 2 ("init" :: kw) with
  | error e => exact ⟨⟨_, rfl⟩, rfl⟩
  | ok kwargs =>
    simp only [ho]
    cases hi : o.iteration with
    | none => exact ⟨⟨_, rfl⟩, rfl⟩
    | some j =>
      simp only
      cases hc : checkedColumns o.complex X with
      | error e => exact ⟨⟨_, rfl⟩, rfl⟩
      | ok n =>
        have hk' : k ∈ kwargs := by
          have hp : k ∉ fitSig.params := by
            revert hr
            cases o.cls <;> cases m <;>
              simp only [refused, List.mem_cons, List.not_mem_nil, or_false, false_imp_iff] <;>
              intro hr
            · rcases hr with rfl | rfl | rfl | rfl <;> decide
            · rcases hr with rfl | rfl | rfl | rfl <;> decide
            · rcases hr with rfl | rfl | rfl | rfl <;> decide
            · rcases hr with rfl | rfl <;> decide
          unfold PySig.bind at hb
          split_ifs at hb
          rw [← Except.ok.inj hb]
          simp [hk, hp]
        simp only [bindEstimation_error hm hk' hr]
        exact ⟨⟨_, rfl⟩, trivial⟩

/-- Everything else is swallowed: the call is the one without the extra keyword arguments. -/
theorem C134_ignored (L : Lib) (s : CallStore) (a : ℕ) (o : Est) (ho : s.heap[a]? = some o)
    (m : Method) (hm : HasMethod o m) (X : NDArr) (init : Option NDArr) (kw : List String)
    (hkw : PlainKw kw) (hr : ∀ k ∈ kw, k ∉ refused o.cls m) :
    fitCall L s a X init kw = fitCall L s a X init [] := by
  have h1 := fitSig_bind hkw
  have h2 : fitSig.bind 2 ("init" :: []) = .ok [] := rfl
  have sub : ∀ k ∈ kw.filter fun k => k ≠ "y", k ∈ kw := fun k hk => (List.mem_filter.1 hk).1
  have b1 : bindEstimation o (kw.filter fun k => k ≠ "y") = .ok () :=
    bindEstimation_ok hm (hkw.nodup.filter _) (fun h => hkw.X (sub _ h)) (fun h => hkw.init (sub _ h))
      fun k hk => hr k (sub k hk)
  have b2 : bindEstimation o [] = .ok () :=
    bindEstimation_ok hm List.nodup_nil (by simp) (by simp) (by simp)
  unfold fitCall
  simp only [h1, h2, ho]
  cases o.iteration with
  | none => rfl
  | some j =>
    simp only
    cases checkedColumns o.complex X with
    | error e => rfl
    | ok n => simp only [b1, b2]

/-- Without extra keyword arguments, and when the data pass the checks, the call is `fit`. -/
theorem C134_plain (L : Lib) (s : CallStore) (a : ℕ) (o : Est) (ho : s.heap[a]? = some o)
    (m : Method) (hm : HasMethod o m) (X : NDArr) (init : Option NDArr) (k n : ℕ)
    (hk : o.iteration = some k) (hn : checkedColumns o.complex X = .ok n) :
    (fitCall L s a X init []).1.heap = (fit L s.heap a X init).1 ∧
    (fitCall L s a X init []).2 = (fit L s.heap a X init).2 := by
  rw [fitCall_eq L s a X init (kwargs := []) rfl ho hk hn,
    bindEstimation_ok hm List.nodup_nil (by simp) (by simp) (by simp)]
  exact ⟨rfl, rfl⟩

/-- The real estimators check the data as they are. -/
theorem checkedColumns_real {N p : ℕ} (hN : 0 < N) (hp : 0 < p) (Z : Matrix (Fin N) (Fin p) ℝ) :
    checkedColumns false (.real (.d2 N p Z)) = .ok p := by
  simp [checkedColumns, checkArray_real hN hp, bind, Except.bind, pure, Except.pure]

/-- The complex estimators look at real and imaginary parts side by side. -/
theorem checkedColumns_complex {N p : ℕ} (hN : 0 < N) (hp : 0 < p) (Z : Matrix (Fin N) (Fin p) ℂ) :
    checkedColumns true (.cplx (.d2 N p Z)) = .ok (p + p) := by
  simp [checkedColumns, arraytoreal, checkArray, bind, Except.bind, pure, Except.pure, hN.ne', hp.ne']

/-- C134 is false: `CenteredStudentMLE(df=3).fit(X, tol=...)` succeeds and does not look at `tol`;
`HuberMEstimator` and `TylerShapeMatrix` refuse `tol` but accept a misspelt name. -/
theorem C134_violated (L : Lib) (hL : ∀ N p, (L.envR N p).eigh.Ok) (hc : L.chi2.Ok) :
    let A : Attrs := ⟨1 / 2, 3, 1 / 10000, 100, "None", "fixed-point", false⟩
    ∀ cls, ∀ kw ∈ [["itermax"], if cls = .student then ["tol"] else ["init_"]],
      (fitCall L (constructStore ⟨[], fun _ => none⟩ false cls A).1 0 (.real (.d2 4 2 (demoX ℝ))) none
        kw).2 = .ok () := by
  intro A cls kw hkw
  obtain ⟨o, -, h2, h3, -⟩ := construct_ok [] false cls A .fixedPoint
    (fun _ => setMethod_fp A _ rfl)
  have hm : HasMethod o .fixedPoint := ⟨fun h => ⟨_, h2.fn (h2.cls_eq ▸ h)⟩⟩
  have hpl : PlainKw kw ∧ ∀ k ∈ kw, k ∉ refused o.cls .fixedPoint := by
    rw [h2.cls_eq]
    simp only [List.mem_cons, List.not_mem_nil, or_false] at hkw
    rcases hkw with rfl | rfl <;> cases cls <;>
      exact ⟨⟨by decide, by decide, by decide, by decide⟩, by decide⟩
  have hget : (constructStore ⟨[], fun _ => none⟩ false cls A).1.heap[0]? = some o := h2.get
  rw [C134_ignored L _ 0 o hget .fixedPoint hm _ _ kw hpl.1 hpl.2,
    (C134_plain L _ 0 o hget .fixedPoint hm _ _ 0 2 h3
      (by rw [h2.cplx]; exact checkedColumns_real (by norm_num) two_pos _)).2]
  obtain ⟨S, d, i, -, h, -⟩ := C44_fit_posDef_real L hL hc [] cls A (fun _ => rfl) [] (by norm_num)
    two_pos (demoX ℝ) demoX_spans (by
      cases cls
      · norm_num [Cls.realEst, attrsAfter, RealEst.Valid, A]
      · norm_num [Cls.realEst, attrsAfter, RealEst.Valid, A]
      · exact demoX_nonzero) none (by simp)
  exact h

/-! ## C135: n_features_in_ -/

/-- After a successful `fit` of a real estimator `n_features_in_` is the number of columns of the
data and the size of `covariance_`. What is missing of C135 are the complex estimators. -/
theorem C135_partial (L : Lib) (s : CallStore) (a : ℕ) (o : Est) (ho : s.heap[a]? = some o)
    (hr : o.complex = false) (X : NDArr) (init : Option NDArr) (kw : List String)
    (h : (fitCall L s a X init kw).2 = .ok ()) :
    ∃ N p Z C err k, X = .real (.d2 N p Z) ∧ (fitCall L s a X init kw).1.nFeatures a = some p ∧
      Fitted (fitCall L s a X init kw).1.heap a (.real (.d2 p p C)) err k := by
  obtain ⟨o', n, m, A, r, h1, h2, h3, h4⟩ := fitCall_ok h
  obtain rfl := Option.some.inj (ho.symm.trans h1)
  unfold fitRes at h3
  rw [hr, if_neg (by simp)] at h3
  obtain ⟨N, p, Z, C, rfl, h6, h7⟩ := fitReal_shape h3
  have hn : n = p := by
    rw [hr] at h2
    simp only [checkedColumns, Bool.false_eq_true, if_false, bind, Except.bind, h6] at h2
    exact (Except.ok.inj h2).symm
  subst hn
  rw [h4]
  refine ⟨N, n, Z, C, r.err, r.iteration, rfl, by simp, ⟨_, get_set_self ho, ?_, rfl, rfl⟩⟩
  exact congrArg some h7

/-- Complex estimators on complex data: `n_features_in_` is twice the number of columns. -/
theorem C135_complex (L : Lib) (s : CallStore) (a : ℕ) (o : Est) (ho : s.heap[a]? = some o)
    (hc : o.complex = true) {N p : ℕ} (Z : Matrix (Fin N) (Fin p) ℂ) (init : Option NDArr)
    (kw : List String) (h : (fitCall L s a (.cplx (.d2 N p Z)) init kw).2 = .ok ()) :
    (fitCall L s a (.cplx (.d2 N p Z)) init kw).1.nFeatures a = some (2 * p) ∧
    ∃ C err k, Fitted (fitCall L s a (.cplx (.d2 N p Z)) init kw).1.heap a (.cplx (.d2 p p C)) err k := by
  obtain ⟨o', n, m, A, r, h1, h2, h3, h4⟩ := fitCall_ok h
  obtain rfl := Option.some.inj (ho.symm.trans h1)
  unfold fitRes at h3
  rw [hc, if_pos rfl] at h3
  obtain ⟨hN, hp, C, hC⟩ := fitComplex_shape h3
  rw [hc, checkedColumns_complex hN hp] at h2
  obtain rfl := Except.ok.inj h2
  rw [h4]
  refine ⟨by simp [two_mul], C, r.err, r.iteration, ⟨_, get_set_self ho, ?_, rfl, rfl⟩⟩
  exact congrArg some hC

/-- C135 is false: after fitting a complex estimator on two columns `n_features_in_` is 4. -/
theorem C135_violated (L : Lib) (hL : ∀ N p, (L.envC N p).eigh.Ok) (hc : L.chi2.Ok) (cls : Cls) :
    let A : Attrs := ⟨1 / 2, 3, 1 / 10000, 100, "None", "fixed-point", false⟩
    let call := fitCall L (constructStore ⟨[], fun _ => none⟩ true cls A).1 0
      (.cplx (.d2 4 2 (demoX ℂ))) none []
    call.2 = .ok () ∧ call.1.nFeatures 0 = some 4 ∧
      ∃ C err k, Fitted call.1.heap 0 (.cplx (.d2 2 2 C)) err k := by
  intro A call
  obtain ⟨o, -, h2, h3, -⟩ := construct_ok [] true cls A .fixedPoint
    (fun _ => setMethod_fp A _ rfl)
  have hm : HasMethod o .fixedPoint := ⟨fun h => ⟨_, h2.fn (h2.cls_eq ▸ h)⟩⟩
  have hget : (constructStore ⟨[], fun _ => none⟩ true cls A).1.heap[0]? = some o := h2.get
  have hok : call.2 = .ok () := by
    rw [(C134_plain L _ 0 o hget .fixedPoint hm _ _ 0 4 h3
      (by rw [h2.cplx]; exact checkedColumns_complex (by norm_num) two_pos _)).2]
    obtain ⟨S, d, i, -, h, -⟩ := C44_fit_posDef_complex L hL hc [] cls A (fun _ => rfl) []
      (by norm_num) two_pos (demoX ℂ) demoX_spans (by
        cases cls
        · norm_num [Cls.complexEst, attrsAfter, ComplexEst.Valid, A]
        · norm_num [Cls.complexEst, attrsAfter, ComplexEst.Valid, A]
        · exact demoX_nonzero) none (by simp)
    exact h
  exact ⟨hok, C135_complex L _ 0 o hget h2.cplx (demoX ℂ) none [] hok⟩

/-! ## C136: a failed fit -/

/-- A call of `fit` that raises leaves every object as it was: parameters, `covariance_`, `err_` and
`iteration_`. What is missing of C136 is `n_features_in_`. -/
theorem C136_partial (L : Lib) (s : CallStore) (a : ℕ) (X : NDArr) (init : Option NDArr)
    (kw : List String) (e : PyErr) (h : (fitCall L s a X init kw).2 = .error e) :
    (fitCall L s a X init kw).1.heap = s.heap ∧
    ∀ b, b ≠ a → (fitCall L s a X init kw).1.nFeatures b = s.nFeatures b := by
  rcases fitCall_error h with h | ⟨o, n, -, -, h⟩
  · rw [h]; exact ⟨rfl, fun _ _ => rfl⟩
  · rw [h]; exact ⟨rfl, fun b hb => by simp [hb]⟩

/-- `n_features_in_` after a call that raises: unchanged when the data were refused, the number of
columns of the refused fit otherwise. -/
theorem C136_columns (L : Lib) (s : CallStore) (a : ℕ) (o : Est) (ho : s.heap[a]? = some o)
    (X : NDArr) (init : Option NDArr) (kw : List String) (e : PyErr)
    (h : (fitCall L s a X init kw).2 = .error e) :
    (fitCall L s a X init kw).1.nFeatures a = s.nFeatures a ∨
    ∃ n, checkedColumns o.complex X = .ok n ∧ (fitCall L s a X init kw).1.nFeatures a = some n := by
  rcases fitCall_error h with h | ⟨o', n, h1, h2, h⟩
  · rw [h]; exact .inl rfl
  · obtain rfl := Option.some.inj (ho.symm.trans h1)
    exact .inr ⟨n, h2, by rw [h]; simp⟩

/-- C136 is false: an object fitted on two columns is given three columns and, as starting point,
its own estimate. The fit raises, `covariance_` is still 2 by 2, and `n_features_in_` is 3. -/
theorem C136_violated (L : Lib) (hL : ∀ N p, (L.envR N p).eigh.Ok) (hc : L.chi2.Ok) (cls : Cls)
    (Y : Matrix (Fin 4) (Fin 3) ℝ) :
    let A : Attrs := ⟨1 / 2, 3, 1 / 10000, 100, "None", "fixed-point", false⟩
    let s := (fitCall L (constructStore ⟨[], fun _ => none⟩ false cls A).1 0
      (.real (.d2 4 2 (demoX ℝ))) none []).1
    ∃ (C : Matrix (Fin 2) (Fin 2) ℝ) (err : Err) (k : Option ℕ),
      Fitted s.heap 0 (.real (.d2 2 2 C)) err k ∧ s.nFeatures 0 = some 2 ∧
      (fitCall L s 0 (.real (.d2 4 3 Y)) (some (.real (.d2 2 2 C))) []).2 = .error .valueError ∧
      Fitted (fitCall L s 0 (.real (.d2 4 3 Y)) (some (.real (.d2 2 2 C))) []).1.heap 0
        (.real (.d2 2 2 C)) err k ∧
      (fitCall L s 0 (.real (.d2 4 3 Y)) (some (.real (.d2 2 2 C))) []).1.nFeatures 0 = some 3 := by
  intro A s
  obtain ⟨o, -, h2, h3, -⟩ := construct_ok [] false cls A .fixedPoint
    (fun _ => setMethod_fp A _ rfl)
  have hm : HasMethod o .fixedPoint := ⟨fun h => ⟨_, h2.fn (h2.cls_eq ▸ h)⟩⟩
  have hget : (constructStore ⟨[], fun _ => none⟩ false cls A).1.heap[0]? = some o := h2.get
  have hcall : fitCall L (constructStore ⟨[], fun _ => none⟩ false cls A).1 0
      (.real (.d2 4 2 (demoX ℝ))) none [] = (s, .ok ()) := by
    refine Prod.ext rfl ?_
    change _ = (.ok () : Py Unit)
    rw [(C134_plain L _ 0 o hget .fixedPoint hm _ _ 0 2 h3
      (by rw [h2.cplx]; exact checkedColumns_real (by norm_num) two_pos _)).2]
    obtain ⟨S, d, i, -, h, -⟩ := C44_fit_posDef_real L hL hc [] cls A (fun _ => rfl) []
      (by norm_num) two_pos (demoX ℝ) demoX_spans (by
        cases cls
        · norm_num [Cls.realEst, attrsAfter, RealEst.Valid, A]
        · norm_num [Cls.realEst, attrsAfter, RealEst.Valid, A]
        · exact demoX_nonzero) none (by simp)
    exact h
  have hok := congrArg Prod.snd hcall
  obtain ⟨N, p, Z, C, err, k, hX, hn, hF⟩ := C135_partial L _ 0 o hget h2.cplx _ none [] hok
  injection hX with hX
  injection hX with _ hp _
  subst hp
  rw [hcall] at hn hF
  -- the object after the first fit
  have hcols : checkedColumns o.complex (.real (.d2 4 2 (demoX ℝ))) = .ok 2 := by
    rw [h2.cplx]; exact checkedColumns_real (by norm_num) two_pos _
  have hfix : cls ≠ .tyler → Method.fixedPoint = .fixedPoint := fun _ => rfl
  have hplain := C134_plain L (constructStore ⟨[], fun _ => none⟩ false cls A).1 0 o hget
    .fixedPoint hm (.real (.d2 4 2 (demoX ℝ))) none 0 2 h3 hcols
  have hheap : s.heap = (fit L (construct [] false cls A).1 0 (.real (.d2 4 2 (demoX ℝ))) none).1 :=
    hplain.1
  have hfst : (fit L (construct [] false cls A).1 0 (.real (.d2 4 2 (demoX ℝ))) none).2 = .ok () :=
    hplain.2.symm.trans hok
  have h2' : Own (construct [] false cls A).1 0 false cls .fixedPoint A o := h2
  rw [h2'.fit hfix h3] at hheap hfst
  cases hr : fitRes L false cls .fixedPoint A (.real (.d2 4 2 (demoX ℝ))) none with
  | error e => rw [hr] at hfst; cases hfst
  | ok r =>
    rw [hr] at hheap
    obtain ⟨k', hk'⟩ := fitRes_iteration hr
    have hown : Own s.heap 0 false cls .fixedPoint A (o.fitted r) := by
      rw [hheap]
      exact ⟨get_set_self h2'.get, h2.cplx, h2.cls_eq, h2.attrs_eq, h2.fn⟩
    have hm' : HasMethod (o.fitted r) .fixedPoint := ⟨fun h => ⟨_, hown.fn (hown.cls_eq ▸ h)⟩⟩
    have hcols' : checkedColumns (o.fitted r).complex (.real (.d2 4 3 Y)) = .ok 3 := by
      rw [hown.cplx]; exact checkedColumns_real (by norm_num) (by norm_num) _
    have hfit : fit L s.heap 0 (.real (.d2 4 3 Y)) (some (.real (.d2 2 2 C))) =
        (s.heap, .error .valueError) := by
      rw [hown.fit hfix hk']
      have : fitRes L false cls .fixedPoint A (.real (.d2 4 3 Y)) (some (.real (.d2 2 2 C))) =
          .error .valueError := by
        simp [fitRes, fitReal, checkArray, initReal, bind, Except.bind]
      rw [this]
      rfl
    have h2nd : fitCall L s 0 (.real (.d2 4 3 Y)) (some (.real (.d2 2 2 C))) [] =
        (⟨s.heap, fun b => if b = 0 then some 3 else s.nFeatures b⟩, .error .valueError) := by
      rw [fitCall_eq L _ 0 _ _ (kwargs := []) rfl hown.get hk' hcols',
        bindEstimation_ok hm' List.nodup_nil (by simp) (by simp) (by simp), hfit]
    refine ⟨C, err, k, hF, hn, ?_⟩
    rw [h2nd]
    exact ⟨rfl, hF, by simp⟩

/-! ## C137: transform and fit_transform -/

/-- `fit_transform` is `fit` followed by reading `covariance_`: the same exceptions, the same object
afterwards, and the covariance that `fit` stored. -/
theorem C137_fit_transform (L : Lib) (s : CallStore) (a : ℕ) (X : NDArr) (init : Option NDArr)
    (kw : List String) :
    (fitTransform L s a X init kw).1 = (fitCall L s a X init kw).1 ∧
    (∀ e, (fitCall L s a X init kw).2 = .error e → (fitTransform L s a X init kw).2 = .error e) ∧
    ((fitCall L s a X init kw).2 = .ok () → ∃ C err k,
      Fitted (fitCall L s a X init kw).1.heap a C err k ∧
      (fitTransform L s a X init kw).2 = .ok C) := by
  unfold fitTransform
  cases h : fitCall L s a X init kw with
  | mk s' r =>
    cases r with
    | error e =>
      simp only
      exact ⟨trivial, fun _ h => by rw [Except.error.inj h], fun h => by cases h⟩
    | ok u =>
      refine ⟨rfl, fun _ h => (by cases h), fun _ => ?_⟩
      obtain ⟨o, n, m, A, r, h1, h2, h3, h4⟩ := fitCall_ok (by rw [h])
      rw [h] at h4
      simp only at h4 ⊢
      subst h4
      refine ⟨r.covariance, r.err, r.iteration, ⟨_, get_set_self h1, rfl, rfl, rfl⟩, ?_⟩
      simp only [transform, get_set_self h1, Est.fitted]

/-- `transform` returns the covariance of the last successful `fit`, whatever its argument, and
whatever failed fits and parameter changes have come since. -/
theorem C137_last (L : Lib) (s : CallStore) (a : ℕ) (X : NDArr) (init : Option NDArr) (kw : List String)
    (h : (fitCall L s a X init kw).2 = .ok ()) (ops : List CallOp)
    (hops : NoFit L a (fitCall L s a X init kw).1 ops) (Y : NDArr) :
    ∃ C err k, Fitted (fitCall L s a X init kw).1.heap a C err k ∧
      transform (ops.foldl (CallOp.run L a) (fitCall L s a X init kw).1).heap a Y = .ok C := by
  obtain ⟨o, n, m, A, r, h1, h2, h3, h4⟩ := fitCall_ok h
  have hfit : Fitted (fitCall L s a X init kw).1.heap a r.covariance r.err r.iteration := by
    rw [h4]
    exact ⟨_, get_set_self h1, rfl, rfl, rfl⟩
  refine ⟨_, _, _, hfit, ?_⟩
  have key : ∀ (ops : List CallOp) (s : CallStore), NoFit L a s ops →
      (∃ o, s.heap[a]? = some o ∧ o.covariance = some r.covariance) →
      transform (ops.foldl (CallOp.run L a) s).heap a Y = .ok r.covariance := by
    intro ops
    induction ops with
    | nil =>
      rintro s - ⟨o, g1, g2⟩
      simp only [List.foldl_nil, transform, g1, g2]
    | cons op ops ih =>
      rintro s ⟨hop, hops⟩ ⟨o, g1, g2⟩
      rw [List.foldl_cons]
      refine ih _ hops ?_
      cases op with
      | fit X init kw =>
        refine ⟨o, ?_, g2⟩
        cases hr : (fitCall L s a X init kw).2 with
        | ok u => exact absurd hr (hop X init kw rfl)
        | error e => simp only [CallOp.run, (C136_partial L s a X init kw e hr).1, g1]
      | set f =>
        exact ⟨{ o with attrs := f o.attrs },
          by simp only [CallOp.run, setAttr, g1]; exact get_set_self g1, g2⟩
      | transform X => exact ⟨o, g1, g2⟩
  obtain ⟨⟨o', g1, g2, -, -⟩⟩ := hfit
  exact key ops _ hops ⟨o', g1, g2⟩

/-- Before the first successful `fit`, `transform` raises `AttributeError`. -/
theorem C137_unfitted (L : Lib) (s0 : CallStore) (complex : Bool) (cls : Cls) (A : Attrs)
    (h : (constructStore s0 complex cls A).2 = .ok s0.heap.length) (ops : List CallOp)
    (hops : NoFit L s0.heap.length (constructStore s0 complex cls A).1 ops) (Y : NDArr) :
    transform (storeAfter L s0 complex cls A ops).heap s0.heap.length Y = .error .attributeError := by
  have key : ∀ (ops : List CallOp) (s : CallStore), NoFit L s0.heap.length s ops →
      (∃ o, s.heap[s0.heap.length]? = some o ∧ o.covariance = none) →
      transform (ops.foldl (CallOp.run L s0.heap.length) s).heap s0.heap.length Y =
        .error .attributeError := by
    intro ops
    induction ops with
    | nil =>
      rintro s - ⟨o, g1, g2⟩
      simp only [List.foldl_nil, transform, g1, g2]
    | cons op ops ih =>
      rintro s ⟨hop, hops⟩ ⟨o, g1, g2⟩
      rw [List.foldl_cons]
      refine ih _ hops ?_
      cases op with
      | fit X init kw =>
        refine ⟨o, ?_, g2⟩
        cases hr : (fitCall L s s0.heap.length X init kw).2 with
        | ok u => exact absurd hr (hop X init kw rfl)
        | error e =>
          simp only [CallOp.run, (C136_partial L s s0.heap.length X init kw e hr).1, g1]
      | set f =>
        exact ⟨{ o with attrs := f o.attrs },
          by simp only [CallOp.run, setAttr, g1]; exact get_set_self g1, g2⟩
      | transform X => exact ⟨o, g1, g2⟩
  refine key ops _ hops ?_
  cases cls with
  | huber => exact ⟨_, get_append_length _ _, rfl⟩
  | student => exact ⟨_, get_append_length _ _, rfl⟩
  | tyler =>
    simp only [constructStore, construct] at h ⊢
    cases hm : setMethod A.method s0.heap.length with
    | error e => simp [hm] at h
    | ok fn => exact ⟨_, get_append_length _ _, rfl⟩

/-- A history without a successful fit: one-dimensional data are refused. -/
example (L : Lib) (s : CallStore) (a : ℕ) (v : Fin 3 → ℝ) (X : NDArr) :
    NoFit L a s [.fit (.real (.d1 3 v)) none [], .set id, .transform X] := by
  refine ⟨fun X init kw h => ?_, fun X init kw h => (by cases h),
    fun X init kw h => (by cases h), trivial⟩
  cases h
  intro h
  obtain ⟨o, n, m, A, r, -, h2, -, -⟩ := fitCall_ok h
  cases ho : o.complex <;>
    simp [ho, checkedColumns, checkArray, arraytoreal, bind, Except.bind] at h2

end RS
