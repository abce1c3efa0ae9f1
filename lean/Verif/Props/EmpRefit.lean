import Verif.Props.Precision

/-
Refitting a ComplexEmpiricalCovariance, and a fit that raises (C185).
-/
set_option autoImplicit false

namespace RS
open Matrix ComplexOrder

/-- `fit` in terms of the validated data. -/
theorem emp_fit_validated {X : NDArr} {n p : ℕ} {Z : Matrix (Fin n) (Fin p) ℂ}
    (h : validateData X = .ok (.cplx (.d2 n p Z))) (hp : 0 < p) (pinvh : Pinvh) (o : EmpObj) :
    o.fit pinvh X = ({ o with
      location := some ⟨p, if o.assumeCentered then 0 else fun j => (∑ i, Z i j) / n⟩
      covariance := some (.cplx (.d2 p p (complexEmpiricalCovariance Z o.assumeCentered)))
      precision := some (if o.storePrecision then
        some (.cplx (.d2 p p (pinvh p (complexEmpiricalCovariance Z o.assumeCentered)))) else none) }, .ok ()) ∧
    complexEmpCovFit X o.assumeCentered = .ok ⟨⟨p, if o.assumeCentered then 0 else fun j => (∑ i, Z i j) / n⟩,
      .cplx (.d2 p p (complexEmpiricalCovariance Z o.assumeCentered))⟩ := by
  have hs := setCovariance_complex p hp (complexEmpiricalCovariance Z o.assumeCentered)
  constructor
  · cases hst : o.storePrecision <;> simp [EmpObj.fit, h, EmpObj.setCov, hs, hst, pinvArr]
  · simp [complexEmpCovFit, h, bind, Except.bind, hs, pure, Except.pure]

theorem emp_fit_empty {X : NDArr} {n : ℕ} {Z : Matrix (Fin n) (Fin 0) ℂ}
    (h : validateData X = .ok (.cplx (.d2 n 0 Z))) (pinvh : Pinvh) (o : EmpObj) :
    o.fit pinvh X = ({ o with
      location := some ⟨0, if o.assumeCentered then 0 else fun j => (∑ i, Z i j) / n⟩ }, .error .valueError) ∧
    complexEmpCovFit X o.assumeCentered = .error .valueError := by
  constructor
  · simp [EmpObj.fit, h, EmpObj.setCov, setCovariance, covariancetoreal, checkArray]
    rfl
  · simp [complexEmpCovFit, h, bind, Except.bind, setCovariance, covariancetoreal, checkArray]

theorem bcast2_ok {α β γ : Type*} {f : α → β → γ} {r m n : ℕ} {v : Matrix (Fin r) (Fin m) α}
    {w : Matrix (Fin r) (Fin n) β} {A : Arr γ} (h : bcast2 f r m n v w = .ok A) :
    ∃ k B, A = .d2 r k B ∧ (k = n ∧ (m = n ∨ m = 1) ∨ k = m ∧ n = 1) := by
  unfold bcast2 at h
  split_ifs at h with h1 h2 h3
  · cases h
    exact ⟨n, _, rfl, .inl ⟨rfl, .inl h1⟩⟩
  · cases h
    exact ⟨n, _, rfl, .inl ⟨rfl, .inr h2⟩⟩
  · cases h
    exact ⟨m, _, rfl, .inr ⟨rfl, h3⟩⟩

/-- The validated data have no column only for real data with one column. -/
theorem validateData_empty {X : NDArr} {n : ℕ} {Z : Matrix (Fin n) (Fin 0) ℂ}
    (h : validateData X = .ok (.cplx (.d2 n 0 Z))) : 0 < n ∧ ∃ Y : Matrix (Fin n) (Fin 1) ℝ, X = .real (.d2 n 1 Y) := by
  have key : ∀ {m q : ℕ} {Y : Matrix (Fin m) (Fin q) ℝ}, (checkArray (.real (.d2 m q Y)) >>= arraytocomplex) =
      .ok (.cplx (.d2 n 0 Z)) → 0 < m ∧ m = n ∧ q = 1 := by
    intro m q Y hY
    by_cases hmq : m = 0 ∨ q = 0
    · simp [checkArray, hmq, bind, Except.bind] at hY
    · obtain ⟨hm, hq⟩ := not_or.1 hmq
      simp only [checkArray, hmq, if_false, bind, Except.bind, arraytocomplex] at hY
      cases hb : bcast2 addI m (q / 2) (q - q / 2) (fun i => firstHalf (Y i)) (fun i => secondHalf (Y i)) with
      | error e => simp [hb] at hY
      | ok A =>
        obtain ⟨k, B, rfl, hk⟩ := bcast2_ok hb
        simp only [hb, vstackArr, hm, if_false, pure, Except.pure, Except.ok.injEq, NDArr.cplx.injEq,
          Arr.d2.injEq] at hY
        omega
  cases X with
  | real a =>
    cases a with
    | d2 m q Y =>
      obtain ⟨a1, rfl, rfl⟩ := key (Y := Y) h
      exact ⟨a1, Y, rfl⟩
    | _ => simp [validateData, arraytoreal, checkArray, bind, Except.bind] at h
  | cplx a =>
    cases a with
    | d2 m q Y =>
      have := (key (m := m) (q := q + q) h).2.2
      omega
    | _ => simp [validateData, arraytoreal, checkArray, bind, Except.bind] at h

/-- The three outcomes of validating. -/
theorem emp_fit_cases (X : NDArr) :
    (∃ e, ∀ (pinvh : Pinvh) (o : EmpObj), o.fit pinvh X = (o, .error e) ∧
      complexEmpCovFit X o.assumeCentered = .error e) ∨
    (∃ n p, ∃ Z : Matrix (Fin n) (Fin p) ℂ, validateData X = .ok (.cplx (.d2 n p Z))) := by
  cases h : validateData X with
  | error e => exact .inl ⟨e, fun pinvh o => by simp [EmpObj.fit, complexEmpCovFit, h, bind, Except.bind]⟩
  | ok Y =>
    cases Y with
    | real a => exact .inl ⟨.valueError, fun pinvh o => by simp [EmpObj.fit, complexEmpCovFit, h, bind, Except.bind]⟩
    | cplx a =>
      cases a with
      | d2 n p Z => exact .inr ⟨n, p, Z, rfl⟩
      | _ => exact .inl ⟨.valueError, fun pinvh o => by simp [EmpObj.fit, complexEmpCovFit, h, bind, Except.bind]⟩

/-- The attributes after `fit` are those of the data alone: whatever the object went through before, `fit`
raises exactly if it does on a new object with the same parameters, with the same exception, and if it
does not raise, the object is the same as the new one. -/
theorem C185_history (pinvh : Pinvh) (o : EmpObj) (ops : List EmpOp) (X : NDArr) :
    let u := ops.foldl (EmpOp.run pinvh) o
    let new := EmpObj.new u.storePrecision u.assumeCentered
    (u.fit pinvh X).2 = (new.fit pinvh X).2 ∧
    ((u.fit pinvh X).2 = .ok () → (u.fit pinvh X).1 = (new.fit pinvh X).1) := by
  intro u new
  rcases emp_fit_cases X with ⟨e, he⟩ | ⟨n, p, Z, hZ⟩
  · rw [(he pinvh u).1, (he pinvh new).1]
    exact ⟨rfl, fun h => by cases h⟩
  · rcases Nat.eq_zero_or_pos p with rfl | hp
    · rw [(emp_fit_empty hZ pinvh u).1, (emp_fit_empty hZ pinvh new).1]
      exact ⟨rfl, fun h => by cases h⟩
    · rw [(emp_fit_validated hZ hp pinvh u).1, (emp_fit_validated hZ hp pinvh new).1]
      exact ⟨rfl, fun _ => rfl⟩

/-- The object after `fit` has the attributes that C25-C27 describe, and raises in the same cases. -/
theorem C185_attributes (pinvh : Pinvh) (o : EmpObj) (X : NDArr) :
    (∀ e, (o.fit pinvh X).2 = .error e ↔ complexEmpCovFit X o.assumeCentered = .error e) ∧
    ∀ r, complexEmpCovFit X o.assumeCentered = .ok r → (o.fit pinvh X).2 = .ok () ∧
      (o.fit pinvh X).1.location = some r.location ∧ (o.fit pinvh X).1.covariance = some r.covariance := by
  rcases emp_fit_cases X with ⟨e, he⟩ | ⟨n, p, Z, hZ⟩
  · rw [(he pinvh o).1, (he pinvh o).2]
    exact ⟨fun e' => by simp, fun r h => by cases h⟩
  · rcases Nat.eq_zero_or_pos p with rfl | hp
    · rw [(emp_fit_empty hZ pinvh o).1, (emp_fit_empty hZ pinvh o).2]
      exact ⟨fun e' => by simp, fun r h => by cases h⟩
    · rw [(emp_fit_validated hZ hp pinvh o).1, (emp_fit_validated hZ hp pinvh o).2]
      refine ⟨fun e' => by simp, fun r h => ?_⟩
      cases h
      exact ⟨rfl, rfl, rfl⟩

/-- Full claim (false, see `C185_violated`): a `fit` that raises leaves `location_`, `covariance_` and
`precision_` as they were. True for all arrays but real ones with a single column; missing is this case
(`C185_one_column`). -/
theorem C185_raise_partial (pinvh : Pinvh) (o : EmpObj) (X : NDArr)
    (hX : ∀ n, ∀ Y : Matrix (Fin n) (Fin 1) ℝ, X ≠ .real (.d2 n 1 Y)) (e : PyErr)
    (h : (o.fit pinvh X).2 = .error e) : (o.fit pinvh X).1 = o := by
  rcases emp_fit_cases X with ⟨e', he⟩ | ⟨n, p, Z, hZ⟩
  · rw [(he pinvh o).1]
  · rcases Nat.eq_zero_or_pos p with rfl | hp
    · obtain ⟨-, Y, rfl⟩ := validateData_empty hZ
      exact absurd rfl (hX n Y)
    · rw [(emp_fit_validated hZ hp pinvh o).1] at h
      cases h

/-- Real data with a single column: always `ValueError`, and `location_` is the empty array afterwards. -/
theorem C185_one_column (pinvh : Pinvh) (o : EmpObj) (n : ℕ) (hn : 0 < n) (Y : Matrix (Fin n) (Fin 1) ℝ) :
    ∃ loc : Fin 0 → ℂ, o.fit pinvh (.real (.d2 n 1 Y)) = ({ o with location := some ⟨0, loc⟩ }, .error .valueError) := by
  have hv : ∃ Z : Matrix (Fin n) (Fin 0) ℂ, validateData (.real (.d2 n 1 Y)) = .ok (.cplx (.d2 n 0 Z)) := by
    simp [validateData, arraytoreal, checkArray, hn.ne', bind, Except.bind, arraytocomplex, bcast2, vstackArr, pure,
      Except.pure]
    exact ⟨_, rfl⟩
  obtain ⟨Z, hZ⟩ := hv
  exact ⟨_, (emp_fit_empty hZ pinvh o).1⟩

/-- The claim is false: an object fitted on complex data of any size is given one real column. It raises;
`covariance_` is still the one of the first fit, but `location_` is empty. -/
theorem C185_violated (pinvh : Pinvh) (sp ac : Bool) (n p m : ℕ) (hn : 0 < n) (hp : 0 < p) (hm : 0 < m)
    (Z : Matrix (Fin n) (Fin p) ℂ) (Y : Matrix (Fin m) (Fin 1) ℝ) :
    let first := (EmpObj.new sp ac).fit pinvh (.cplx (.d2 n p Z))
    let second := first.1.fit pinvh (.real (.d2 m 1 Y))
    first.2 = .ok () ∧ second.2 = .error .valueError ∧ second.1.covariance = first.1.covariance ∧
    first.1.covariance = some (.cplx (.d2 p p (complexEmpiricalCovariance Z ac))) ∧
    (∃ loc : Fin p → ℂ, first.1.location = some ⟨p, loc⟩) ∧
    (∃ loc : Fin 0 → ℂ, second.1.location = some ⟨0, loc⟩) ∧ second.1 ≠ first.1 := by
  intro first second
  obtain ⟨loc, C, b1, b2, b3⟩ := C27_complex_data n p hn hp Z ac
  have hfit : ∃ loc : Fin p → ℂ, complexEmpCovFit (.cplx (.d2 n p Z)) ac =
      .ok ⟨⟨p, loc⟩, .cplx (.d2 p p (complexEmpiricalCovariance Z ac))⟩ := by
    have hN0 : (n : ℂ) ≠ 0 := by exact_mod_cast hn.ne'
    refine ⟨loc, ?_⟩
    rw [b1]
    have hC : C = complexEmpiricalCovariance Z ac := by
      ext a b
      have c1 := b3 a b
      rw [← C25_is_covariance hn Z ac loc b2 a b] at c1
      exact mul_left_cancel₀ hN0 c1
    rw [hC]
  obtain ⟨loc', h1⟩ := hfit
  obtain ⟨a1, a2, a3⟩ := (C185_attributes pinvh (EmpObj.new sp ac) (.cplx (.d2 n p Z))).2 _ h1
  obtain ⟨l, h2⟩ := C185_one_column pinvh first.1 m hm Y
  have e2 : second = ({ first.1 with location := some ⟨0, l⟩ }, .error .valueError) := h2
  refine ⟨a1, by rw [e2], by rw [e2], a3, ⟨loc', a2⟩, ⟨l, by rw [e2]⟩, fun h => ?_⟩
  have h3 : second.1.location = first.1.location := by rw [h]
  rw [e2, show first.1.location = some ⟨p, loc'⟩ from a2] at h3
  have := congrArg Sigma.fst (Option.some.inj h3)
  simp only at this
  omega

theorem emp_fit_step (pinvh : Pinvh) (o : EmpObj) (X : NDArr) :
    (o.fit pinvh X).1.covariance = (match complexEmpCovFit X o.assumeCentered with
      | .ok r => some r.covariance
      | .error _ => o.covariance) ∧
    (o.fit pinvh X).1.assumeCentered = o.assumeCentered := by
  rcases emp_fit_cases X with ⟨e, he⟩ | ⟨n, p, Z, hZ⟩
  · rw [(he pinvh o).1, (he pinvh o).2]
    exact ⟨rfl, rfl⟩
  · rcases Nat.eq_zero_or_pos p with rfl | hp
    · rw [(emp_fit_empty hZ pinvh o).1, (emp_fit_empty hZ pinvh o).2]
      exact ⟨rfl, rfl⟩
    · rw [(emp_fit_validated hZ hp pinvh o).1, (emp_fit_validated hZ hp pinvh o).2]
      exact ⟨rfl, rfl⟩

/-- After any number of calls of `fit`, `covariance_` (which is also what `transform` returns) is that of the last
accepted data, and there is none if all were refused. -/
theorem C185_last (pinvh : Pinvh) (sp ac : Bool) (Xs : List NDArr) :
    ((Xs.map EmpOp.fit).foldl (EmpOp.run pinvh) (EmpObj.new sp ac)).covariance =
      (Xs.filterMap fun X => (complexEmpCovFit X ac).toOption).getLast?.map fun r => r.covariance := by
  suffices h : ((Xs.map EmpOp.fit).foldl (EmpOp.run pinvh) (EmpObj.new sp ac)).covariance =
      ((Xs.filterMap fun X => (complexEmpCovFit X ac).toOption).getLast?.map fun r => r.covariance) ∧
      ((Xs.map EmpOp.fit).foldl (EmpOp.run pinvh) (EmpObj.new sp ac)).assumeCentered = ac from h.1
  induction Xs using List.reverseRecOn with
  | nil => exact ⟨rfl, rfl⟩
  | append_singleton l X ih =>
    obtain ⟨h1, h2⟩ := ih
    rw [List.map_append, List.foldl_append, List.filterMap_append]
    obtain ⟨s1, s2⟩ := emp_fit_step pinvh ((l.map EmpOp.fit).foldl (EmpOp.run pinvh) (EmpObj.new sp ac)) X
    simp only [List.map_cons, List.map_nil, List.foldl_cons, List.foldl_nil]
    refine ⟨?_, s2.trans h2⟩
    change (EmpObj.fit pinvh _ X).1.covariance = _
    rw [s1, h2]
    cases hX : complexEmpCovFit X ac with
    | ok r => simp [hX, Except.toOption]
    | error e => simp [hX, Except.toOption, h1]

/- The hypotheses can be met: a refused array that is no single real column, and an accepted one after a history. -/
example (pinvh : Pinvh) (o : EmpObj) (v : Fin 3 → ℂ) :
    (o.fit pinvh (.cplx (.d1 3 v))).2 = .error .valueError ∧ (o.fit pinvh (.cplx (.d1 3 v))).1 = o ∧
    (([EmpOp.setCov (.cplx (.d1 3 v)), .fit oneSample, .setCentered true].foldl (EmpOp.run pinvh) o).fit pinvh
      oneSample).2 = .ok () := by
  have h : (o.fit pinvh (.cplx (.d1 3 v))).2 = .error .valueError := by
    simp [EmpObj.fit, validateData, arraytoreal, checkArray, bind, Except.bind]
  refine ⟨h, C185_raise_partial pinvh o _ (fun n Y => by simp) _ h, ?_⟩
  rw [(C185_history pinvh o _ oneSample).1]
  exact congrArg Prod.snd (oneSample_fit pinvh _)

end RS
