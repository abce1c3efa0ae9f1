import Verif.Spec.Precision
import Verif.Spec.Probability
import Verif.Props.Base
import Verif.Lemmas.MatFun

/-
C109 the precision matrix, C110 the score of a fitted complex covariance.
-/
set_option autoImplicit false

namespace RS
open Matrix ComplexOrder

/-- A Moore-Penrose inverse of an invertible matrix is the inverse. -/
theorem IsPinv.inv_eq {n : ℕ} {A P : Matrix (Fin n) (Fin n) ℂ} (h : IsPinv A P)
    (hA : IsUnit A.det) : P = A⁻¹ := by
  have h1 : P * A = 1 := by
    calc P * A = A⁻¹ * (A * P * A) := by
            rw [Matrix.mul_assoc A, ← Matrix.mul_assoc A⁻¹, nonsing_inv_mul _ hA, Matrix.one_mul]
      _ = 1 := by rw [h.apa, nonsing_inv_mul _ hA]
  calc P = P * A * A⁻¹ := by rw [Matrix.mul_assoc, mul_nonsing_inv _ hA, Matrix.mul_one]
    _ = A⁻¹ := by rw [h1, Matrix.one_mul]

/-- What is stored: a square complex matrix. -/
theorem setCovariance_shape {C c : NDArr} (h : setCovariance C = .ok c) :
    ∃ (n : ℕ) (A : Matrix (Fin n) (Fin n) ℂ), c = .cplx (.d2 n n A) := by
  unfold setCovariance at h
  cases h1 : covariancetoreal C with
  | error e => rw [h1] at h; cases h
  | ok r =>
    rw [h1] at h
    change (checkArray r >>= covariancetocomplex) = _ at h
    cases r with
    | cplx a => cases h
    | real a =>
      cases a with
      | d2 m n a =>
        simp only [checkArray] at h
        by_cases h0 : m = 0 ∨ n = 0
        · rw [if_pos h0] at h; cases h
        · rw [if_neg h0] at h
          change covariancetocomplex (.real (.d2 m n a)) = .ok c at h
          unfold covariancetocomplex at h
          by_cases hmn : m = n
          · simp only [hmn, ↓reduceDIte] at h
            by_cases he : n % 2 = 0
            · simp only [he, ↓reduceDIte] at h
              cases h
              exact ⟨_, _, rfl⟩
            · simp only [he, ↓reduceDIte] at h; cases h
          · simp only [hmn, ↓reduceDIte] at h; cases h
      | _ => cases h

/-- Effect of an accepted or rejected `_set_covariance`. -/
theorem setCov_cases (pinvh : Pinvh) (o : EmpObj) (C : NDArr) :
    (∃ e, o.setCov pinvh C = (o, .error e)) ∨
    ∃ (n : ℕ) (A : Matrix (Fin n) (Fin n) ℂ), setCovariance C = .ok (.cplx (.d2 n n A)) ∧
      o.setCov pinvh C = ({ o with
        covariance := some (.cplx (.d2 n n A))
        precision := some (if o.storePrecision then some (.cplx (.d2 n n (pinvh n A))) else none) },
        .ok ()) := by
  cases h : setCovariance C with
  | error e => left; exact ⟨e, by simp [EmpObj.setCov, h]⟩
  | ok c =>
    obtain ⟨n, A, rfl⟩ := setCovariance_shape h
    right
    refine ⟨n, A, rfl, ?_⟩
    cases hs : o.storePrecision <;> simp [EmpObj.setCov, h, hs, pinvArr]

/-- Effect of an accepted or rejected `fit`. -/
theorem fit_cases (pinvh : Pinvh) (o : EmpObj) (X : NDArr) :
    (∃ e l, o.fit pinvh X = ({ o with location := l }, .error e)) ∨
    ∃ (p : ℕ) (loc : Fin p → ℂ) (A : Matrix (Fin p) (Fin p) ℂ), A.PosSemidef ∧
      o.fit pinvh X = ({ o with
        location := some ⟨p, loc⟩
        covariance := some (.cplx (.d2 p p A))
        precision := some (if o.storePrecision then some (.cplx (.d2 p p (pinvh p A))) else none) },
        .ok ()) := by
  cases h : validateData X with
  | error e => left; exact ⟨e, o.location, by simp [EmpObj.fit, h]⟩
  | ok Y =>
    cases Y with
    | real a => left; exact ⟨.valueError, o.location, by simp [EmpObj.fit, h]⟩
    | cplx a =>
      cases a with
      | d2 n p Z =>
        rcases Nat.eq_zero_or_pos p with hp | hp
        · left
          subst hp
          refine ⟨.valueError, some ⟨0, if o.assumeCentered then 0 else fun j => (∑ i, Z i j) / n⟩, ?_⟩
          simp [EmpObj.fit, h, EmpObj.setCov, setCovariance, covariancetoreal, checkArray]
          rfl
        · right
          have hs := setCovariance_complex p hp (complexEmpiricalCovariance Z o.assumeCentered)
          refine ⟨p, if o.assumeCentered then 0 else fun j => (∑ i, Z i j) / n, _,
            C25_posSemidef Z o.assumeCentered, ?_⟩
          cases hst : o.storePrecision <;>
            simp [EmpObj.fit, h, EmpObj.setCov, hs, hst, pinvArr]
      | _ => left; exact ⟨.valueError, o.location, by simp [EmpObj.fit, h]⟩

/-- There is only one Moore-Penrose inverse. -/
theorem IsPinv.unique {n : ℕ} {A P Q : Matrix (Fin n) (Fin n) ℂ} (hP : IsPinv A P)
    (hQ : IsPinv A Q) : P = Q := by
  have h1 : A * P = A * Q := by
    have e : A * P = (A * Q) * (A * P) := by
      rw [← Matrix.mul_assoc, hQ.apa]
    have e' := congrArg conjTranspose e
    rw [conjTranspose_mul (A * Q), hP.ap.eq, hQ.ap.eq, ← Matrix.mul_assoc, hP.apa] at e'
    exact e'
  have h2 : P * A = Q * A := by
    have e : P * A = (P * A) * (Q * A) := by
      rw [Matrix.mul_assoc, ← Matrix.mul_assoc A, hQ.apa]
    have e' := congrArg conjTranspose e
    rw [conjTranspose_mul (P * A), hP.pa.eq, hQ.pa.eq, Matrix.mul_assoc, ← Matrix.mul_assoc A,
      hP.apa] at e'
    exact e'
  calc P = P * A * P := hP.pap.symm
    _ = Q * (A * P) := by rw [h2, Matrix.mul_assoc]
    _ = Q := by rw [h1, ← Matrix.mul_assoc, hQ.pap]

/-- The Moore-Penrose inverse of a Hermitian matrix is Hermitian. -/
theorem IsPinv.hermitian {n : ℕ} {A P : Matrix (Fin n) (Fin n) ℂ} (h : IsPinv A P)
    (hA : A.IsHermitian) : P.IsHermitian := by
  have hs : IsPinv A Pᴴ := by
    refine ⟨?_, ?_, ?_, ?_⟩
    · have e := congrArg conjTranspose h.apa
      simp only [conjTranspose_mul, hA.eq] at e
      rw [Matrix.mul_assoc]; exact e
    · have e := congrArg conjTranspose h.pap
      simp only [conjTranspose_mul, hA.eq] at e
      rw [Matrix.mul_assoc]; exact e
    · have e := h.pa
      have e' : P * A = A * Pᴴ := by
        have := e.eq
        rw [conjTranspose_mul, hA.eq] at this
        exact this.symm
      rw [← e']; exact e
    · have e := h.ap
      have e' : A * P = Pᴴ * A := by
        have := e.eq
        rw [conjTranspose_mul, hA.eq] at this
        exact this.symm
      rw [← e']; exact e
  exact hs.unique h

/-- The invariant behind C109: with `store_precision` fixed to `sp`, a Hermitian covariance is
stored together with its precision. -/
def EmpObj.StoreInv (pinvh : Pinvh) (sp : Bool) (o : EmpObj) : Prop :=
  o.storePrecision = sp ∧ ((o.covariance = none ∧ o.precision = none) ∨
    ∃ (n : ℕ) (A : Matrix (Fin n) (Fin n) ℂ), A.IsHermitian ∧
      o.covariance = some (.cplx (.d2 n n A)) ∧
      o.precision = some (if sp then some (.cplx (.d2 n n (pinvh n A))) else none))

theorem EmpOp.run_storeInv (pinvh : Pinvh) (sp : Bool) (o : EmpObj) (h : o.StoreInv pinvh sp)
    (op : EmpOp) (hk : op.KeepsStore) (hh : op.HermArg) : (op.run pinvh o).StoreInv pinvh sp := by
  obtain ⟨h1, h2⟩ := h
  cases op with
  | setStore b => exact hk.elim
  | setCentered b => exact ⟨h1, h2⟩
  | fit X =>
    rcases fit_cases pinvh o X with ⟨e, l, he⟩ | ⟨p, loc, A, hA, he⟩
    · simp only [EmpOp.run, he]; exact ⟨h1, h2⟩
    · simp only [EmpOp.run, he, h1]
      exact ⟨rfl, .inr ⟨p, A, hA.1, rfl, rfl⟩⟩
  | setCov C =>
    obtain ⟨k, B, rfl, hB⟩ := hh
    rcases setCov_cases pinvh o (.cplx (.d2 k k B)) with ⟨e, he⟩ | ⟨n, A, hs, he⟩
    · simp only [EmpOp.run, he]; exact ⟨h1, h2⟩
    · simp only [EmpOp.run, he, h1]
      refine ⟨rfl, .inr ⟨n, A, ?_, rfl, rfl⟩⟩
      rcases Nat.eq_zero_or_pos k with hk0 | hk0
      · subst hk0
        simp [setCovariance, covariancetoreal, checkArray] at hs
        cases hs
      · rw [setCovariance_complex k hk0] at hs
        cases hs
        exact hB

/-! ## C109 -/

/-- Full claim (false in general, see `C109_violated`): after every sequence of operations
`get_precision()` is the pseudo-inverse of `covariance_`.
Proved for all histories in which `store_precision` keeps its initial value, whichever it is
(covariances handed over directly being complex Hermitian matrices). -/
theorem C109_partial (pinvh : Pinvh) (hP : pinvh.Ok) (sp ac : Bool) (ops : List EmpOp)
    (hk : ∀ op ∈ ops, op.KeepsStore) (hh : ∀ op ∈ ops, op.HermArg) :
    let o := ops.foldl (EmpOp.run pinvh) (EmpObj.new sp ac)
    match o.covariance with
    | none => o.getPrecision pinvh = .error .attributeError
    | some c => ∃ P, o.getPrecision pinvh = .ok (some P) ∧ ArrIsPinv c P := by
  intro o
  have key : ∀ (ops : List EmpOp) (o : EmpObj), o.StoreInv pinvh sp →
      (∀ op ∈ ops, op.KeepsStore) → (∀ op ∈ ops, op.HermArg) →
      (ops.foldl (EmpOp.run pinvh) o).StoreInv pinvh sp := by
    intro ops
    induction ops with
    | nil => intro o h _ _; exact h
    | cons op ops ih =>
      intro o h hk hh
      exact ih _ (op.run_storeInv pinvh sp o h (hk _ (by simp)) (hh _ (by simp)))
        (fun q hq => hk q (by simp [hq])) fun q hq => hh q (by simp [hq])
  obtain ⟨h1, h2⟩ := key ops (EmpObj.new sp ac) ⟨rfl, .inl ⟨rfl, rfl⟩⟩ hk hh
  change o.storePrecision = sp at h1
  rcases h2 with ⟨hc, hp⟩ | ⟨n, A, hA, hc, hp⟩
  · rw [show o.covariance = none from hc]
    cases sp <;> simp [EmpObj.getPrecision, h1, show o.covariance = none from hc,
      show o.precision = none from hp]
  · rw [show o.covariance = _ from hc]
    refine ⟨.cplx (.d2 n n (pinvh n A)), ?_, n, A, _, rfl, rfl, hA, hP n A hA⟩
    cases sp
    · simp [EmpObj.getPrecision, h1, show o.covariance = _ from hc, pinvArr]
    · simp [EmpObj.getPrecision, h1, show o.precision = _ from hp]

/-- Exactly what `get_precision()` returns after an accepted `fit` and any later changes of
attributes: the pseudo-inverse, except that it is `None` when `store_precision` was off at the time
of the fit and is on now. -/
theorem C109_exact (pinvh : Pinvh) (hP : pinvh.Ok) (o : EmpObj) (X : NDArr)
    (hfit : (o.fit pinvh X).2 = .ok ()) (post : List EmpOp) (hpost : ∀ op ∈ post, op.IsAttr) :
    let o' := post.foldl (EmpOp.run pinvh) (o.fit pinvh X).1
    ∃ c P, o'.covariance = some c ∧ ArrIsPinv c P ∧
      o'.getPrecision pinvh =
        .ok (if o'.storePrecision = true ∧ o.storePrecision = false then none else some P) := by
  have key : ∀ (post : List EmpOp) (u : EmpObj), (∀ op ∈ post, op.IsAttr) →
      (post.foldl (EmpOp.run pinvh) u).covariance = u.covariance ∧
      (post.foldl (EmpOp.run pinvh) u).precision = u.precision := by
    intro post
    induction post with
    | nil => intro u _; exact ⟨rfl, rfl⟩
    | cons op post ih =>
      intro u h
      have := ih (op.run pinvh u) fun q hq => h q (by simp [hq])
      have h0 := h op (by simp)
      cases op with
      | setStore b => exact this
      | setCentered b => exact this
      | fit X => exact h0.elim
      | setCov C => exact h0.elim
  intro o'
  rcases fit_cases pinvh o X with ⟨e, l, he⟩ | ⟨p, loc, A, hA, he⟩
  · rw [he] at hfit; cases hfit
  · obtain ⟨k1, k2⟩ := key post (o.fit pinvh X).1 hpost
    change o'.covariance = _ at k1
    change o'.precision = _ at k2
    rw [he] at k1 k2
    simp only at k1 k2
    refine ⟨.cplx (.d2 p p A), .cplx (.d2 p p (pinvh p A)), k1,
      ⟨p, A, _, rfl, rfl, hA.1, hP p A hA.1⟩, ?_⟩
    cases hs : o'.storePrecision
    · simp [EmpObj.getPrecision, hs, k1, pinvArr]
    · cases hs' : o.storePrecision <;> simp [EmpObj.getPrecision, hs, k2, hs']

/-- What a pseudo-inverse array is: Hermitian, positive semi-definite for a positive semi-definite
matrix, and the inverse of an invertible one. -/
theorem C109_inverse {n : ℕ} {A : Matrix (Fin n) (Fin n) ℂ} {P : NDArr}
    (h : ArrIsPinv (.cplx (.d2 n n A)) P) :
    ∃ B : Matrix (Fin n) (Fin n) ℂ, P = .cplx (.d2 n n B) ∧ B.IsHermitian ∧
      (A.PosSemidef → B.PosSemidef) ∧ (IsUnit A.det → A * B = 1 ∧ B * A = 1) := by
  obtain ⟨m, A', B, e, rfl, hA, hB⟩ := h
  cases e
  have hH := hB.hermitian hA
  refine ⟨B, rfl, hH, fun hp => ?_, fun hd => ?_⟩
  · have := hp.mul_mul_conjTranspose_same B
    rwa [hH.eq, hB.pap] at this
  · rw [hB.inv_eq hd]
    exact ⟨mul_nonsing_inv _ hd, nonsing_inv_mul _ hd⟩

/-- One complex sample with one feature. -/
noncomputable def oneSample : NDArr := .cplx (.d2 1 1 fun _ _ => 1)

theorem oneSample_fit (pinvh : Pinvh) (sp : Bool) :
    ((EmpObj.new sp true).fit pinvh oneSample) =
      (⟨sp, true, some ⟨1, 0⟩, some (.cplx (.d2 1 1 1)),
        some (if sp then some (.cplx (.d2 1 1 (pinvh 1 1))) else none)⟩, .ok ()) := by
  have hv := arraytoreal_check_complex 1 1 one_pos one_pos fun _ _ => 1
  have hc : complexEmpiricalCovariance (fun _ _ => 1 : Matrix (Fin 1) (Fin 1) ℂ) true = 1 := by
    ext i j
    obtain rfl := Subsingleton.elim i j
    simp only [complexEmpiricalCovariance, dotCov, if_true, Matrix.smul_apply, Matrix.mul_apply]
    change ((1 : ℕ) : ℂ)⁻¹ • ∑ _ : Fin 1, (1 : ℂ) * star (1 : ℂ) = _
    simp
  unfold EmpObj.fit oneSample
  simp only [hv, EmpObj.new, hc, EmpObj.setCov, setCovariance_complex 1 one_pos]
  cases sp <;> simp [pinvArr]

/-- The claim is false: an object fitted without storing the precision and asked to store it
afterwards answers `None`. -/
theorem C109_violated (pinvh : Pinvh) :
    let o := [EmpOp.fit oneSample, .setStore true].foldl (EmpOp.run pinvh) (EmpObj.new false true)
    o.covariance ≠ none ∧ o.getPrecision pinvh = .ok none := by
  simp [EmpOp.run, oneSample_fit, EmpObj.getPrecision]

/-- The hypotheses of `C109_partial` and `C109_exact` can be met, and the fitted case occurs. -/
example (pinvh : Pinvh) (sp : Bool) :
    ([EmpOp.fit oneSample].foldl (EmpOp.run pinvh) (EmpObj.new sp true)).covariance =
      some (.cplx (.d2 1 1 1)) ∧ ((EmpObj.new sp true).fit pinvh oneSample).2 = .ok () := by
  simp [EmpOp.run, oneSample_fit]

/-- A `pinvh` that meets its contract exists. -/
example : ∃ pinvh : Pinvh, pinvh.Ok := by
  have key : ∀ (n : ℕ) (A : Matrix (Fin n) (Fin n) ℂ), ∃ P, A.IsHermitian → IsPinv A P := by
    intro n A
    by_cases hA : A.IsHermitian
    · obtain ⟨e, he⟩ := IsHermitian.exists_valid hA
      refine ⟨e.fn fun x => x⁻¹, fun _ => ?_⟩
      conv => arg 1; rw [← he.fn_id]
      refine ⟨?_, ?_, ?_, ?_⟩
      · rw [he.fn_mul, he.fn_mul]
        exact he.fn_congr fun i => mul_inv_mul_cancel _
      · rw [he.fn_mul, he.fn_mul]
        exact he.fn_congr fun i => by simpa using mul_inv_mul_cancel (e.vals i)⁻¹
      · rw [he.fn_mul]; exact he.fn_isHermitian _
      · rw [he.fn_mul]; exact he.fn_isHermitian _
    · exact ⟨0, fun h => absurd h hA⟩
  choose f hf using key
  exact ⟨f, hf⟩

/-! ## C110 -/

/-- Full claim (false, see `C110_violated`): `score(X_test)` of a fitted object is the mean
log-density of the test samples under the complex normal law with mean `location_` and covariance
`covariance_`.
What holds, with an sklearn that does not validate the test set: if location, covariance and test
set are real numbers, the score is the mean log-density under the real normal law. -/
theorem C110_partial (pinvh : Pinvh) (o : EmpObj) {n p : ℕ} (hn : 0 < n) (m : Fin p → ℝ)
    (S : Matrix (Fin p) (Fin p) ℝ) (hS : S.PosDef)
    (hloc : o.location = some ⟨p, fun j => (m j : ℂ)⟩) (P : NDArr)
    (hprec : o.getPrecision pinvh = .ok (some P))
    (hP : ArrIsPinv (.cplx (.d2 p p (S.map Complex.ofReal))) P)
    (X : Matrix (Fin n) (Fin p) ℝ) :
    o.score false pinvh (X.map Complex.ofReal) =
      .ok (.fin (((n : ℝ)⁻¹ * ∑ i, normalLogDensity m S (X i) : ℝ) : ℂ)) := by
  obtain ⟨k, A, B, e, rfl, hA, hB⟩ := hP
  cases e
  have hu : IsUnit (S.map Complex.ofReal).det := by
    have : (S.map Complex.ofReal).det = ((S.det : ℝ) : ℂ) := by
      exact (Complex.ofRealHom.map_det S).symm
    rw [this]
    simpa using hS.det_pos.ne'
  have hBi := hB.inv_eq hu
  have hmap : B = S⁻¹.map Complex.ofReal := by
    rw [hBi]
    refine Matrix.inv_eq_right_inv ?_
    have : S * S⁻¹ = 1 := mul_nonsing_inv _ (by simpa using hS.det_pos.ne')
    have h := congrArg (fun M : Matrix (Fin p) (Fin p) ℝ => M.map Complex.ofRealHom) this
    simp only [Matrix.map_mul] at h
    rw [Matrix.map_one _ (map_zero _) (map_one _)] at h
    exact h
  have hn0 : (n : ℝ) ≠ 0 := by exact_mod_cast hn.ne'
  have hdet : B.det = ((S.det⁻¹ : ℝ) : ℂ) := by
    rw [hmap]
    have := (Complex.ofRealHom.map_det S⁻¹).symm
    rw [Matrix.det_nonsing_inv, Ring.inverse_eq_inv'] at this
    exact this
  have hpos : 0 < S.det⁻¹ := inv_pos.2 hS.det_pos
  unfold EmpObj.score
  simp only [Bool.false_eq_true, if_false, hloc, hprec, dif_pos, bind, Except.bind, and_self]
  have hsub : ∀ h1 h2, B.submatrix (Fin.cast h1) (Fin.cast h2) = B := fun _ _ => rfl
  simp only [logLikelihood, hsub, Fin.cast_eq_self]
  have hq : ∑ x, ∑ y, ((n : ℂ)⁻¹ •
      ((of fun i j => X.map Complex.ofReal i j - (m j : ℂ))ᵀ *
        of fun i j => X.map Complex.ofReal i j - (m j : ℂ)) : Matrix (Fin p) (Fin p) ℂ) x y * B x y =
      (((n : ℝ)⁻¹ * ∑ k, ((X k - m) ⬝ᵥ S⁻¹ *ᵥ (X k - m)) : ℝ) : ℂ) := by
    rw [hmap]
    simp only [Matrix.smul_apply, Matrix.mul_apply, transpose_apply, of_apply, map_apply, smul_eq_mul,
      dotProduct, mulVec, Pi.sub_apply]
    push_cast
    simp only [Finset.mul_sum, Finset.sum_mul]
    rw [show (∑ x, ∑ y, ∑ k, (n : ℂ)⁻¹ * (((X k x : ℂ) - m x) * ((X k y : ℂ) - m y)) *
        ((S⁻¹ x y : ℝ) : ℂ)) = ∑ k, ∑ x, ∑ y, (n : ℂ)⁻¹ * (((X k x : ℂ) - m x) *
        ((X k y : ℂ) - m y)) * ((S⁻¹ x y : ℝ) : ℂ) from ?_]
    · refine Finset.sum_congr rfl fun k _ => Finset.sum_congr rfl fun x _ =>
        Finset.sum_congr rfl fun y _ => ?_
      ring
    · rw [Finset.sum_comm]
      rw [Finset.sum_congr rfl fun x _ => Finset.sum_comm]
      rw [Finset.sum_comm]
      refine Finset.sum_congr rfl fun k _ => ?_
      rw [Finset.sum_comm]
  rw [hq, hdet, if_pos (by rw [Complex.ofReal_re]; exact hpos)]
  rw [Complex.norm_real, Real.norm_of_nonneg hpos.le, Real.log_inv]
  have hs : ∑ i, normalLogDensity m S (X i) =
      (n : ℝ) * (-(p / 2) * Real.log (2 * Real.pi) - Real.log S.det / 2) -
        (∑ k, ((X k - m) ⬝ᵥ S⁻¹ *ᵥ (X k - m))) / 2 := by
    simp only [normalLogDensity, Finset.sum_sub_distrib, Finset.sum_const, Finset.card_univ,
      Fintype.card_fin, nsmul_eq_mul, Finset.sum_div]
    ring
  rw [hs]
  change Except.ok _ = Except.ok _
  congr 2
  push_cast
  have : (n : ℂ) ≠ 0 := by exact_mod_cast hn.ne'
  field_simp
  ring

/-- The claim is false. With an sklearn that validates the test set `score` raises `TypeError`,
whatever the object and the test set. Otherwise the products are not conjugated: an object fitted
on one sample gives to the imaginary unit a score that is not its log-density. -/
theorem C110_violated (pinvh : Pinvh) (hP : pinvh.Ok) :
    (∀ (o : EmpObj) (n p : ℕ) (X : Matrix (Fin n) (Fin p) ℂ),
      o.score true pinvh X = .error .typeError) ∧
    ∃ (o : EmpObj) (X : Matrix (Fin 1) (Fin 1) ℂ), ((EmpObj.new true true).fit pinvh oneSample) =
        (o, .ok ()) ∧ o.location = some ⟨1, 0⟩ ∧ o.covariance = some (.cplx (.d2 1 1 1)) ∧
      ∃ r : ℝ, o.score false pinvh X = .ok (.fin (r : ℂ)) ∧
        r ≠ cnormalLogDensity (0 : Fin 1 → ℂ) 1 (X 0) := by
  have h1 : pinvh 1 1 = 1 := by
    have := (hP 1 1 isHermitian_one).inv_eq (by simp)
    simpa using this
  refine ⟨fun o n p X => by simp [EmpObj.score], _, fun _ _ => Complex.I,
    oneSample_fit pinvh true, rfl, rfl, (1 - Real.log (2 * Real.pi)) / 2, ?_, ?_⟩
  · simp [EmpObj.score, EmpObj.getPrecision, h1, logLikelihood, bind, Except.bind, pure,
      Except.pure, Matrix.mul_apply]
  · have hc : cnormalLogDensity (0 : Fin 1 → ℂ) 1 (fun _ => Complex.I) = -Real.log Real.pi - 1 := by
      simp [cnormalLogDensity, dotProduct]
    change _ ≠ cnormalLogDensity (0 : Fin 1 → ℂ) 1 (fun _ => Complex.I)
    rw [hc, Real.log_mul (by norm_num) Real.pi_ne_zero]
    have h2 : Real.log 2 < 1 := by
      have := Real.log_lt_sub_one_of_pos (x := 2) (by norm_num) (by norm_num)
      linarith
    have h3 : 0 < Real.log Real.pi := Real.log_pos (by linarith [Real.two_le_pi])
    intro h
    linarith

/-- The hypotheses of `C110_partial` can be met: the object fitted on one sample, with mean zero
and covariance one. -/
example (pinvh : Pinvh) (hP : pinvh.Ok) : ∃ (P : NDArr),
    ((EmpObj.new true true).fit pinvh oneSample).1.location =
        some ⟨1, fun j => (((0 : Fin 1 → ℝ) j : ℝ) : ℂ)⟩ ∧
      ((EmpObj.new true true).fit pinvh oneSample).1.getPrecision pinvh = .ok (some P) ∧
      ArrIsPinv (.cplx (.d2 1 1 ((1 : Matrix (Fin 1) (Fin 1) ℝ).map Complex.ofReal))) P := by
  refine ⟨.cplx (.d2 1 1 (pinvh 1 1)), ?_, ?_, 1, 1, pinvh 1 1, ?_, rfl, isHermitian_one,
    hP 1 1 isHermitian_one⟩
  · rw [oneSample_fit]
    simp only [Pi.zero_apply, Complex.ofReal_zero]
    rfl
  · rw [oneSample_fit]
    simp [EmpObj.getPrecision]
  · rw [Matrix.map_one _ Complex.ofReal_zero Complex.ofReal_one]

/-! ## C132: Mahalanobis distances -/

/-- The property is that a fitted object returns the squared distances of the samples to the
mean. It raises for every object, fitted or not, and every array, real or complex, under every
version of sklearn: the mean is stored as a complex array, which `check_array` refuses. -/
theorem C132_raises_violated (validates : Bool) (pinvh : Pinvh)
    (cdist : NDArr → NDArr → Option NDArr → Py (List ℝ)) (o : EmpObj) (X : NDArr) :
    ∃ e, o.mahalanobis validates pinvh cdist X = .error e := by
  cases validates with
  | true => exact ⟨.typeError, rfl⟩
  | false =>
    unfold EmpObj.mahalanobis
    simp only [Bool.false_eq_true, if_false]
    cases o.getPrecision pinvh with
    | error e => exact ⟨e, rfl⟩
    | ok P =>
      cases o.location with
      | none => exact ⟨.attributeError, rfl⟩
      | some l =>
        cases hX : checkArray X with
        | error e => exact ⟨e, by simp [bind, Except.bind]⟩
        | ok A => exact ⟨.valueError, by simp [bind, Except.bind, checkArray]⟩

/-- In particular for an object fitted on one sample and that sample. -/
theorem C132_fitted_violated (pinvh : Pinvh)
    (cdist : NDArr → NDArr → Option NDArr → Py (List ℝ)) :
    ((EmpObj.new true true).fit pinvh oneSample).2 = .ok () ∧
    ((EmpObj.new true true).fit pinvh oneSample).1.mahalanobis false pinvh cdist oneSample =
      .error .valueError ∧
    ((EmpObj.new true true).fit pinvh oneSample).1.mahalanobis false pinvh cdist
      (.real (.d2 1 1 1)) = .error .valueError := by
  rw [oneSample_fit]
  simp [EmpObj.mahalanobis, EmpObj.getPrecision, oneSample, checkArray, bind, Except.bind]

/-! ## C133: RealCovarianceScale -/

/-- Spec: the last array of a kind that was accepted: a two-dimensional real array without an
empty axis. -/
def Accepted (a : NDArr) : Prop :=
  ∃ (m n : ℕ) (A : Matrix (Fin m) (Fin n) ℝ), a = .real (.d2 m n A) ∧ 0 < m ∧ 0 < n

theorem checkArray_iff (a : NDArr) :
    (Accepted a → checkArray a = .ok a) ∧ (¬ Accepted a → checkArray a = .error .valueError) := by
  constructor
  · rintro ⟨m, n, A, rfl, hm, hn⟩
    simp [checkArray, hm.ne', hn.ne']
  · intro h
    cases a with
    | cplx a => rfl
    | real a =>
      cases a with
      | d2 m n A =>
        have : m = 0 ∨ n = 0 := by
          by_contra h0
          exact h ⟨m, n, A, rfl, by omega, by omega⟩
        simp [checkArray, this]
      | _ => rfl

/-- What is stored is exactly the array given, when it is accepted; otherwise `ValueError` is
raised and the object is unchanged. `fit` always raises `NotImplementedError`. -/
theorem C133_set_partial (o : CovScale) (a : NDArr) :
    (Accepted a → CovScaleOp.run o (.setCovariance a) = (⟨some a, o.scale⟩, .ok ()) ∧
      CovScaleOp.run o (.setScale a) = (⟨o.covariance, some a⟩, .ok ())) ∧
    (¬ Accepted a → CovScaleOp.run o (.setCovariance a) = (o, .error .valueError) ∧
      CovScaleOp.run o (.setScale a) = (o, .error .valueError)) ∧
    CovScaleOp.run o (.fit a) = (o, .error .notImplementedError) := by
  refine ⟨fun h => ?_, fun h => ?_, rfl⟩
  · simp [CovScaleOp.run, (checkArray_iff a).1 h]
  · simp [CovScaleOp.run, (checkArray_iff a).2 h]

/-- The operation that stored the scale, if any: the last accepted one. -/
noncomputable def lastScale : List CovScaleOp → Option NDArr → Option NDArr
  | [], s => s
  | .setScale a :: ops, s => open Classical in lastScale ops (if Accepted a then some a else s)
  | _ :: ops, s => lastScale ops s

/-- The same for the covariance. -/
noncomputable def lastCovariance : List CovScaleOp → Option NDArr → Option NDArr
  | [], s => s
  | .setCovariance a :: ops, s =>
    open Classical in lastCovariance ops (if Accepted a then some a else s)
  | _ :: ops, s => lastCovariance ops s

/-- After any sequence of operations, `transform` returns the last accepted covariance and the
last accepted scale, whatever its argument, and raises `AttributeError` if one is missing. -/
theorem C133_transform_partial (ops : List CovScaleOp) (o : CovScale) (X : NDArr) :
    (ops.foldl (fun o a => (a.run o).1) o).transform X =
      match lastCovariance ops o.covariance, lastScale ops o.scale with
      | some c, some s => .ok [c, s]
      | _, _ => .error .attributeError := by
  induction ops generalizing o with
  | nil => rfl
  | cons a ops ih =>
    rw [List.foldl_cons, ih]
    cases a with
    | fit X => rfl
    | setCovariance C =>
      by_cases h : Accepted C
      · rw [((C133_set_partial o C).1 h).1]
        simp only [lastCovariance, lastScale, if_pos h]
      · rw [((C133_set_partial o C).2.1 h).1]
        simp only [lastCovariance, lastScale, if_neg h]
    | setScale C =>
      by_cases h : Accepted C
      · rw [((C133_set_partial o C).1 h).2]
        simp only [lastCovariance, lastScale, if_pos h]
      · rw [((C133_set_partial o C).2.1 h).2]
        simp only [lastCovariance, lastScale, if_neg h]

/-- Likewise `get_scale` returns the last accepted scale and raises `AttributeError` if there is
none. -/
theorem C133_get_scale_partial (ops : List CovScaleOp) (o : CovScale) :
    (ops.foldl (fun o a => (a.run o).1) o).getScale =
      match lastScale ops o.scale with
      | some s => .ok s
      | none => .error .attributeError := by
  induction ops generalizing o with
  | nil => cases h : o.scale <;> simp [CovScale.getScale, lastScale, h]
  | cons a ops ih =>
    rw [List.foldl_cons, ih]
    cases a with
    | fit X => rfl
    | setCovariance C =>
      by_cases h : Accepted C
      · rw [((C133_set_partial o C).1 h).1]
        simp only [lastScale]
      · rw [((C133_set_partial o C).2.1 h).1]
        simp only [lastScale]
    | setScale C =>
      by_cases h : Accepted C
      · rw [((C133_set_partial o C).1 h).2]
        simp only [lastScale, if_pos h]
      · rw [((C133_set_partial o C).2.1 h).2]
        simp only [lastScale, if_neg h]

/-- The scales of `n` samples as a vector are refused. -/
theorem C133_violated (o : CovScale) (n : ℕ) (s : Fin n → ℝ) :
    CovScaleOp.run o (.setScale (.real (.d1 n s))) = (o, .error .valueError) :=
  ((C133_set_partial o _).2.1 (by rintro ⟨m, n, A, h, -⟩; cases h)).2

/-- Non-vacuity: a covariance and a column of scales. -/
example (X : NDArr) :
    ([CovScaleOp.setCovariance (.real (.d2 2 2 1)), .fit X,
      .setScale (.real (.d2 3 1 fun _ _ => 1))].foldl (fun o (a : CovScaleOp) => (a.run o).1)
        ⟨none, none⟩).transform X =
      .ok [.real (.d2 2 2 1), .real (.d2 3 1 fun _ _ => 1)] := by
  rw [C133_transform_partial]
  have h1 : Accepted (.real (.d2 2 2 1)) := ⟨2, 2, 1, rfl, by norm_num, by norm_num⟩
  have h2 : Accepted (.real (.d2 3 1 fun _ _ => 1)) := ⟨3, 1, _, rfl, by norm_num, by norm_num⟩
  simp [lastCovariance, lastScale, h1, h2]

end RS
