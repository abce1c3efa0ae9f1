import Verif.Model.KronObject
import Verif.Props.KronFit
import Verif.Props.Product

/-
`KroneckerStudent` as an object: parameters changed after construction (C138) and calls of `fit`
that raise (C139).
-/
set_option autoImplicit false

namespace RS
open Matrix ComplexOrder

/-- The object after construction with `P` and a history of calls. -/
noncomputable def kronAfter (L : KronLib) (P : KronStudentParams) (ops : List KronOp) : KronObj :=
  ops.foldl (KronOp.run L) (KronObj.new P)

/-- The parameters that a history of calls leaves. -/
def kronParamsAfter (P : KronStudentParams) : List KronOp → KronStudentParams
  | [] => P
  | .set f :: ops => kronParamsAfter (f P) ops
  | _ :: ops => kronParamsAfter P ops

/-- `fit` touches neither the parameters nor `alpha` nor `manifold`. -/
theorem KronObj.fit_fixed (L : KronLib) (o : KronObj) (X : NDArr) (init : KronInit) :
    (o.fit L X init).1.params = o.params ∧ (o.fit L X init).1.alpha = o.alpha ∧
    (o.fit L X init).1.manifold = o.manifold := by
  unfold KronObj.fit
  split
  · exact ⟨rfl, rfl, rfl⟩
  · simp only
    split
    · exact ⟨rfl, rfl, rfl⟩
    · split <;> exact ⟨rfl, rfl, rfl⟩
  · exact ⟨rfl, rfl, rfl⟩

/-! ## C138: parameters changed after construction -/

/-- Whatever has been called, `a`, `b`, `df` and `assume_centered` are the current ones, and `alpha`
and the manifold are those of the construction. -/
theorem C138_state (L : KronLib) (P : KronStudentParams) (ops : List KronOp) :
    (kronAfter L P ops).params = kronParamsAfter P ops ∧
    (kronAfter L P ops).alpha = (P.df + P.a * P.b) / (P.df + P.a * P.b + 1) ∧
    (kronAfter L P ops).manifold = kronStudent P.a P.b P.df := by
  have key : ∀ (ops : List KronOp) (o : KronObj),
      (ops.foldl (KronOp.run L) o).params = kronParamsAfter o.params ops ∧
      (ops.foldl (KronOp.run L) o).alpha = o.alpha ∧
      (ops.foldl (KronOp.run L) o).manifold = o.manifold := by
    intro ops
    induction ops with
    | nil => exact fun o => ⟨rfl, rfl, rfl⟩
    | cons op ops ih =>
      intro o
      rw [List.foldl_cons]
      obtain ⟨h1, h2, h3⟩ := ih (KronOp.run L o op)
      rw [h1, h2, h3]
      cases op with
      | fit X init =>
        obtain ⟨g1, g2, g3⟩ := KronObj.fit_fixed L o X init
        simp only [KronOp.run, g1, g2, g3, kronParamsAfter]
        exact ⟨trivial, trivial, trivial⟩
      | set f => exact ⟨rfl, rfl, rfl⟩
      | score X => exact ⟨rfl, rfl, rfl⟩
  exact key ops (KronObj.new P)

/-- `fit` of any object in terms of the function of C113. -/
theorem KronObj.fit_eq (L : KronLib) (o : KronObj) (X : NDArr) (init : KronInit) :
    let out := kronStudentFit o.params (L o.manifold o.params.a o.params.b) X
      (init o.params.a o.params.b)
    (∀ e, (o.fit L X init).2 = .error e ↔ out = .error e) ∧
    ∀ f, out = .ok f → (o.fit L X init).2 = .ok () ∧
      (o.fit L X init).1 = { o with
        location := some f.location
        fitted := some ⟨o.params.a, o.params.b, f.A, f.B⟩
        covariance := some f.covariance } := by
  intro out
  simp only [KronObj.fit, out, kronStudentFit]
  cases hv : validateData X with
  | error e => simp [bind, Except.bind]
  | ok y =>
    simp only [bind, Except.bind]
    match y with
    | .cplx (.d2 n p Z) =>
      simp only
      generalize (if o.params.assumeCentered = true then NDArr.real (.d1 p 0)
        else .cplx (.d1 p fun j => (∑ i, Z i j) / n)) = loc
      cases hg : kronGradientEstimate (L o.manifold o.params.a o.params.b) (.cplx (.d2 n p Z))
          o.params.df (some loc) (init o.params.a o.params.b) with
      | error e => simp
      | ok AB =>
        simp only
        cases hs : setCovariance (.cplx (.d2 (o.params.a * o.params.b) (o.params.a * o.params.b)
            (npKron AB.1 AB.2))) with
        | error e => simp
        | ok C => simp [pure, Except.pure]
    | .cplx (.d0 _) => simp
    | .cplx (.d1 _ _) => simp
    | .cplx (.d3 _ _ _ _) => simp
    | .cplx (.dn _ _ _) => simp
    | .real _ => simp

/-- `fit` in terms of the function of C113: the current parameters, and the solver on the manifold
of the construction. -/
theorem C138_fit (L : KronLib) (P : KronStudentParams) (ops : List KronOp) (X : NDArr)
    (init : KronInit) (P' : KronStudentParams) (hP : P' = kronParamsAfter P ops) :
    let o := kronAfter L P ops
    let out := kronStudentFit P' (L (kronStudent P.a P.b P.df) P'.a P'.b) X (init P'.a P'.b)
    (∀ e, (o.fit L X init).2 = .error e ↔ out = .error e) ∧
    ∀ f, out = .ok f → (o.fit L X init).2 = .ok () ∧
      (o.fit L X init).1 = { o with
        location := some f.location
        fitted := some ⟨P'.a, P'.b, f.A, f.B⟩
        covariance := some f.covariance } := by
  obtain ⟨h1, h2, h3⟩ := C138_state L P ops
  have h1' : P' = (kronAfter L P ops).params := hP.trans h1.symm
  subst h1'
  have := KronObj.fit_eq L (kronAfter L P ops) X init
  simp only [h3] at this ⊢
  exact this

/-- When `a`, `b` and `df` are those of the construction, a call of `fit` does what it does on a new
object with the current parameters. What is missing of C138 are changed `a`, `b`, `df`. -/
theorem C138_partial (L : KronLib) (P : KronStudentParams) (ops : List KronOp) (X : NDArr)
    (init : KronInit) (P' : KronStudentParams) (hP : P' = kronParamsAfter P ops)
    (ha : P'.a = P.a) (hb : P'.b = P.b) (hdf : P'.df = P.df) :
    ((kronAfter L P ops).fit L X init).2 = ((KronObj.new P').fit L X init).2 ∧
    (((KronObj.new P').fit L X init).2 = .ok () →
      ((kronAfter L P ops).fit L X init).1 = ((KronObj.new P').fit L X init).1) := by
  obtain ⟨a1, a2⟩ := C138_fit L P ops X init P' hP
  obtain ⟨b1, b2⟩ := C138_fit L P' [] X init P' rfl
  have h0 : kronAfter L P' [] = KronObj.new P' := rfl
  rw [← ha, ← hb, ← hdf] at a1 a2
  rw [h0] at b1 b2
  obtain ⟨g1, g2, g3⟩ := C138_state L P ops
  rw [← hP] at g1
  cases hout : kronStudentFit P' (L (kronStudent P'.a P'.b P'.df) P'.a P'.b) X (init P'.a P'.b) with
  | error e =>
    have h := (b1 e).2 hout
    exact ⟨((a1 e).2 hout).trans h.symm, fun h' => by rw [h] at h'; cases h'⟩
  | ok f =>
    obtain ⟨c1, c2⟩ := a2 f hout
    obtain ⟨d1, d2⟩ := b2 f hout
    refine ⟨c1.trans d1.symm, fun _ => ?_⟩
    rw [c2, d2]
    simp only [KronObj.mk.injEq, and_true]
    refine ⟨g1, ?_, ?_⟩
    · rw [g2, ← ha, ← hb, ← hdf]; rfl
    · rw [g3, ← ha, ← hb, ← hdf]; rfl

/-- A copy made with `clone`, which constructs a new object with the current parameters, has the
manifold of the current parameters. -/
theorem C138_clone (L : KronLib) (P : KronStudentParams) (ops : List KronOp) :
    (KronObj.new (kronAfter L P ops).params).manifold =
      kronStudent (kronParamsAfter P ops).a (kronParamsAfter P ops).b (kronParamsAfter P ops).df := by
  rw [(C138_state L P ops).1]; rfl

/-- C138 is false: `KroneckerStudent(2, 2, 3)` whose `df` is then set to 5 optimises with the metric
of `df = 3`: the squared length of the tangent vector `(0, I)` at the identity is 3/2, for
`KroneckerStudent(2, 2, 5)` it is 2. -/
theorem C138_violated (L : KronLib) :
    let o := kronAfter L ⟨2, 2, 3, true⟩ [.set fun P => { P with df := 5 }]
    let n := KronObj.new ⟨2, 2, 5, true⟩
    o.params = n.params ∧ o.alpha = 7 / 8 ∧ n.alpha = 9 / 10 ∧
    o.manifold.inner (1, 1) (0, 1) (0, 1) = 3 / 2 ∧ n.manifold.inner (1, 1) (0, 1) (0, 1) = 2 := by
  have h : ∀ df : ℝ, (⟨2, 2, KronStudentParams.alpha ⟨2, 2, df, true⟩⟩ : KronM).inner (1, 1) (0, 1) (0, 1)
      = 20 * KronStudentParams.alpha ⟨2, 2, df, true⟩ - 16 := by
    intro df
    rw [kron_inner_eq]
    simp [trace_one]
    ring
  refine ⟨rfl, ?_, ?_, ?_, ?_⟩
  · norm_num [kronAfter, KronOp.run, KronObj.set, KronObj.new, KronStudentParams.alpha]
  · norm_num [KronObj.new, KronStudentParams.alpha]
  · refine (h 3).trans ?_
    norm_num [KronStudentParams.alpha]
  · refine (h 5).trans ?_
    norm_num [KronStudentParams.alpha]

/-! ## C139: a failed fit -/

/-- A call of `fit` that raises leaves the parameters, the manifold and `covariance_` as they were;
`A_` and `B_` too when `a` and `b` are positive. What is missing of C139 is `location_`. -/
theorem C139_partial (L : KronLib) (o : KronObj) (X : NDArr) (init : KronInit) (e : PyErr)
    (h : (o.fit L X init).2 = .error e) :
    ∃ loc, (o.fit L X init).1 = { o with location := loc } ∨
      (o.params.a * o.params.b = 0 ∧ ∃ AB, (o.fit L X init).1 = { o with location := loc, fitted := AB }) := by
  unfold KronObj.fit at h ⊢
  split at h
  · exact ⟨o.location, .inl rfl⟩
  · rename_i n p Z hv
    simp only at h ⊢
    split at h
    · rename_i e' he
      exact ⟨_, .inl rfl⟩
    · rename_i A B he
      split at h
      · rename_i e' hs
        refine ⟨_, .inr ⟨?_, _, rfl⟩⟩
        by_contra hne
        rw [setCovariance_complex _ (Nat.pos_of_ne_zero hne)] at hs
        cases hs
      · cases h
  · exact ⟨o.location, .inl rfl⟩

/-- A location of the wrong length. -/
theorem kronCost_length {q : ℕ} {loc : NDArr} {mu : Fin q → ℂ} (hm : MeanIs (some loc) mu)
    (X : NDArr) (df : ℝ) {a b : ℕ} (hq : q ≠ a * b) (A : Matrix (Fin a) (Fin a) ℂ)
    (B : Matrix (Fin b) (Fin b) ℂ) : kronCost X df (some loc) A B = .error .valueError := by
  have hq' : a * b + a * b ≠ q + q := by omega
  have : CT.frozenLogpdf (some loc) (.arr (.cplx (.d2 (a * b) (a * b) (npKron A B)))) df X =
      .error .valueError := by
    cases hm with
    | cplx mu =>
      simp only [CT.frozenLogpdf, checkParams, bind, Except.bind, pure, Except.pure, NDArr.isComplex,
        CovArg.isComplex, NDArr.asComplex, arraytoreal, covariancetoreal]
      by_cases hdf : df ≤ 0 <;> simp [hdf, scipyParams, NDArr.realPart, hq', bind, Except.bind]
    | real v =>
      simp only [CT.frozenLogpdf, checkParams, bind, Except.bind, pure, Except.pure, NDArr.isComplex,
        CovArg.isComplex, NDArr.asComplex, arraytoreal, covariancetoreal, Arr.map]
      by_cases hdf : df ≤ 0 <;> simp [hdf, scipyParams, NDArr.realPart, hq', bind, Except.bind]
  simp only [kronCost, this, bind, Except.bind]

/-- A solver that evaluates the cost at its starting point before anything else. -/
def KronEvaluates {a b : ℕ} (solve : KronSolver a b) : Prop :=
  ∀ (cost : Matrix (Fin a) (Fin a) ℂ → Matrix (Fin b) (Fin b) ℂ → Py ℝ)
    (egrad : Matrix (Fin a) (Fin a) ℂ → Matrix (Fin b) (Fin b) ℂ →
      Py (Option (Matrix (Fin a) (Fin a) ℂ × Matrix (Fin b) (Fin b) ℂ)))
    (A₀ : Matrix (Fin a) (Fin a) ℂ) (B₀ : Matrix (Fin b) (Fin b) ℂ) (e : PyErr),
    cost A₀ B₀ = .error e → solve cost egrad (A₀, B₀) = .error e

/-- Data with the wrong number of columns. -/
theorem KronObj.fit_columns (L : KronLib) (o : KronObj)
    (he : KronEvaluates (L o.manifold o.params.a o.params.b)) {m q : ℕ} (hm : 0 < m) (hq : 0 < q)
    (hne : q ≠ o.params.a * o.params.b) (Y : Matrix (Fin m) (Fin q) ℂ) :
    ∃ loc, MeanIs (some loc) (kronLocation o.params.assumeCentered Y) ∧
      o.fit L (.cplx (.d2 m q Y)) (fun _ _ => none) =
        ({ o with location := some loc }, .error .valueError) := by
  have hsolve : ∀ (loc X : NDArr) egrad, MeanIs (some loc) (kronLocation o.params.assumeCentered Y) →
      L o.manifold o.params.a o.params.b (kronCost X o.params.df (some loc))
      egrad (1, 1) = .error .valueError := fun loc X egrad hl =>
    he _ _ _ _ _ (kronCost_length hl X o.params.df hne 1 1)
  simp only [KronObj.fit, arraytoreal_check_complex m q hm hq, kronGradientEstimate,
    NDArr.complexRows, Option.getD_none]
  cases hc : o.params.assumeCentered with
  | true =>
    have hl : MeanIs (some (.real (.d1 q 0))) (kronLocation o.params.assumeCentered Y) := by
      have : kronLocation true Y = fun i => (((0 : Fin q → ℝ) i : ℝ) : ℂ) := by
        funext i; simp [kronLocation]
      rw [hc, this]; exact MeanIs.real _
    refine ⟨.real (.d1 q 0), hc ▸ hl, ?_⟩
    simp only [if_true, hsolve _ _ _ hl]
  | false =>
    have hl : MeanIs (some (.cplx (.d1 q fun j => (∑ i, Y i j) / m)))
        (kronLocation o.params.assumeCentered Y) := by
      have : kronLocation false Y = fun j => (∑ i, Y i j) / (m : ℂ) := by
        funext i; simp [kronLocation, div_eq_inv_mul]
      rw [hc, this]; exact MeanIs.cplx _
    refine ⟨_, hc ▸ hl, ?_⟩
    simp only [Bool.false_eq_true, if_false, hsolve _ _ _ hl]

/-- The score with a location of the wrong length. -/
theorem KronObj.score_columns (L : KronLib) (o : KronObj)
    (he : KronEvaluates (L o.manifold o.params.a o.params.b)) {q : ℕ} {loc : NDArr} {mu : Fin q → ℂ}
    (hl : MeanIs (some loc) mu) (ho : o.location = some loc) (hne : q ≠ o.params.a * o.params.b)
    {n p : ℕ} (Z : Matrix (Fin n) (Fin p) ℂ) :
    o.score L (.cplx (.d2 n p Z)) = .error .valueError := by
  simp only [KronObj.score, ho, kronGradientEstimate, NDArr.complexRows, Option.getD_none]
  rw [he _ _ _ _ _ (kronCost_length hl _ o.params.df hne 1 1)]

/-- C139 is false: an object fitted on `ab` columns is given data with another number of columns.
The call raises `ValueError`; `covariance_` is still the one of the first fit, but `location_` has
the length of the refused data, so that even the score of the first data raises. -/
theorem C139_violated (L : KronLib) (P : KronStudentParams)
    (hs : KronDescends (L (kronStudent P.a P.b P.df) P.a P.b))
    (he : KronEvaluates (L (kronStudent P.a P.b P.df) P.a P.b)) (hdf : 0 < P.df) (ha : 0 < P.a)
    (hb : 0 < P.b) {n m q : ℕ} (hn : 0 < n) (hm : 0 < m) (hq : 0 < q) (hne : q ≠ P.a * P.b)
    (Z : Matrix (Fin n) (Fin (P.a * P.b)) ℂ) (Y : Matrix (Fin m) (Fin q) ℂ) :
    let first := (KronObj.new P).fit L (.cplx (.d2 n _ Z)) fun _ _ => none
    let second := first.1.fit L (.cplx (.d2 m q Y)) fun _ _ => none
    first.2 = .ok () ∧ second.2 = .error .valueError ∧
    (∃ A B, A.PosDef ∧ B.PosDef ∧
      second.1.fitted = some ⟨P.a, P.b, A, B⟩ ∧
      second.1.covariance = some (.cplx (.d2 _ _ (kron A B)))) ∧
    (∃ loc, second.1.location = some loc ∧ MeanIs (some loc) (kronLocation P.assumeCentered Y)) ∧
    second.1.score L (.cplx (.d2 n _ Z)) = .error .valueError := by
  intro first second
  obtain ⟨f, h1, h2, h3, h4, h5, -⟩ := C113_likelihood P _ hs hdf hn ha hb Z none 1 1
    (.inr ⟨rfl, rfl, rfl⟩) PosDef.one PosDef.one
  obtain ⟨-, g⟩ := KronObj.fit_eq L (KronObj.new P) (.cplx (.d2 n _ Z)) fun _ _ => none
  obtain ⟨g1, g2⟩ := g f h1
  have e1 : first.1.params = P := congrArg KronObj.params g2
  have e2 : first.1.manifold = kronStudent P.a P.b P.df := congrArg KronObj.manifold g2
  have he' : KronEvaluates (L first.1.manifold first.1.params.a first.1.params.b) := by
    rw [e1, e2]; exact he
  have hne' : q ≠ first.1.params.a * first.1.params.b := by rw [e1]; exact hne
  obtain ⟨loc, hl, hsec⟩ := KronObj.fit_columns L first.1 he' hm hq hne' Y
  have hsec1 : second.1 = { first.1 with location := some loc } := congrArg Prod.fst hsec
  refine ⟨g1, congrArg Prod.snd hsec, ⟨f.A, f.B, h3, h4, ?_, ?_⟩, ⟨loc, ?_, e1 ▸ hl⟩, ?_⟩
  · rw [hsec1]; exact congrArg KronObj.fitted g2
  · rw [hsec1]
    exact (congrArg KronObj.covariance g2).trans (congrArg some h5)
  · rw [hsec1]
  · rw [hsec1]
    exact KronObj.score_columns L { first.1 with location := some loc } he' hl rfl hne' Z

/-- There are solvers as C139 assumes: the one that evaluates the cost and returns its start. -/
example : ∃ L : KronLib, ∀ M a b, KronDescends (L M a b) ∧ KronEvaluates (L M a b) := by
  refine ⟨fun _ _ _ cost _ x => match cost x.1 x.2 with
    | .error e => .error e
    | .ok _ => .ok x, fun M a b => ⟨?_, ?_⟩⟩
  · intro cost egrad A B hA hB hc
    obtain ⟨v, hv⟩ := hc A B hA hB
    exact ⟨A, B, by simp only [hv], hA, hB, fun v v₀ h1 h2 => by
      rw [h1] at h2; exact (Except.ok.inj h2).le⟩
  · intro cost egrad A B e h
    simp only [h]

end RS
