import Verif.Model.Inherited
import Verif.Props.Estimators
import Verif.Props.Precision

/-
C141 what a fitted estimator of covariance.py inherits: the precision matrix and the Mahalanobis
distances.
-/
set_option autoImplicit false

namespace RS
open Matrix ComplexOrder

/-- The contract of `pinvh` for real matrices: on a symmetric matrix it returns the Moore-Penrose
inverse. -/
def PinvhR.Ok (pinvR : PinvhR) : Prop :=
  ∀ (n : ℕ) (A : Matrix (Fin n) (Fin n) ℝ), A.IsHermitian →
    A * pinvR n A * A = A ∧ pinvR n A * A * pinvR n A = pinvR n A ∧
    (A * pinvR n A).IsHermitian ∧ (pinvR n A * A).IsHermitian

/-- Spec: what the object at address `a` answers to `get_precision()`. -/
noncomputable def precisionOf (pinvR : PinvhR) (pinvC : Pinvh) (h : Heap) (a : ℕ) : Py NDArr :=
  match h[a]? with
  | none => .error .nameError
  | some o => o.getPrecision pinvR pinvC

/-- After a fit on spanning data, whatever happened to the object before, `get_precision()` is the
inverse of `covariance_` (real). -/
theorem C141_precision_real_partial (L : Lib) (hL : ∀ N p, (L.envR N p).eigh.Ok) (hc : L.chi2.Ok)
    (pinvR : PinvhR) (hP : pinvR.Ok) (pinvC : Pinvh) (h0 : Heap) (cls : Cls) (A : Attrs)
    (hm : cls = .tyler → A.method = "fixed-point") (ops : List Op) {N p : ℕ}
    (hN : 0 < N) (hp : 0 < p) (Z : Matrix (Fin N) (Fin p) ℝ) (hZ : Spans Z)
    (hv : (cls.realEst (attrsAfter A ops)).Valid Z) (init : Option (Matrix (Fin p) (Fin p) ℝ))
    (hi : ∀ S ∈ init, S.PosDef) :
    ∃ (S P : Matrix (Fin p) (Fin p) ℝ) (delta : Delta) (iteration : ℕ),
      Fitted (fit L (after L h0 false cls A ops) h0.length (.real (.d2 N p Z))
        (init.map fun S => .real (.d2 p p S))).1 h0.length (.real (.d2 p p S)) (.delta delta)
        (some iteration) ∧
      precisionOf pinvR pinvC (fit L (after L h0 false cls A ops) h0.length (.real (.d2 N p Z))
        (init.map fun S => .real (.d2 p p S))).1 h0.length = .ok (.real (.d2 p p P)) ∧
      S * P = 1 ∧ P * S = 1 := by
  obtain ⟨S, delta, iteration, hS, -, hfit⟩ :=
    C44_fit_posDef_real L hL hc h0 cls A hm ops hN hp Z hZ hv init hi
  refine ⟨S, pinvR p S, delta, iteration, hfit, ?_, ?_⟩
  · obtain ⟨o, ho, hcov, -⟩ := hfit.obj
    simp only [precisionOf, ho, Est.getPrecision, hcov, pinvAny, ↓reduceDIte]
    rfl
  · have hu : IsUnit S.det := hS.det_pos.ne'.isUnit
    obtain ⟨h1, -⟩ := hP p S hS.isHermitian
    have h2 : pinvR p S * S = 1 := by
      calc pinvR p S * S = S⁻¹ * (S * pinvR p S * S) := by
              rw [Matrix.mul_assoc S, ← Matrix.mul_assoc S⁻¹, nonsing_inv_mul _ hu, Matrix.one_mul]
        _ = 1 := by rw [h1, nonsing_inv_mul _ hu]
    exact ⟨mul_eq_one_comm.mp h2, h2⟩

/-- The same for complex estimators. -/
theorem C141_precision_complex_partial (L : Lib) (hL : ∀ N p, (L.envC N p).eigh.Ok) (hc : L.chi2.Ok)
    (pinvR : PinvhR) (pinvC : Pinvh) (hP : pinvC.Ok) (h0 : Heap) (cls : Cls) (A : Attrs)
    (hm : cls = .tyler → A.method = "fixed-point") (ops : List Op) {N p : ℕ}
    (hN : 0 < N) (hp : 0 < p) (Z : Matrix (Fin N) (Fin p) ℂ) (hZ : Spans Z)
    (hv : (cls.complexEst (attrsAfter A ops)).Valid Z) (init : Option (Matrix (Fin p) (Fin p) ℂ))
    (hi : ∀ S ∈ init, S.PosDef) :
    ∃ (S P : Matrix (Fin p) (Fin p) ℂ) (delta : Delta) (iteration : ℕ),
      Fitted (fit L (after L h0 true cls A ops) h0.length (.cplx (.d2 N p Z))
        (init.map fun S => .cplx (.d2 p p S))).1 h0.length (.cplx (.d2 p p S)) (.delta delta)
        (some iteration) ∧
      precisionOf pinvR pinvC (fit L (after L h0 true cls A ops) h0.length (.cplx (.d2 N p Z))
        (init.map fun S => .cplx (.d2 p p S))).1 h0.length = .ok (.cplx (.d2 p p P)) ∧
      S * P = 1 ∧ P * S = 1 := by
  obtain ⟨S, delta, iteration, hS, -, hfit⟩ :=
    C44_fit_posDef_complex L hL hc h0 cls A hm ops hN hp Z hZ hv init hi
  refine ⟨S, pinvC p S, delta, iteration, hfit, ?_, ?_⟩
  · obtain ⟨o, ho, hcov, -⟩ := hfit.obj
    simp only [precisionOf, ho, Est.getPrecision, hcov, pinvAny, ↓reduceDIte]
    rfl
  · have hu : IsUnit S.det := hS.det_pos.ne'.isUnit
    rw [(hP p S hS.isHermitian).inv_eq hu]
    exact ⟨mul_nonsing_inv _ hu, nonsing_inv_mul _ hu⟩

/-- `mahalanobis` returns nothing: it raises for every object, whatever its history, and every
array. -/
theorem C141_violated (L : Lib) (pinvR : PinvhR) (pinvC : Pinvh) (h : Heap) (a : ℕ) (X : NDArr) :
    ∃ e, mahalanobis L pinvR pinvC h a X = .error e := by
  unfold mahalanobis
  cases h[a]? with
  | none => exact ⟨_, rfl⟩
  | some o =>
    simp only
    split_ifs
    · exact ⟨_, rfl⟩
    · cases checkArray X with
      | error e => exact ⟨e, rfl⟩
      | ok Y => cases o.getPrecision pinvR pinvC <;> exact ⟨_, rfl⟩
    · cases o.getPrecision pinvR pinvC <;> exact ⟨_, rfl⟩

/-- In particular after a fit that succeeded, for the data of that fit: `AttributeError` for real
estimators, under every version of sklearn. -/
theorem C141_fitted_real_violated (L : Lib) (hL : ∀ N p, (L.envR N p).eigh.Ok) (hc : L.chi2.Ok)
    (pinvR : PinvhR) (pinvC : Pinvh) (h0 : Heap) (cls : Cls) (A : Attrs)
    (hm : cls = .tyler → A.method = "fixed-point") (ops : List Op) {N p : ℕ}
    (hN : 0 < N) (hp : 0 < p) (Z : Matrix (Fin N) (Fin p) ℝ) (hZ : Spans Z)
    (hv : (cls.realEst (attrsAfter A ops)).Valid Z) :
    (fit L (after L h0 false cls A ops) h0.length (.real (.d2 N p Z)) none).2 = .ok () ∧
    mahalanobis L pinvR pinvC
      (fit L (after L h0 false cls A ops) h0.length (.real (.d2 N p Z)) none).1 h0.length
      (.real (.d2 N p Z)) = .error .attributeError := by
  obtain ⟨S, delta, iteration, hS, hok, hfit⟩ :=
    C44_fit_posDef_real L hL hc h0 cls A hm ops hN hp Z hZ hv none (by simp)
  refine ⟨hok, ?_⟩
  obtain ⟨o, ho, hcov, -⟩ := hfit.obj
  obtain ⟨o', k', ho', -⟩ := own_after L h0 false cls A hm (ops ++ [.fit (.real (.d2 N p Z)) none])
  have hcx : o.complex = false := by
    have h1 := ho'.get
    simp only [after, List.foldl_append, List.foldl_cons, List.foldl_nil, Op.run] at h1
    have h2 : some o = some o' := ho.symm.trans h1
    cases h2
    exact ho'.cplx
  simp only [Option.map_none] at ho
  unfold mahalanobis
  simp only [ho, hcx, Bool.and_false, Bool.false_eq_true, if_false, checkArray_real hN hp,
    Est.getPrecision, hcov, pinvAny, ↓reduceDIte]
  cases L.scoreValidates <;> rfl

/-- The hypotheses are met by four samples. -/
example (L : Lib) (hL : ∀ N p, (L.envR N p).eigh.Ok) (hc : L.chi2.Ok) (pinvR : PinvhR)
    (pinvC : Pinvh) :
    (fit L (after L [] false .student ⟨3, 5, 1 / 10000, 100, "None", "fixed-point", false⟩ []) 0
      (.real (.d2 4 2 (demoX ℝ))) none).2 = .ok () ∧
    mahalanobis L pinvR pinvC
      (fit L (after L [] false .student ⟨3, 5, 1 / 10000, 100, "None", "fixed-point", false⟩ []) 0
        (.real (.d2 4 2 (demoX ℝ))) none).1 0 (.real (.d2 4 2 (demoX ℝ))) =
      .error .attributeError :=
  C141_fitted_real_violated L hL hc pinvR pinvC [] .student _ (by intro h; cases h) []
    (by norm_num) two_pos (demoX ℝ) demoX_spans
    (by norm_num [Cls.realEst, attrsAfter, RealEst.Valid])

/-- A `pinvh` that meets its contract exists. -/
example : ∃ pinvR : PinvhR, pinvR.Ok := by
  have key : ∀ (n : ℕ) (A : Matrix (Fin n) (Fin n) ℝ), ∃ P, A.IsHermitian →
      A * P * A = A ∧ P * A * P = P ∧ (A * P).IsHermitian ∧ (P * A).IsHermitian := by
    intro n A
    by_cases hA : A.IsHermitian
    · obtain ⟨e, he⟩ := IsHermitian.exists_valid hA
      refine ⟨e.fn fun x => x⁻¹, fun _ => ?_⟩
      rw [← he.fn_id]
      refine ⟨?_, ?_, ?_, ?_⟩
      · rw [he.fn_mul, he.fn_mul]
        exact he.fn_congr fun i => mul_inv_mul_cancel _
      · rw [he.fn_mul, he.fn_mul]
        exact he.fn_congr fun i => by simpa using mul_inv_mul_cancel (e.vals i)⁻¹
      · rw [he.fn_mul]; exact he.fn_isHermitian _
      · rw [he.fn_mul]; exact he.fn_isHermitian _
    · exact ⟨0, fun h => absurd h hA⟩
  choose f hf using key
  exact ⟨f, hf⟩

end RS
