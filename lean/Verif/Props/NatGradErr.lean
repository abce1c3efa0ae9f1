import Verif.Props.NatGrad

/-
The second value returned by the natural-gradient functions (C114).
-/
set_option autoImplicit false

namespace RS
open Matrix ComplexOrder

variable {N p : ℕ}

/-- The samples divided by their Euclidean norms. -/
noncomputable def dirSamples (X : Matrix (Fin N) (Fin p) ℝ) : Matrix (Fin N) (Fin p) ℝ :=
  of fun i j => X i j / Real.sqrt (X i ⬝ᵥ X i)

/-- A solver which returns a positive definite matrix for every cost. -/
def SolverReturns (L : Lib) (p : ℕ) (init : Option (Matrix (Fin p) (Fin p) ℝ)) : Prop :=
  ∀ cost : Matrix (Fin p) (Fin p) ℝ → Py CostVal,
    ∃ S : Matrix (Fin p) (Fin p) ℝ, S.PosDef ∧ L.solve p cost init = .ok (.fin S)

theorem unit_nonzero {X : Matrix (Fin N) (Fin p) ℝ} (hn : NonzeroSamples X) :
    NonzeroSamples (dirSamples X) := fun i h => hn i (by
  have h0 := sum_sq_pos_of_sample hn i
  have h1 : Real.sqrt (X i ⬝ᵥ X i) ≠ 0 := by
    refine (Real.sqrt_pos.2 ?_).ne'
    simpa [dotProduct, sq] using h0
  funext j
  have := congrFun h j
  simpa [sample, dirSamples, h1] using this)

/-- Real data: with every normalisation the second value is the opposite of Tyler's cost of the
unit samples at the first one. -/
theorem C114_value (L : Lib) (hs : (L.envR N p).eigh.Ok)
    (init : Option (Matrix (Fin p) (Fin p) ℝ)) (hsol : SolverReturns L p init)
    (X : Matrix (Fin N) (Fin p) ℝ) (hp : 0 < p) (hn : NonzeroSamples X) (name : String) :
    ∃ R : Matrix (Fin p) (Fin p) ℝ, R.PosDef ∧
      ngReal L X init name = .ok (.fin R, .fin (tylerCost (dirSamples X) R)) := by
  obtain ⟨S, hS, h⟩ := hsol (ngCost L X)
  obtain ⟨r, hr, -, hR⟩ := normalise_pos name hp hS
  have hY : normRows X = some (dirSamples X) := by
    unfold normRows
    rw [if_neg]
    · congr 1
      ext i j
      simp only [dirSamples, of_apply, dotProduct, sq]
    · rintro ⟨i, hi⟩
      exact hn i (funext hi)
  have hc : ngCost L X S = .ok (.fin (tylerCost (dirSamples X) S)) := by
    simp only [ngCost, hY]
    exact tylerCostReal_eq hs (unit_nonzero hn) hS
  have hR' : ((((r⁻¹ : ℝ) : ℝ)) • S).PosDef := hS.smul (inv_pos.2 hr)
  refine ⟨_, hR', ?_⟩
  simp only [ngReal, h, hc, bind, Except.bind, pure, Except.pure, hR]
  have := tylerCost_smul (unit_nonzero hn) hS (inv_pos.2 hr)
  simp only [RCLike.ofReal_real_eq_id, id] at this ⊢
  rw [this]

/-- Multiplying every sample by a positive number of its own changes neither the estimate nor the
second value, whatever the solver does. -/
theorem C114_scale (L : Lib) (init : Option (Matrix (Fin p) (Fin p) ℝ))
    (X : Matrix (Fin N) (Fin p) ℝ) (c : Fin N → ℝ) (hc : ∀ i, 0 < c i) (name : String) :
    ngReal L (of fun i j => c i * X i j) init name = ngReal L X init name := by
  have h : normRows (of fun i j => c i * X i j) = normRows X := by
    unfold normRows
    have e : (∃ i, ∀ j, (of fun i j => c i * X i j : Matrix (Fin N) (Fin p) ℝ) i j = 0) ↔
        ∃ i, ∀ j, X i j = 0 := by
      simp only [of_apply, mul_eq_zero, (hc _).ne', false_or]
    by_cases h0 : ∃ i, ∀ j, X i j = 0
    · rw [if_pos h0, if_pos (e.2 h0)]
    · rw [if_neg h0, if_neg (fun h => h0 (e.1 h))]
      congr 1
      ext i j
      simp only [of_apply]
      have : ∑ k, (c i * X i k) ^ 2 = c i ^ 2 * ∑ k, X i k ^ 2 := by
        rw [Finset.mul_sum]; exact Finset.sum_congr rfl fun k _ => by ring
      rw [this, Real.sqrt_mul (sq_nonneg _), Real.sqrt_sq (hc i).le,
        mul_div_mul_left _ _ (hc i).ne']
  have h' : ngCost L (of fun i j => c i * X i j) = ngCost L X := by
    funext Q; simp only [ngCost, h]
  simp only [ngReal, h']

/-- The same for complex data. -/
theorem C114_scale_complex (L : Lib) (init : Option (Matrix (Fin (p + p)) (Fin (p + p)) ℝ))
    (X : Matrix (Fin N) (Fin p) ℂ) (c : Fin N → ℝ) (hc : ∀ i, 0 < c i) (name : String) :
    ngComplex L (of fun i j => (c i : ℂ) * X i j) init name = ngComplex L X init name := by
  have e : (of fun i => Fin.append
      (fun j => ((of fun i j => (c i : ℂ) * X i j : Matrix (Fin N) (Fin p) ℂ) i j).re)
      (fun j => ((of fun i j => (c i : ℂ) * X i j : Matrix (Fin N) (Fin p) ℂ) i j).im) :
        Matrix (Fin N) (Fin (p + p)) ℝ) =
      of fun i j => c i * (of fun i => Fin.append (fun j => (X i j).re) (fun j => (X i j).im) :
        Matrix (Fin N) (Fin (p + p)) ℝ) i j := by
    ext i j
    refine Fin.addCases (fun j => ?_) (fun j => ?_) j
    · simp only [of_apply, Fin.append_left]; simp
    · simp only [of_apply, Fin.append_right]; simp
  simp only [ngComplex, e, C114_scale L init _ c hc]

/-- It is not an error between two iterations, as documented: the returned number, the opposite of
the cost, can be negative. One sample `(1, 0)` and the estimate `diag(1/2, 1)`, whose cost is
`log 2`. -/
theorem C114_negative (L : Lib) (hs : (L.envR 1 2).eigh.Ok)
    (init : Option (Matrix (Fin 2) (Fin 2) ℝ))
    (hsol : ∀ cost, L.solve 2 cost init = .ok (.fin (diagonal ![1 / 2, 1]))) :
    ∃ R v, ngReal L (!![1, 0] : Matrix (Fin 1) (Fin 2) ℝ) init "None" = .ok (R, .fin v) ∧
      -v < 0 := by
  have hD : (diagonal ![1 / 2, 1] : Matrix (Fin 2) (Fin 2) ℝ).PosDef := by
    rw [posDef_diagonal_iff]; intro i; fin_cases i <;> norm_num
  have hn : NonzeroSamples (!![1, 0] : Matrix (Fin 1) (Fin 2) ℝ) := fun i h => by
    have := congrFun h 0
    fin_cases i; simp [sample] at this
  obtain ⟨R, -, hR⟩ := C114_value L hs init (fun c => ⟨_, hD, hsol c⟩) _ two_pos hn "None"
  obtain ⟨v, hv⟩ := ngReal_of_solve L (hsol (ngCost L !![1, 0])) "None"
  rw [C30_none "None" (by decide +kernel), hR] at hv
  obtain ⟨h1, h2⟩ := Prod.mk.inj (Except.ok.inj hv)
  refine ⟨_, _, hR, ?_⟩
  obtain rfl := FMat.fin.inj h1
  have hinv : (diagonal ![1 / 2, 1] : Matrix (Fin 2) (Fin 2) ℝ)⁻¹ = diagonal ![2, 1] := by
    apply inv_eq_right_inv
    rw [diagonal_mul_diagonal]
    ext i j; fin_cases i <;> fin_cases j <;> simp
  have hl : 0 < Real.log 2 := Real.log_pos (by norm_num)
  have : tylerCost (dirSamples !![1, 0]) (diagonal ![1 / 2, 1] : Matrix (Fin 2) (Fin 2) ℝ) =
      Real.log 2 := by
    unfold tylerCost qf
    rw [hinv]
    simp [sample, dirSamples, dotProduct, mulVec_diagonal]
    ring
  rw [this]
  linarith

/-- The contract on the solver and on the data are met. -/
example : NonzeroSamples (!![1, 0; 1, 2] : Matrix (Fin 2) (Fin 2) ℝ) := fun i h => by
  have := congrFun h 0
  fin_cases i <;> simp [sample] at this

example (L : Lib) (init : Option (Matrix (Fin 2) (Fin 2) ℝ)) :
    SolverReturns { L with solve := fun _ _ _ => .ok (.fin 1) } 2 init :=
  fun _ => ⟨1, PosDef.one, rfl⟩

end RS
