import Verif.Model.TypicalDist

/-
`typicaldist` of the manifolds (C180).
-/
set_option autoImplicit false

namespace RS
open Matrix

section
variable {n k : ℕ}

/-- `StrictlyPositiveVectors(n, k).typicaldist` is `√(n k)`. -/
theorem C180_value (n k : ℕ) : SPV.typicaldist n k = .ok (√(n * k)) := by
  rw [SPV.typicaldist, SPV.dim, Int.floor_natCast]
  congr 2
  push_cast
  ring

/-- It is the length of a tangent vector whose entries are as large as those of the point, and the
distance from the point to where the exponential map takes this vector (columns together), whatever the
point and the signs. -/
theorem C180_length (x u : Matrix (Fin n) (Fin k) ℝ) (hx : ∀ i j, 0 < x i j) (hu : ∀ i j, |u i j| = x i j) :
    SPV.typicaldist n k = .ok (√(∑ j, SPV.norm x u j ^ 2)) ∧
    SPV.typicaldist n k = .ok (√(∑ j, SPV.dist x (SPV.exp x u) j ^ 2)) := by
  have hsq : ∀ i j, u i j ^ 2 = x i j ^ 2 := fun i j => by rw [← hu, sq_abs]
  rw [C180_value]
  refine ⟨congrArg Except.ok (congrArg Real.sqrt ?_), congrArg Except.ok (congrArg Real.sqrt ?_)⟩
  · have e : ∀ j, SPV.norm x u j ^ 2 = n := fun j => by
      have e1 : SPV.inner x u u j = n := by
        have : ∀ i, 1 / x i j * u i j * (1 / x i j) * u i j = 1 := fun i => by
          have h0 := (hx i j).ne'
          field_simp
          exact hsq i j
        simp only [SPV.inner, this, Finset.sum_const, Finset.card_univ, Fintype.card_fin, nsmul_eq_mul, mul_one]
      rw [SPV.norm, Real.sq_sqrt (by rw [e1]; positivity), e1]
    simp only [e, Finset.sum_const, Finset.card_univ, Fintype.card_fin, nsmul_eq_mul]
    ring
  · have e : ∀ j, SPV.dist x (SPV.exp x u) j ^ 2 = n := fun j => by
      have e1 : ∀ i, (Real.log (x i j) - Real.log (SPV.exp x u i j)) ^ 2 = 1 := fun i => by
        have h0 := hx i j
        simp only [SPV.exp, of_apply]
        rw [Real.log_mul h0.ne' (Real.exp_pos _).ne', Real.log_exp]
        have : (u i j / x i j) ^ 2 = 1 := by
          rw [div_pow, hsq, div_self (pow_pos h0 2).ne']
        calc _ = (u i j / x i j) ^ 2 := by ring
          _ = 1 := this
      rw [SPV.dist, Real.sq_sqrt (Finset.sum_nonneg fun i _ => sq_nonneg _)]
      simp only [e1, Finset.sum_const, Finset.card_univ, Fintype.card_fin, nsmul_eq_mul, mul_one]
    simp only [e, Finset.sum_const, Finset.card_univ, Fintype.card_fin, nsmul_eq_mul]
    ring

/-- A weighted product raises, even if it is a product of classes which have a typical distance. -/
theorem C180_product (dims : List (ℕ × ℕ)) (weights : List ℝ) :
    WeightedProduct.typicaldist (dims.map fun d => SPV.typicaldist d.1 d.2) weights =
      .error .notImplementedError := rfl

/-- Non-vacuity: two vectors of size two. -/
example : SPV.typicaldist 2 2 = .ok (√(∑ j, SPV.dist !![1, 2; 3, 4] (SPV.exp !![1, 2; 3, 4] !![1, -2; -3, 4]) j ^ 2)) :=
  (C180_length !![1, 2; 3, 4] !![1, -2; -3, 4] (by intro i j; fin_cases i <;> fin_cases j <;> norm_num)
    (by intro i j; fin_cases i <;> fin_cases j <;> simp)).2

end
end RS
