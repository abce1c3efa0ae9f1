import Verif.Props.KronStudent

/-
What `KroneckerStudent.fit` does with its data, its parameters and its starting point (C113).
-/
set_option autoImplicit false

namespace RS
open Matrix ComplexOrder

/-- A solver that does not lose ground: from a positive definite start it returns a positive
definite pair at which the cost it was given is at most that of the start. -/
def KronDescends {a b : ℕ} (solve : KronSolver a b) : Prop :=
  ∀ (cost : Matrix (Fin a) (Fin a) ℂ → Matrix (Fin b) (Fin b) ℂ → Py ℝ)
    (egrad : Matrix (Fin a) (Fin a) ℂ → Matrix (Fin b) (Fin b) ℂ →
      Py (Option (Matrix (Fin a) (Fin a) ℂ × Matrix (Fin b) (Fin b) ℂ)))
    (A₀ : Matrix (Fin a) (Fin a) ℂ) (B₀ : Matrix (Fin b) (Fin b) ℂ), A₀.PosDef → B₀.PosDef →
    (∀ A B, A.PosDef → B.PosDef → ∃ v, cost A B = .ok v) →
    ∃ A B, solve cost egrad (A₀, B₀) = .ok (A, B) ∧ A.PosDef ∧ B.PosDef ∧
      ∀ v v₀, cost A B = .ok v → cost A₀ B₀ = .ok v₀ → v ≤ v₀

/-- An ideal solver: it returns a minimiser of every cost that has one. -/
def KronMinimises {a b : ℕ} (solve : KronSolver a b) : Prop :=
  ∀ (cost : Matrix (Fin a) (Fin a) ℂ → Matrix (Fin b) (Fin b) ℂ → Py ℝ)
    (egrad : Matrix (Fin a) (Fin a) ℂ → Matrix (Fin b) (Fin b) ℂ →
      Py (Option (Matrix (Fin a) (Fin a) ℂ × Matrix (Fin b) (Fin b) ℂ)))
    (A₀ : Matrix (Fin a) (Fin a) ℂ) (B₀ : Matrix (Fin b) (Fin b) ℂ), A₀.PosDef → B₀.PosDef →
    (∀ A B, A.PosDef → B.PosDef → ∃ v, cost A B = .ok v) →
    (∃ A B v, A.PosDef ∧ B.PosDef ∧ cost A B = .ok v ∧
      ∀ A' B' v', A'.PosDef → B'.PosDef → cost A' B' = .ok v' → v ≤ v') →
    ∃ A B v, solve cost egrad (A₀, B₀) = .ok (A, B) ∧ A.PosDef ∧ B.PosDef ∧ cost A B = .ok v ∧
      ∀ A' B' v', A'.PosDef → B'.PosDef → cost A' B' = .ok v' → v ≤ v'

section
variable (P : KronStudentParams) (solve : KronSolver P.a P.b)

/-- The location used: zero, or the mean of the samples. -/
noncomputable def kronLocation {n p : ℕ} (centered : Bool) (Z : Matrix (Fin n) (Fin p) ℂ) :
    Fin p → ℂ := if centered then 0 else fun j => (n : ℂ)⁻¹ * ∑ i, Z i j

/-- `fit` in terms of the solver. -/
theorem kronStudentFit_eq {n : ℕ} (hn : 0 < n) (ha : 0 < P.a) (hb : 0 < P.b)
    (Z : Matrix (Fin n) (Fin (P.a * P.b)) ℂ)
    (init : Option (Matrix (Fin P.a) (Fin P.a) ℂ × Matrix (Fin P.b) (Fin P.b) ℂ)) :
    ∃ loc : NDArr, MeanIs (some loc) (kronLocation P.assumeCentered Z) ∧
    ∀ A B, solve (kronCost (.cplx (.d2 n (P.a * P.b) Z)) P.df (some loc))
        (kronEgrad Z P.a P.b P.df (some loc)) (init.getD (1, 1)) = .ok (A, B) →
      kronStudentFit P solve (.cplx (.d2 n (P.a * P.b) Z)) init =
        .ok ⟨loc, A, B, .cplx (.d2 _ _ (kron A B))⟩ := by
  have hp : 0 < P.a * P.b := Nat.mul_pos ha hb
  have e : ∀ loc : NDArr, ∀ A B, solve (kronCost (.cplx (.d2 n (P.a * P.b) Z)) P.df (some loc))
      (kronEgrad Z P.a P.b P.df (some loc)) (init.getD (1, 1)) = .ok (A, B) →
      kronGradientEstimate solve (.cplx (.d2 n (P.a * P.b) Z)) P.df (some loc) init = .ok (A, B) :=
    fun _ _ _ h => h
  cases hc : P.assumeCentered with
  | true =>
    refine ⟨.real (.d1 (P.a * P.b) 0), ?_, fun A B h => ?_⟩
    · have : kronLocation true Z = fun i => (((0 : Fin (P.a * P.b) → ℝ) i : ℝ) : ℂ) := by
        funext i; simp [kronLocation]
      rw [this]; exact MeanIs.real _
    · simp only [kronStudentFit, arraytoreal_check_complex n _ hn hp, bind, Except.bind, hc, if_true,
        e _ A B h, setCovariance_complex _ hp, pure, Except.pure, npKron_eq]
  | false =>
    refine ⟨.cplx (.d1 (P.a * P.b) fun j => (∑ i, Z i j) / n), ?_, fun A B h => ?_⟩
    · have : kronLocation false Z = fun j => (∑ i, Z i j) / (n : ℂ) := by
        funext i; simp [kronLocation, div_eq_inv_mul]
      rw [this]; exact MeanIs.cplx _
    · simp only [kronStudentFit, arraytoreal_check_complex n _ hn hp, bind, Except.bind, hc,
        Bool.false_eq_true, if_false, e _ A B h, setCovariance_complex _ hp, pure, Except.pure,
        npKron_eq]

/-- With a solver that does not lose ground, `fit(X, init)` stores the location, a positive
definite pair and its Kronecker product, and the training data are at least as likely under the
fitted law as under the one of the starting point (`init`, or the identities without it). -/
theorem C113_likelihood (hs : KronDescends solve) (hdf : 0 < P.df) {n : ℕ} (hn : 0 < n)
    (ha : 0 < P.a) (hb : 0 < P.b) (Z : Matrix (Fin n) (Fin (P.a * P.b)) ℂ)
    (init : Option (Matrix (Fin P.a) (Fin P.a) ℂ × Matrix (Fin P.b) (Fin P.b) ℂ))
    (A₀ : Matrix (Fin P.a) (Fin P.a) ℂ) (B₀ : Matrix (Fin P.b) (Fin P.b) ℂ)
    (hi : init = some (A₀, B₀) ∨ (init = none ∧ A₀ = 1 ∧ B₀ = 1)) (hA₀ : A₀.PosDef)
    (hB₀ : B₀.PosDef) :
    ∃ f : KronStudentFit P.a P.b,
      kronStudentFit P solve (.cplx (.d2 n (P.a * P.b) Z)) init = .ok f ∧
      MeanIs (some f.location) (kronLocation P.assumeCentered Z) ∧ f.A.PosDef ∧ f.B.PosDef ∧
      f.covariance = .cplx (.d2 _ _ (kron f.A f.B)) ∧
      ∑ i, ctLogDensity P.df (kronLocation P.assumeCentered Z) (kron A₀ B₀) (Z i) ≤
        ∑ i, ctLogDensity P.df (kronLocation P.assumeCentered Z) (kron f.A f.B) (Z i) := by
  obtain ⟨loc, hl, hfit⟩ := kronStudentFit_eq P solve hn ha hb Z init
  have hg : init.getD (1, 1) = (A₀, B₀) := by
    rcases hi with rfl | ⟨rfl, rfl, rfl⟩ <;> rfl
  have hc := fun A B (hA : A.PosDef) (hB : B.PosDef) =>
    C68_cost (DataIs.cplx2 n Z) hl A B hA hB P.df hdf
  obtain ⟨A, B, h1, hA, hB, h2⟩ := hs (kronCost (.cplx (.d2 n (P.a * P.b) Z)) P.df (some loc))
    (kronEgrad Z P.a P.b P.df (some loc)) A₀ B₀ hA₀ hB₀ fun A B hA hB => ⟨_, hc A B hA hB⟩
  refine ⟨_, hfit A B (by rw [hg]; exact h1), hl, hA, hB, rfl, ?_⟩
  exact neg_le_neg_iff.1 (h2 _ _ (hc A B hA hB) (hc A₀ B₀ hA₀ hB₀))

/-- With an ideal solver the fitted covariance is the maximum likelihood estimate among the
Kronecker products, when there is one. -/
theorem C113_mle (hs : KronMinimises solve) (hdf : 0 < P.df) {n : ℕ} (hn : 0 < n)
    (ha : 0 < P.a) (hb : 0 < P.b) (Z : Matrix (Fin n) (Fin (P.a * P.b)) ℂ)
    (init : Option (Matrix (Fin P.a) (Fin P.a) ℂ × Matrix (Fin P.b) (Fin P.b) ℂ))
    (hi : ∀ A₀ B₀, init = some (A₀, B₀) → A₀.PosDef ∧ B₀.PosDef)
    (hmax : ∃ (A : Matrix (Fin P.a) (Fin P.a) ℂ) (B : Matrix (Fin P.b) (Fin P.b) ℂ),
      A.PosDef ∧ B.PosDef ∧ ∀ A' B', A'.PosDef → B'.PosDef →
        ∑ i, ctLogDensity P.df (kronLocation P.assumeCentered Z) (kron A' B') (Z i) ≤
          ∑ i, ctLogDensity P.df (kronLocation P.assumeCentered Z) (kron A B) (Z i)) :
    ∃ f : KronStudentFit P.a P.b,
      kronStudentFit P solve (.cplx (.d2 n (P.a * P.b) Z)) init = .ok f ∧
      MeanIs (some f.location) (kronLocation P.assumeCentered Z) ∧ f.A.PosDef ∧ f.B.PosDef ∧
      f.covariance = .cplx (.d2 _ _ (kron f.A f.B)) ∧ ∀ A' B', A'.PosDef → B'.PosDef →
        ∑ i, ctLogDensity P.df (kronLocation P.assumeCentered Z) (kron A' B') (Z i) ≤
          ∑ i, ctLogDensity P.df (kronLocation P.assumeCentered Z) (kron f.A f.B) (Z i) := by
  obtain ⟨loc, hl, hfit⟩ := kronStudentFit_eq P solve hn ha hb Z init
  have hc := fun A B (hA : A.PosDef) (hB : B.PosDef) =>
    C68_cost (DataIs.cplx2 n Z) hl A B hA hB P.df hdf
  have hp : (init.getD (1, 1)).1.PosDef ∧ (init.getD (1, 1)).2.PosDef := by
    cases init with
    | none => exact ⟨PosDef.one, PosDef.one⟩
    | some x => exact hi x.1 x.2 rfl
  obtain ⟨A₁, B₁, hA₁, hB₁, hm⟩ := hmax
  obtain ⟨A, B, v, h1, hA, hB, h2, h3⟩ :=
    hs (kronCost (.cplx (.d2 n (P.a * P.b) Z)) P.df (some loc))
    (kronEgrad Z P.a P.b P.df (some loc)) _ _ hp.1 hp.2 (fun A B hA hB => ⟨_, hc A B hA hB⟩)
    ⟨A₁, B₁, _, hA₁, hB₁, hc _ _ hA₁ hB₁, fun A' B' v' hA' hB' h => by
      rw [hc A' B' hA' hB'] at h
      obtain rfl := Except.ok.inj h
      exact neg_le_neg (hm A' B' hA' hB')⟩
  refine ⟨_, hfit A B h1, hl, hA, hB, rfl, fun A' B' hA' hB' => ?_⟩
  rw [hc A B hA hB] at h2
  obtain rfl := Except.ok.inj h2
  exact neg_le_neg_iff.1 (h3 A' B' _ hA' hB' (hc A' B' hA' hB'))

end

/-- A solver which returns its starting point does not lose ground. -/
example (a b : ℕ) : KronDescends (a := a) (b := b) fun _ _ x => .ok x :=
  fun _ _ A₀ B₀ hA hB _ => ⟨A₀, B₀, rfl, hA, hB, fun v v₀ h h₀ => by
    rw [h] at h₀; exact (Except.ok.inj h₀).le⟩

open Classical in
/-- A solver which meets both contracts exists. -/
example (a b : ℕ) : ∃ s : KronSolver a b, KronMinimises s :=
  ⟨fun cost _ x => if h : ∃ A B v, A.PosDef ∧ B.PosDef ∧ cost A B = .ok v ∧
      ∀ A' B' v', A'.PosDef → B'.PosDef → cost A' B' = .ok v' → v ≤ v'
    then .ok (h.choose, h.choose_spec.choose) else .ok x,
   fun cost _ _ _ _ _ _ h => by
    refine ⟨h.choose, h.choose_spec.choose, h.choose_spec.choose_spec.choose, dif_pos h, ?_⟩
    exact h.choose_spec.choose_spec.choose_spec⟩

/-- Data for which there is a maximum likelihood estimate: one sample of one feature, `df = 2`. -/
example : ∃ (A B : Matrix (Fin 1) (Fin 1) ℂ), A.PosDef ∧ B.PosDef ∧
    ∀ A' B' : Matrix (Fin 1) (Fin 1) ℂ, A'.PosDef → B'.PosDef →
      ∑ i : Fin 1, ctLogDensity 2 (kronLocation true (fun _ _ => 1 : Matrix (Fin 1) (Fin (1 * 1)) ℂ))
        (kron A' B') ((fun _ _ => 1 : Matrix (Fin 1) (Fin (1 * 1)) ℂ) i) ≤
      ∑ i : Fin 1, ctLogDensity 2 (kronLocation true (fun _ _ => 1 : Matrix (Fin 1) (Fin (1 * 1)) ℂ))
        (kron A B) ((fun _ _ => 1 : Matrix (Fin 1) (Fin (1 * 1)) ℂ) i) := by
  refine ⟨1, 1, PosDef.one, PosDef.one, fun A B hA hB => ?_⟩
  have key : ∀ A B : Matrix (Fin 1) (Fin 1) ℂ, A.PosDef → B.PosDef → ∃ c : ℝ, 0 < c ∧
      (c : ℂ) = A 0 0 * B 0 0 ∧ kron A B = kron (((c : ℝ) : ℂ) • 1) 1 := by
    intro A B hA hB
    have h1 := Complex.pos_iff.1 hA.det_pos
    have h2 := Complex.pos_iff.1 hB.det_pos
    rw [det_fin_one] at h1 h2
    have e1 : A 0 0 = ((A 0 0).re : ℂ) := Complex.ext rfl (by simpa using h1.2.symm)
    have e2 : B 0 0 = ((B 0 0).re : ℂ) := Complex.ext rfl (by simpa using h2.2.symm)
    have e3 : (((A 0 0).re * (B 0 0).re : ℝ) : ℂ) = A 0 0 * B 0 0 := by
      rw [Complex.ofReal_mul, ← e1, ← e2]
    refine ⟨(A 0 0).re * (B 0 0).re, mul_pos h1.1 h2.1, e3, ?_⟩
    rw [e3]
    ext i j
    simp only [kron, submatrix_apply, kroneckerMap_apply, Subsingleton.elim _ (0 : Fin 1)]
    simp
  have val : ∀ A B : Matrix (Fin 1) (Fin 1) ℂ, ∀ c : ℝ, 0 < c →
      kron A B = kron (((c : ℝ) : ℂ) • 1) 1 →
      ctLogDensity 2 (kronLocation true (fun _ _ => 1 : Matrix (Fin 1) (Fin (1 * 1)) ℂ))
        (kron A B) (fun _ => 1) = ctLogDensity 2 (fun _ : Fin (1 * 1) => (0 : ℂ)) 1 (fun _ => 0) -
          Real.log c - 2 * Real.log (1 + 1 / c) := by
    intro A B c hc h
    have h0 : kronLocation true (fun _ _ => 1 : Matrix (Fin 1) (Fin (1 * 1)) ℂ) = 0 := by
      simp [kronLocation]
    rw [h0, h]
    unfold ctLogDensity
    rw [sub_zero, (kron_scalar _ 0).1, (kron_scalar _ _).2]
    simp only [Complex.ofReal_re, map_one, Complex.ofReal_one, mul_one]
    rw [← Complex.ofReal_inv, Complex.ofReal_re]
    have : (2 : ℝ) * c⁻¹ / 2 = 1 / c := by field_simp
    rw [this]
    simp
    norm_num
  obtain ⟨c, hc, -, h⟩ := key A B hA hB
  simp only [Fin.sum_univ_one]
  rw [val A B c hc h, val 1 1 1 one_pos (by simp)]
  have h3 : Real.log (4 * c) ≤ Real.log ((1 + c) ^ 2) :=
    Real.log_le_log (by positivity) (by nlinarith [sq_nonneg (1 - c)])
  rw [Real.log_mul (by norm_num) hc.ne', Real.log_pow] at h3
  have h4 : Real.log (1 + 1 / c) = Real.log (1 + c) - Real.log c := by
    rw [← Real.log_div (by positivity) hc.ne']; congr 1; field_simp; ring
  have h5 : Real.log 4 = 2 * Real.log 2 := by
    rw [show (4 : ℝ) = 2 ^ 2 by norm_num, Real.log_pow]; push_cast; ring
  rw [h4, Real.log_one, show (1 : ℝ) + 1 / 1 = 2 by norm_num]
  push_cast at h3
  linarith

end RS
