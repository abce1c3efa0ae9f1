import Verif.Spec.Covariance

/-! The loop of the fixed-point estimators: characterisation, invariants, simulation. -/
set_option autoImplicit false

namespace RS
open Matrix

section
variable {𝕜 : Type} [RCLike 𝕜] {N p : ℕ}

theorem frob_eq_zero (A : Matrix (Fin p) (Fin p) 𝕜) : frob A = 0 ↔ A = 0 := by
  unfold frob
  rw [Real.sqrt_eq_zero (by positivity),
    Finset.sum_eq_zero_iff_of_nonneg (fun _ _ => by positivity)]
  constructor
  · intro h
    ext i j
    have := (Finset.sum_eq_zero_iff_of_nonneg (fun _ _ => by positivity)).1 (h i (by simp)) j
      (by simp)
    simpa using this
  · rintro rfl; simp

theorem relChange_iff (new old : FMat p 𝕜) (d : Delta) :
    RelChange new old d ↔ d = relErr new old := by
  constructor
  · rintro ⟨h1, h2, h3, h4⟩
    match new, old with
    | .nan, _ => rw [h4 (.inl rfl)]; rfl
    | .fin _, .nan => rw [h4 (.inr rfl)]; rfl
    | .fin A, .fin B =>
      by_cases hB : B = 0
      · subst hB
        by_cases hA : A = 0
        · subst hA; rw [h3 rfl rfl]; simp [relErr, frob_eq_zero]
        · rw [h2 A rfl rfl hA]; simp [relErr, frob_eq_zero, hA]
      · rw [h1 A B rfl rfl hB, relErr, if_neg (mt (frob_eq_zero B).1 hB)]
        rfl
  · rintro rfl
    refine ⟨?_, ?_, ?_, ?_⟩
    · rintro A B rfl rfl hB
      rw [relErr, if_neg (mt (frob_eq_zero B).1 hB)]
      rfl
    · rintro A rfl rfl hA; simp [relErr, frob_eq_zero, hA]
    · rintro rfl rfl; simp [relErr, frob_eq_zero]
    · rintro (rfl | rfl)
      · rfl
      · cases new <;> rfl

theorem IsRun.err_succ' {step : Matrix (Fin p) (Fin p) 𝕜 → Py (FMat p 𝕜)} {tol : ℝ} {iterMax : ℤ}
    {init : Matrix (Fin p) (Fin p) 𝕜} {sigma : FMat p 𝕜} {delta : Delta} {iteration : ℕ}
    {tr : ℕ → FMat p 𝕜} (h : IsRun step tol iterMax init sigma delta iteration tr) (k : ℕ)
    (hk : iteration = k + 1) : delta = relErr (tr (k + 1)) (tr k) :=
  (relChange_iff _ _ _).1 (h.err_succ k hk)

theorem IsRun.continued' {step : Matrix (Fin p) (Fin p) 𝕜 → Py (FMat p 𝕜)} {tol : ℝ} {iterMax : ℤ}
    {init : Matrix (Fin p) (Fin p) 𝕜} {sigma : FMat p 𝕜} {delta : Delta} {iteration : ℕ}
    {tr : ℕ → FMat p 𝕜} (h : IsRun step tol iterMax init sigma delta iteration tr) (k : ℕ)
    (hk : k + 1 < iteration) : (relErr (tr (k + 1)) (tr k)).gt tol := by
  obtain ⟨d, h1, h2⟩ := h.continued k hk
  rwa [← (relChange_iff _ _ _).1 h1]

theorem fpLoop_run (step : Matrix (Fin p) (Fin p) 𝕜 → Py (FMat p 𝕜)) (tol : ℝ) (iterMax : ℤ)
    (init : Matrix (Fin p) (Fin p) 𝕜) (s out : FPState p 𝕜) (tr : ℕ → FMat p 𝕜)
    (h : fpLoop step tol iterMax s = .ok out)
    (h0 : tr 0 = .fin init)
    (h1 : ∀ k < s.iteration, stepSig step (tr k) = .ok (tr (k + 1)))
    (h2 : s.sigma = tr s.iteration)
    (h3 : s.iteration = 0 → s.delta = .inf)
    (h4 : ∀ k, s.iteration = k + 1 → s.delta = relErr (tr (k + 1)) (tr k))
    (h5 : ∀ k, k + 1 < s.iteration → (relErr (tr (k + 1)) (tr k)).gt tol)
    (h6 : (s.iteration : ℤ) ≤ max iterMax 0) :
    ∃ tr', IsRun step tol iterMax init out.sigma out.delta out.iteration tr' := by
  induction hn : (iterMax - s.iteration).toNat generalizing s tr with
  | zero =>
    rw [fpLoop] at h
    have : ¬ (s.delta.gt tol ∧ (s.iteration : ℤ) < iterMax) := by omega
    rw [if_neg this] at h
    cases h
    exact ⟨tr, h0, h1, h2, h3, fun k hk => (relChange_iff _ _ _).2 (h4 k hk),
      fun k hk => ⟨_, (relChange_iff _ _ _).2 rfl, h5 k hk⟩, h6, fun h => by omega⟩
  | succ n ih =>
    rw [fpLoop] at h
    by_cases hc : s.delta.gt tol ∧ (s.iteration : ℤ) < iterMax
    · rw [if_pos hc] at h
      cases hs : stepSig step s.sigma with
      | error e => rw [hs] at h; cases h
      | ok new =>
        rw [hs] at h
        simp only at h
        set tr' : ℕ → FMat p 𝕜 := fun k => if k = s.iteration + 1 then new else tr k with htr'
        have e1 : ∀ k, k ≤ s.iteration → tr' k = tr k := by
          intro k hk; simp only [htr']; rw [if_neg (by omega)]
        have e2 : tr' (s.iteration + 1) = new := by simp [htr']
        refine ih ⟨new, relErr new s.sigma, s.iteration + 1⟩ tr' h ?_ ?_ ?_ ?_ ?_ ?_ ?_ ?_
        · rw [e1 0 (by omega), h0]
        · intro k hk
          simp only at hk
          rcases Nat.lt_succ_iff_lt_or_eq.1 hk with hk | rfl
          · rw [e1 k (by omega), e1 (k + 1) (by omega)]; exact h1 k hk
          · rw [e1 _ le_rfl, e2, ← h2, hs]
        · simp [e2]
        · intro h; simp at h
        · intro k hk
          simp only [Nat.add_right_cancel_iff] at hk
          subst hk
          rw [e1 _ le_rfl, e2, ← h2]
        · intro k hk
          simp only at hk
          rcases Nat.lt_or_ge (k + 1) s.iteration with hk' | hk'
          · rw [e1 k (by omega), e1 (k + 1) (by omega)]; exact h5 k hk'
          · have hk2 : s.iteration = k + 1 := by omega
            rw [e1 k (by omega), e1 (k + 1) (by omega), ← h4 k hk2]
            exact hc.1
        · simp only; push_cast; omega
        · simp only; omega
    · rw [if_neg hc] at h
      cases h
      exact ⟨tr, h0, h1, h2, h3, fun k hk => (relChange_iff _ _ _).2 (h4 k hk),
      fun k hk => ⟨_, (relChange_iff _ _ _).2 rfl, h5 k hk⟩, h6, fun h hd => hc ⟨hd, h⟩⟩

/-- A successful run is completely described by `IsRun`; the warning test. -/
theorem runLoop_run (step : Matrix (Fin p) (Fin p) 𝕜 → Py (FMat p 𝕜)) (tol : ℝ) (iterMax : ℤ)
    (init : Matrix (Fin p) (Fin p) 𝕜) (out : FPOut p 𝕜)
    (h : runLoop step tol iterMax init = .ok out) :
    (∃ tr, IsRun step tol iterMax init out.sigma out.delta out.iteration tr) ∧
      out.warned = ((out.iteration : ℤ) == iterMax) := by
  unfold runLoop at h
  cases hl : fpLoop step tol iterMax ⟨.fin init, .inf, 0⟩ with
  | error e => rw [hl] at h; cases h
  | ok s =>
    rw [hl] at h
    cases h
    refine ⟨fpLoop_run step tol iterMax init _ s (fun _ => .fin init) hl rfl ?_ rfl (fun _ => rfl)
      ?_ ?_ ?_, rfl⟩
    · intro k hk; simp at hk
    · intro k hk; simp at hk
    · intro k hk; simp at hk
    · simp

/-- The loop returns whenever its body never raises. -/
theorem runLoop_total (step : Matrix (Fin p) (Fin p) 𝕜 → Py (FMat p 𝕜)) (tol : ℝ) (iterMax : ℤ)
    (init : Matrix (Fin p) (Fin p) 𝕜) (hs : ∀ M, ∃ S, step M = .ok S) :
    ∃ out, runLoop step tol iterMax init = .ok out := by
  have key : ∀ (n : ℕ) (s : FPState p 𝕜), (iterMax - s.iteration).toNat = n →
      ∃ out, fpLoop step tol iterMax s = .ok out := by
    intro n
    induction n with
    | zero =>
      intro s hn
      rw [fpLoop, if_neg (by omega)]
      exact ⟨s, rfl⟩
    | succ n ih =>
      intro s hn
      rw [fpLoop]
      split_ifs with hc
      · have : ∃ S, stepSig step s.sigma = .ok S := by
          cases s.sigma with
          | fin M => exact hs M
          | nan => exact ⟨.nan, rfl⟩
        obtain ⟨S, hS⟩ := this
        rw [hS]
        exact ih _ (by simp only; omega)
      · exact ⟨s, rfl⟩
  obtain ⟨s, hs⟩ := key _ ⟨.fin init, .inf, 0⟩ rfl
  exact ⟨_, by unfold runLoop; rw [hs]; rfl⟩

/-- Invariants: what every step preserves holds of every iterate of a run. -/
theorem IsRun.invariant {step : Matrix (Fin p) (Fin p) 𝕜 → Py (FMat p 𝕜)} {tol : ℝ} {iterMax : ℤ}
    {init : Matrix (Fin p) (Fin p) 𝕜} {sigma : FMat p 𝕜} {delta : Delta} {iteration : ℕ}
    {tr : ℕ → FMat p 𝕜} (h : IsRun step tol iterMax init sigma delta iteration tr)
    (P : Matrix (Fin p) (Fin p) 𝕜 → Prop) (h0 : P init)
    (hs : ∀ M, P M → ∃ M', step M = .ok (.fin M') ∧ P M') :
    ∀ k ≤ iteration, ∃ M, tr k = .fin M ∧ P M := by
  intro k
  induction k with
  | zero => intro _; exact ⟨init, h.start, h0⟩
  | succ k ih =>
    intro hk
    obtain ⟨M, hM, hP⟩ := ih (by omega)
    obtain ⟨M', hM', hP'⟩ := hs M hP
    have := h.next k (by omega)
    rw [hM] at this
    simp only [stepSig, hM'] at this
    exact ⟨M', (Except.ok.inj this).symm, hP'⟩

/-- Simulation: two loops whose states are related step by step report the same error and
iteration count and related estimates. -/
theorem runLoop_sim {𝕜' : Type} [RCLike 𝕜'] {p' : ℕ}
    (step : Matrix (Fin p) (Fin p) 𝕜 → Py (FMat p 𝕜))
    (step' : Matrix (Fin p') (Fin p') 𝕜' → Py (FMat p' 𝕜')) (tol : ℝ) (iterMax : ℤ)
    (R : Matrix (Fin p) (Fin p) 𝕜 → Matrix (Fin p') (Fin p') 𝕜' → Prop)
    (hR : ∀ a b, R a b → (∃ e, step a = .error e ∧ step' b = .error e) ∨
      (step a = .ok .nan ∧ step' b = .ok .nan) ∨
      ∃ a' b', step a = .ok (.fin a') ∧ step' b = .ok (.fin b') ∧ R a' b' ∧
        relErr (.fin a') (.fin a) = relErr (.fin b') (.fin b))
    (init : Matrix (Fin p) (Fin p) 𝕜) (init' : Matrix (Fin p') (Fin p') 𝕜')
    (h0 : R init init') :
    (∃ e, runLoop step tol iterMax init = .error e ∧ runLoop step' tol iterMax init' = .error e) ∨
    ∃ o o', runLoop step tol iterMax init = .ok o ∧ runLoop step' tol iterMax init' = .ok o' ∧
      o.delta = o'.delta ∧ o.iteration = o'.iteration ∧ o.warned = o'.warned ∧
      ((o.sigma = .nan ∧ o'.sigma = .nan) ∨ ∃ a b, o.sigma = .fin a ∧ o'.sigma = .fin b ∧ R a b) := by
  have key : ∀ (n : ℕ) (s : FPState p 𝕜) (s' : FPState p' 𝕜'), (iterMax - s.iteration).toNat = n →
      s.delta = s'.delta → s.iteration = s'.iteration →
      ((s.sigma = .nan ∧ s'.sigma = .nan) ∨ ∃ a b, s.sigma = .fin a ∧ s'.sigma = .fin b ∧ R a b) →
      (∃ e, fpLoop step tol iterMax s = .error e ∧ fpLoop step' tol iterMax s' = .error e) ∨
      ∃ o o', fpLoop step tol iterMax s = .ok o ∧ fpLoop step' tol iterMax s' = .ok o' ∧
        o.delta = o'.delta ∧ o.iteration = o'.iteration ∧
        ((o.sigma = .nan ∧ o'.sigma = .nan) ∨
          ∃ a b, o.sigma = .fin a ∧ o'.sigma = .fin b ∧ R a b) := by
    intro n
    induction n with
    | zero =>
      intro s s' hn hd hi hs
      right
      refine ⟨s, s', ?_, ?_, hd, hi, hs⟩
      · rw [fpLoop, if_neg (by omega)]
      · rw [fpLoop, if_neg (by omega)]
    | succ n ih =>
      intro s s' hn hd hi hs
      by_cases hc : s.delta.gt tol ∧ (s.iteration : ℤ) < iterMax
      · have hc' : s'.delta.gt tol ∧ (s'.iteration : ℤ) < iterMax := by rw [← hd, ← hi]; exact hc
        rw [fpLoop, if_pos hc, fpLoop, if_pos hc']
        rcases hs with ⟨h1, h2⟩ | ⟨a, b, h1, h2, hab⟩
        · rw [h1, h2]
          simp only [stepSig]
          exact ih _ _ (by simp only; omega) rfl (by simp only [hi]) (Or.inl ⟨rfl, rfl⟩)
        · rw [h1, h2]
          simp only [stepSig]
          rcases hR a b hab with ⟨e, e1, e2⟩ | ⟨e1, e2⟩ | ⟨a', b', e1, e2, hab', he⟩
          · rw [e1, e2]; exact Or.inl ⟨e, rfl, rfl⟩
          · rw [e1, e2]
            simp only
            exact ih _ _ (by simp only; omega) rfl (by simp only [hi]) (Or.inl ⟨rfl, rfl⟩)
          · rw [e1, e2]
            simp only
            exact ih _ _ (by simp only; omega) he (by simp only [hi])
              (Or.inr ⟨a', b', rfl, rfl, hab'⟩)
      · have hc' : ¬(s'.delta.gt tol ∧ (s'.iteration : ℤ) < iterMax) := by
          rw [← hd, ← hi]; exact hc
        rw [fpLoop, if_neg hc, fpLoop, if_neg hc']
        exact Or.inr ⟨s, s', rfl, rfl, hd, hi, hs⟩
  rcases key _ ⟨.fin init, .inf, 0⟩ ⟨.fin init', .inf, 0⟩ rfl rfl rfl
    (Or.inr ⟨init, init', rfl, rfl, h0⟩) with ⟨e, h1, h2⟩ | ⟨o, o', h1, h2, h3, h4, h5⟩
  · left
    exact ⟨e, by unfold runLoop; rw [h1]; rfl, by unfold runLoop; rw [h2]; rfl⟩
  · right
    refine ⟨_, _, by unfold runLoop; rw [h1]; rfl, by unfold runLoop; rw [h2]; rfl, h3, h4, ?_, h5⟩
    simp only [h4]

end
end RS
