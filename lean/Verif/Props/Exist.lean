import Verif.Lemmas.ExistIff
import Verif.Props.Converge

/-
Existence of the estimates in terms of the data: Tyler (C101) and Student-t (C102).
-/
set_option autoImplicit false

namespace RS
open Matrix ComplexOrder Filter Topology

section
variable {N p : ℕ}

private def noChi2₃ : Chi2 := ⟨fun q _ => q, fun _ _ => 0⟩
private theorem noChi2_ok₃ : noChi2₃.Ok :=
  ⟨fun _ => rfl, fun _ _ h _ _ => h, fun _ _ => le_rfl⟩

/-- Samples in general position, more of them than features: every proper subspace passes the
count of Tyler's estimator. -/
theorem generalPosition_tyler {𝕜 : Type} [RCLike 𝕜] {X : Matrix (Fin N) (Fin p) 𝕜}
    (h : GeneralPosition X) (hN : p < N) (V : Submodule 𝕜 (Fin p → 𝕜)) (h0 : V ≠ ⊥) (h1 : V ≠ ⊤) :
    p * samplesIn X V < N * Module.finrank 𝕜 V := by
  have hd : 0 < Module.finrank 𝕜 V := Nat.pos_of_ne_zero fun e => h0 (Submodule.finrank_eq_zero.1 e)
  calc p * samplesIn X V ≤ p * Module.finrank 𝕜 V := Nat.mul_le_mul_left p (h V h1)
    _ < N * Module.finrank 𝕜 V := Nat.mul_lt_mul_of_pos_right hN hd

theorem generalPosition_student {𝕜 : Type} [RCLike 𝕜] {X : Matrix (Fin N) (Fin p) 𝕜}
    (h : GeneralPosition X) (hN : p ≤ N) {nu : ℝ} (hnu : 0 < nu) (V : Submodule 𝕜 (Fin p → 𝕜))
    (h1 : V ≠ ⊤) : (nu + p) * samplesIn X V < N * (nu + Module.finrank 𝕜 V) := by
  have a1 : (samplesIn X V : ℝ) ≤ Module.finrank 𝕜 V := by exact_mod_cast h V h1
  have a2 : (Module.finrank 𝕜 V : ℝ) < p := by exact_mod_cast finrank_lt_p h1
  have a3 : (p : ℝ) ≤ N := by exact_mod_cast hN
  have a4 : (0 : ℝ) ≤ Module.finrank 𝕜 V := Nat.cast_nonneg _
  have a5 : (nu + p) * (samplesIn X V : ℝ) ≤ (nu + p) * Module.finrank 𝕜 V :=
    mul_le_mul_of_nonneg_left a1 (by positivity)
  nlinarith

theorem generalPosition_nonzero {𝕜 : Type} [RCLike 𝕜] {X : Matrix (Fin N) (Fin p) 𝕜}
    (h : GeneralPosition X) (hp : 0 < p) : NonzeroSamples X := by
  classical
  intro i hi
  have hb : (⊥ : Submodule 𝕜 (Fin p → 𝕜)) ≠ ⊤ := fun e => by
    have := finrank_top 𝕜 (Fin p → 𝕜)
    rw [← e, finrank_bot, Module.finrank_fin_fun] at this
    omega
  have h1 := h ⊥ hb
  rw [finrank_bot, Nat.le_zero, samplesIn_eq, Finset.card_eq_zero] at h1
  have : i ∈ (Finset.univ.filter fun i => sample X i ∈ (⊥ : Submodule 𝕜 (Fin p → 𝕜))) := by
    simp [hi]
  rw [h1] at this
  simp at this

/-! ## C101 -/

theorem tyler_exists_unique_iff {𝕜 : Type} [RCLike 𝕜] (X : Matrix (Fin N) (Fin p) 𝕜)
    (hN : 0 < N) (hp : 0 < p) (hn : NonzeroSamples X) :
    (∃ S : Matrix (Fin p) (Fin p) 𝕜, S.PosDef ∧ mStep (wTyler p) X S = S ∧
      ∀ S' : Matrix (Fin p) (Fin p) 𝕜, S'.PosDef → mStep (wTyler p) X S' = S' →
        ∃ c : ℝ, 0 < c ∧ S' = (c : 𝕜) • S) ↔
    ∀ V : Submodule 𝕜 (Fin p → 𝕜), V ≠ ⊥ → V ≠ ⊤ → p * samplesIn X V < N * Module.finrank 𝕜 V := by
  constructor
  · rintro ⟨S, hS, hfix, huniq⟩ V h0 h1
    rcases tyler_count hN X hn hS hfix V with h | ⟨-, Q, hQQ, hQV, hQx⟩
    · exact h
    · exfalso
      have hQ0 : Q ≠ 0 := fun e => h0 (by
        rw [Submodule.eq_bot_iff]
        intro x hx
        rw [hQV, e, zero_mulVec] at hx
        exact hx.symm)
      have hQ1 : Q ≠ 1 := fun e => h1 (by
        rw [Submodule.eq_top_iff']
        intro x
        rw [hQV, e, one_mulVec])
      obtain ⟨S', hS', hfix', hne⟩ := tyler_not_unique X Q hQQ hQx hQ0 hQ1 S hS hfix
      obtain ⟨c, hc, h⟩ := huniq S' hS' hfix'
      exact hne c hc h
  · intro H
    obtain ⟨S, hS, hfix⟩ := tyler_exists hp hN X hn H
    have hI := count_indecomposable X H
    refine ⟨S, hS, hfix, fun S' hS' hfix' => tyler_unique hp X hn hI S S' hS hS' hfix ?_⟩
    rw [tylerCost_eq, tylerCost_eq]
    rw [wTyler_eq] at hfix'
    exact fixed_point_minimises le_rfl X S' S hS' hS (fun i => by rw [zero_add]; exact qf_pos hS' (hn i))
      hfix'

/-- Real data: Tyler's iteration has a positive definite fixed point, unique up to scale, if and
only if every proper nonzero subspace `V` holds less than the share `dim V / p` of the samples. -/
theorem C101_real (env : NumEnv N p ℝ) (hs : env.eigh.Ok) (X : Matrix (Fin N) (Fin p) ℝ)
    (hN : 0 < N) (hp : 0 < p) (hn : NonzeroSamples X) (tol : ℝ) :
    (∃ S : Matrix (Fin p) (Fin p) ℝ, S.PosDef ∧
      Returns (tylerFixedPoint env X (some S) tol 1 "None") S ∧
      ∀ S' : Matrix (Fin p) (Fin p) ℝ, S'.PosDef →
        Returns (tylerFixedPoint env X (some S') tol 1 "None") S' → ∃ c : ℝ, 0 < c ∧ S' = c • S) ↔
    ∀ V : Submodule ℝ (Fin p → ℝ), V ≠ ⊥ → V ≠ ⊤ →
      p * samplesIn X V < N * Module.finrank ℝ V := by
  rw [← tyler_exists_unique_iff X hN hp hn]
  have hr : ∀ S : Matrix (Fin p) (Fin p) ℝ, S.PosDef →
      (Returns (tylerFixedPoint env X (some S) tol 1 "None") S ↔ mStep (wTyler p) X S = S) :=
    fun S hS => run_one_real_eq (.tyler "None") hs noChi2_ok₃ hp hn rfl hS tol S
  constructor
  · rintro ⟨S, hS, h1, h2⟩
    exact ⟨S, hS, (hr S hS).1 h1, fun S' hS' h' => h2 S' hS' ((hr S' hS').2 h')⟩
  · rintro ⟨S, hS, h1, h2⟩
    exact ⟨S, hS, (hr S hS).2 h1, fun S' hS' h' => h2 S' hS' ((hr S' hS').1 h')⟩

/-- Complex data. -/
theorem C101_complex (env : NumEnv N p ℂ) (hs : env.eigh.Ok) (X : Matrix (Fin N) (Fin p) ℂ)
    (hN : 0 < N) (hp : 0 < p) (hn : NonzeroSamples X) (tol : ℝ) :
    (∃ S : Matrix (Fin p) (Fin p) ℂ, S.PosDef ∧
      Returns (complexTylerFixedPoint env X (some S) tol 1 "None") S ∧
      ∀ S' : Matrix (Fin p) (Fin p) ℂ, S'.PosDef →
        Returns (complexTylerFixedPoint env X (some S') tol 1 "None") S' →
        ∃ c : ℝ, 0 < c ∧ S' = (c : ℂ) • S) ↔
    ∀ V : Submodule ℂ (Fin p → ℂ), V ≠ ⊥ → V ≠ ⊤ →
      p * samplesIn X V < N * Module.finrank ℂ V := by
  have hh := tyler_exists_unique_iff X hN hp hn
  have hr : ∀ S : Matrix (Fin p) (Fin p) ℂ, S.PosDef →
      (Returns (complexTylerFixedPoint env X (some S) tol 1 "None") S ↔ mStep (wTyler p) X S = S) :=
    fun S hS => run_one_complex_eq (.tyler "None") hs noChi2_ok₃ hp hn rfl hS tol S
  refine Iff.trans ?_ hh
  constructor
  · rintro ⟨S, hS, h1, h2⟩
    exact ⟨S, hS, (hr S hS).1 h1, fun S' hS' h' => h2 S' hS' ((hr S' hS').2 h')⟩
  · rintro ⟨S, hS, h1, h2⟩
    exact ⟨S, hS, (hr S hS).2 h1, fun S' hS' h' => h2 S' hS' ((hr S' hS').1 h')⟩

/-- Real data in general position, `N > p`: from every start, with every normalisation but "None"
and every positive tolerance, the call returns without warning once `iter_max` is large enough,
and the results tend to one matrix that does not depend on the start. -/
theorem C101_converges_real (env : NumEnv N p ℝ) (hs : env.eigh.Ok) (X : Matrix (Fin N) (Fin p) ℝ)
    (hp : 0 < p) (hN : p < N) (hX : GeneralPosition X) (name : String)
    (hname : name = "trace" ∨ name = "determinant" ∨ name = "element") :
    ∃ S' : Matrix (Fin p) (Fin p) ℝ, ∀ init : Option (Matrix (Fin p) (Fin p) ℝ),
      (∀ S ∈ init, S.PosDef) →
      (∀ ε : ℝ, 0 < ε → ∃ K : ℕ, ∀ (tol : ℝ) (iterMax : ℤ), ∃ result delta iteration warned,
        tylerFixedPoint env X init tol iterMax name = .ok ⟨.fin result, delta, iteration, warned⟩ ∧
        (K ≤ iteration → frobDist result S' < ε)) ∧
      ∀ tol : ℝ, 0 < tol → ∃ K : ℕ, ∀ iterMax : ℤ, K < iterMax → ∃ result d iteration,
        tylerFixedPoint env X init tol iterMax name =
          .ok ⟨.fin result, .fin d, iteration, false⟩ ∧ d ≤ tol ∧ iteration ≤ K := by
  have hn := generalPosition_nonzero hX hp
  have H := generalPosition_tyler hX hN
  have hN0 : 0 < N := by omega
  have hsp := tyler_spans hN0 X hn H
  have hI := count_indecomposable X H
  obtain ⟨S, hS, hfix, -⟩ := (C101_real env hs X hN0 hp hn 0).2 H
  obtain ⟨S', hS', -⟩ := C31_posDef name hp S hS
  refine ⟨S', fun init hi => ⟨fun ε hε => ?_, fun tol ht => ?_⟩⟩
  · obtain ⟨S'', h1, h2⟩ := C84_real env hs X hp hsp hn hI S hS 0 hfix init hi name hname
    rw [hS'] at h1
    cases h1
    exact h2 ε hε
  · exact C84_stops_real env hs X hp hsp hn hI S hS 0 hfix init hi name tol ht

/-- Complex data. -/
theorem C101_converges_complex (env : NumEnv N p ℂ) (hs : env.eigh.Ok)
    (X : Matrix (Fin N) (Fin p) ℂ)
    (hp : 0 < p) (hN : p < N) (hX : GeneralPosition X) (name : String)
    (hname : name = "trace" ∨ name = "determinant" ∨ name = "element") :
    ∃ S' : Matrix (Fin p) (Fin p) ℂ, ∀ init : Option (Matrix (Fin p) (Fin p) ℂ),
      (∀ S ∈ init, S.PosDef) →
      (∀ ε : ℝ, 0 < ε → ∃ K : ℕ, ∀ (tol : ℝ) (iterMax : ℤ), ∃ result delta iteration warned,
        complexTylerFixedPoint env X init tol iterMax name =
          .ok ⟨.fin result, delta, iteration, warned⟩ ∧
        (K ≤ iteration → frobDist result S' < ε)) ∧
      ∀ tol : ℝ, 0 < tol → ∃ K : ℕ, ∀ iterMax : ℤ, K < iterMax → ∃ result d iteration,
        complexTylerFixedPoint env X init tol iterMax name =
          .ok ⟨.fin result, .fin d, iteration, false⟩ ∧ d ≤ tol ∧ iteration ≤ K := by
  have hn := generalPosition_nonzero hX hp
  have H := generalPosition_tyler hX hN
  have hN0 : 0 < N := by omega
  have hsp := tyler_spans hN0 X hn H
  have hI := count_indecomposable X H
  obtain ⟨S, hS, hfix, -⟩ := (C101_complex env hs X hN0 hp hn 0).2 H
  obtain ⟨S', hS', -⟩ := C31_posDef name hp S hS
  refine ⟨S', fun init hi => ⟨fun ε hε => ?_, fun tol ht => ?_⟩⟩
  · obtain ⟨S'', h1, h2⟩ := C84_complex env hs X hp hsp hn hI S hS 0 hfix init hi name hname
    rw [hS'] at h1
    cases h1
    exact h2 ε hε
  · exact C84_stops_complex env hs X hp hsp hn hI S hS 0 hfix init hi name tol ht

theorem samplesIn_span_pos {𝕜 : Type} [RCLike 𝕜] (X : Matrix (Fin N) (Fin p) 𝕜) (i : Fin N) :
    1 ≤ samplesIn X (Submodule.span 𝕜 {sample X i}) := by
  classical
  rw [samplesIn_eq, Nat.one_le_iff_ne_zero, ← Nat.pos_iff_ne_zero, Finset.card_pos]
  exact ⟨i, by simp [Submodule.mem_span_singleton_self]⟩

theorem tyler_too_few {𝕜 : Type} [RCLike 𝕜] {X : Matrix (Fin N) (Fin p) 𝕜} (hN : 0 < N)
    (hp : 1 < p) (hNp : N ≤ p) (hn : NonzeroSamples X) :
    ¬ ∀ V : Submodule 𝕜 (Fin p → 𝕜), V ≠ ⊥ → V ≠ ⊤ →
      p * samplesIn X V < N * Module.finrank 𝕜 V := by
  intro H
  have hx := hn ⟨0, hN⟩
  have hd : Module.finrank 𝕜 (Submodule.span 𝕜 {sample X ⟨0, hN⟩}) = 1 := finrank_span_singleton hx
  have h := H (Submodule.span 𝕜 {sample X ⟨0, hN⟩})
    (fun e => by rw [e, finrank_bot] at hd; omega)
    (fun e => by rw [e, finrank_top, Module.finrank_fin_fun] at hd; omega)
  rw [hd] at h
  have := Nat.mul_le_mul_left p (samplesIn_span_pos X ⟨0, hN⟩)
  omega

/-- With at most as many samples as features, Tyler's estimate is never determined (real data). -/
theorem C101_too_few_real (env : NumEnv N p ℝ) (hs : env.eigh.Ok) (X : Matrix (Fin N) (Fin p) ℝ)
    (hN : 0 < N) (hp : 1 < p) (hNp : N ≤ p) (hn : NonzeroSamples X) (tol : ℝ) :
    ¬ ∃ S : Matrix (Fin p) (Fin p) ℝ, S.PosDef ∧
      Returns (tylerFixedPoint env X (some S) tol 1 "None") S ∧
      ∀ S' : Matrix (Fin p) (Fin p) ℝ, S'.PosDef →
        Returns (tylerFixedPoint env X (some S') tol 1 "None") S' → ∃ c : ℝ, 0 < c ∧ S' = c • S :=
  fun h => tyler_too_few hN hp hNp hn ((C101_real env hs X hN (by omega) hn tol).1 h)

/-- Complex data. -/
theorem C101_too_few_complex (env : NumEnv N p ℂ) (hs : env.eigh.Ok)
    (X : Matrix (Fin N) (Fin p) ℂ)
    (hN : 0 < N) (hp : 1 < p) (hNp : N ≤ p) (hn : NonzeroSamples X) (tol : ℝ) :
    ¬ ∃ S : Matrix (Fin p) (Fin p) ℂ, S.PosDef ∧
      Returns (complexTylerFixedPoint env X (some S) tol 1 "None") S ∧
      ∀ S' : Matrix (Fin p) (Fin p) ℂ, S'.PosDef →
        Returns (complexTylerFixedPoint env X (some S') tol 1 "None") S' →
        ∃ c : ℝ, 0 < c ∧ S' = (c : ℂ) • S :=
  fun h => tyler_too_few hN hp hNp hn ((C101_complex env hs X hN (by omega) hn tol).1 h)

/-- Three directions at 120 degrees are in general position. -/
theorem mercedes_generalPosition : GeneralPosition (mercedes ℝ) := by
  classical
  intro V hV
  have hs3 : Real.sqrt 3 ≠ 0 := by positivity
  have ex : ∀ i, sample (mercedes ℝ) i =
      ![![1, 0], ![-(1 / 2), Real.sqrt 3 / 2], ![-(1 / 2), -(Real.sqrt 3 / 2)]] i := fun i => rfl
  have two : ∀ i j : Fin 3, sample (mercedes ℝ) i ∈ V → sample (mercedes ℝ) j ∈ V → i = j := by
    have key : ∀ a b c d : ℝ, a * d - b * c ≠ 0 → ![a, b] ∈ V → ![c, d] ∈ V → False := by
      intro a b c d hdet h1 h2
      apply hV
      rw [Submodule.eq_top_iff']
      intro x
      have : x = ((x 0 * d - x 1 * c) / (a * d - b * c)) • ![a, b] +
          ((a * x 1 - b * x 0) / (a * d - b * c)) • ![c, d] := by
        funext k
        fin_cases k
        · simp only [Pi.add_apply, Pi.smul_apply, smul_eq_mul, Fin.zero_eta, Fin.isValue,
            cons_val_zero]
          rw [div_mul_eq_mul_div, div_mul_eq_mul_div, ← add_div, eq_div_iff hdet]; ring
        · simp only [Pi.add_apply, Pi.smul_apply, smul_eq_mul, Fin.mk_one, Fin.isValue,
            cons_val_one, cons_val_fin_one]
          rw [div_mul_eq_mul_div, div_mul_eq_mul_div, ← add_div, eq_div_iff hdet]; ring
      rw [this]
      exact V.add_mem (V.smul_mem _ h1) (V.smul_mem _ h2)
    intro i j hi hj
    rw [ex] at hi hj
    by_contra hne
    fin_cases i <;> fin_cases j <;> first | exact hne rfl | skip
    all_goals
      refine key _ _ _ _ ?_ hi hj
      intro h
      apply hs3
      linarith
  by_cases h : ∃ i, sample (mercedes ℝ) i ∈ V
  · obtain ⟨i, hi⟩ := h
    have h1 : samplesIn (mercedes ℝ) V ≤ 1 := by
      rw [samplesIn_eq, Finset.card_le_one]
      intro a ha b hb
      exact two a b (Finset.mem_filter.1 ha).2 (Finset.mem_filter.1 hb).2
    refine h1.trans (Nat.one_le_iff_ne_zero.2 fun e => ?_)
    rw [Submodule.finrank_eq_zero] at e
    rw [e, Submodule.mem_bot] at hi
    exact mercedes_nonzero ℝ i hi
  · push Not at h
    have : samplesIn (mercedes ℝ) V = 0 := by
      rw [samplesIn_eq, Finset.card_eq_zero, Finset.filter_eq_empty_iff]
      exact fun i _ => h i
    omega

/-- The hypotheses of `C101` are met by the three directions: estimate, uniqueness, convergence. -/
example (env : NumEnv 3 2 ℝ) (hs : env.eigh.Ok) :
    ∃ S : Matrix (Fin 2) (Fin 2) ℝ, S.PosDef ∧
      Returns (tylerFixedPoint env (mercedes ℝ) (some S) 0 1 "None") S := by
  obtain ⟨S, h1, h2, -⟩ := (C101_real env hs (mercedes ℝ) (by norm_num) two_pos
    (mercedes_nonzero ℝ) 0).2 (generalPosition_tyler mercedes_generalPosition (by norm_num))
  exact ⟨S, h1, h2⟩

/-! ## C102 -/

/-- Real data: the Student-t iteration has a positive definite fixed point if and only if every
proper subspace `V` holds less than the share `(nu + dim V) / (nu + p)` of the samples,
`nu = df/2`. -/
theorem C102_real (env : NumEnv N p ℝ) (hs : env.eigh.Ok) (X : Matrix (Fin N) (Fin p) ℝ)
    (hp : 0 < p) (df : ℝ) (hdf : 0 < df) (tol : ℝ) :
    (∃ S : Matrix (Fin p) (Fin p) ℝ, S.PosDef ∧
      Returns (studentFixedPoint env X df (some S) tol 1) S) ↔
    ∀ V : Submodule ℝ (Fin p → ℝ), V ≠ ⊤ →
      (df / 2 + p) * samplesIn X V < N * (df / 2 + Module.finrank ℝ V) := by
  have hr : ∀ S : Matrix (Fin p) (Fin p) ℝ, S.PosDef →
      (Returns (studentFixedPoint env X df (some S) tol 1) S ↔
        mStep (wStudent (df / 2) p) X S = S) :=
    fun S hS => run_one_real_eq (.student df) hs noChi2_ok₃ hp hdf rfl hS tol S
  constructor
  · rintro ⟨S, hS, h⟩
    exact student_count (half_pos hdf) X hS ((hr S hS).1 h)
  · intro H
    obtain ⟨S, hS, h⟩ := student_exists (half_pos hdf) hp X H
    exact ⟨S, hS, (hr S hS).2 h⟩

/-- Complex data, `nu = df`. -/
theorem C102_complex (env : NumEnv N p ℂ) (hs : env.eigh.Ok) (X : Matrix (Fin N) (Fin p) ℂ)
    (hp : 0 < p) (df : ℝ) (hdf : 0 < df) (tol : ℝ) :
    (∃ S : Matrix (Fin p) (Fin p) ℂ, S.PosDef ∧
      Returns (complexStudentFixedPoint env X df (some S) tol 1) S) ↔
    ∀ V : Submodule ℂ (Fin p → ℂ), V ≠ ⊤ →
      (df + p) * samplesIn X V < N * (df + Module.finrank ℂ V) := by
  have hr : ∀ S : Matrix (Fin p) (Fin p) ℂ, S.PosDef →
      (Returns (complexStudentFixedPoint env X df (some S) tol 1) S ↔
        mStep (wStudent df p) X S = S) :=
    fun S hS => run_one_complex_eq (.student df) hs noChi2_ok₃ hp hdf rfl hS tol S
  constructor
  · rintro ⟨S, hS, h⟩
    exact student_count hdf X hS ((hr S hS).1 h)
  · intro H
    obtain ⟨S, hS, h⟩ := student_exists hdf hp X H
    exact ⟨S, hS, (hr S hS).2 h⟩

/-- Real data in general position, `N >= p`, any `df > 0`: there is one matrix to which the
results tend geometrically from every start, and the loop stops by itself. -/
theorem C102_converges_real (env : NumEnv N p ℝ) (hs : env.eigh.Ok) (X : Matrix (Fin N) (Fin p) ℝ)
    (hp : 0 < p) (hN : p ≤ N) (hX : GeneralPosition X) (df : ℝ) (hdf : 0 < df) :
    ∃ S : Matrix (Fin p) (Fin p) ℝ, S.PosDef ∧ ∀ init : Option (Matrix (Fin p) (Fin p) ℝ),
      (∀ S ∈ init, S.PosDef) →
      (∃ r C : ℝ, 0 ≤ r ∧ r < 1 ∧ ∀ (tol : ℝ) (iterMax : ℤ), ∃ result delta iteration warned,
        studentFixedPoint env X df init tol iterMax =
          .ok ⟨.fin result, delta, iteration, warned⟩ ∧
        frobDist result S ≤ C * r ^ iteration) ∧
      ∀ tol : ℝ, 0 < tol → ∃ K : ℕ, ∀ iterMax : ℤ, K < iterMax → ∃ result d iteration,
        studentFixedPoint env X df init tol iterMax =
          .ok ⟨.fin result, .fin d, iteration, false⟩ ∧ d ≤ tol ∧ iteration ≤ K := by
  have H := generalPosition_student hX hN (half_pos hdf)
  have hsp := student_spans X H
  obtain ⟨S, hS, hfix⟩ := (C102_real env hs X hp df hdf 0).2 H
  exact ⟨S, hS, fun init hi => ⟨C83_real env hs X hp hsp df hdf S hS 0 hfix init hi,
    fun tol ht => C83_stops_real env hs X hp hsp df hdf S hS 0 hfix init hi tol ht⟩⟩

/-- Complex data. -/
theorem C102_converges_complex (env : NumEnv N p ℂ) (hs : env.eigh.Ok)
    (X : Matrix (Fin N) (Fin p) ℂ)
    (hp : 0 < p) (hN : p ≤ N) (hX : GeneralPosition X) (df : ℝ) (hdf : 0 < df) :
    ∃ S : Matrix (Fin p) (Fin p) ℂ, S.PosDef ∧ ∀ init : Option (Matrix (Fin p) (Fin p) ℂ),
      (∀ S ∈ init, S.PosDef) →
      (∃ r C : ℝ, 0 ≤ r ∧ r < 1 ∧ ∀ (tol : ℝ) (iterMax : ℤ), ∃ result delta iteration warned,
        complexStudentFixedPoint env X df init tol iterMax =
          .ok ⟨.fin result, delta, iteration, warned⟩ ∧
        frobDist result S ≤ C * r ^ iteration) ∧
      ∀ tol : ℝ, 0 < tol → ∃ K : ℕ, ∀ iterMax : ℤ, K < iterMax → ∃ result d iteration,
        complexStudentFixedPoint env X df init tol iterMax =
          .ok ⟨.fin result, .fin d, iteration, false⟩ ∧ d ≤ tol ∧ iteration ≤ K := by
  have H := generalPosition_student hX hN hdf
  have hsp := student_spans X H
  obtain ⟨S, hS, hfix⟩ := (C102_complex env hs X hp df hdf 0).2 H
  exact ⟨S, hS, fun init hi => ⟨C83_complex env hs X hp hsp df hdf S hS 0 hfix init hi,
    fun tol ht => C83_stops_complex env hs X hp hsp df hdf S hS 0 hfix init hi tol ht⟩⟩

/-- The hypotheses of `C102` are met by the three directions. -/
example (env : NumEnv 3 2 ℝ) (hs : env.eigh.Ok) :
    ∃ S : Matrix (Fin 2) (Fin 2) ℝ, S.PosDef ∧
      Returns (studentFixedPoint env (mercedes ℝ) 3 (some S) 0 1) S :=
  (C102_real env hs (mercedes ℝ) two_pos 3 (by norm_num) 0).2
    (generalPosition_student mercedes_generalPosition (by norm_num) (by norm_num))

/-- The hypotheses of `C83`, `C84` and `C85_of_tyler` are met by the three directions. -/
example (env : NumEnv 3 2 ℝ) (hs : env.eigh.Ok) :
    (∃ K : ℕ, ∀ iterMax : ℤ, K < iterMax → ∃ result d iteration,
      tylerFixedPoint env (mercedes ℝ) (some (diagonal ![1, 4])) (1 / 10000) iterMax "trace" =
        .ok ⟨.fin result, .fin d, iteration, false⟩ ∧ d ≤ 1 / 10000 ∧ iteration ≤ K) ∧
    ∃ K : ℕ, ∀ iterMax : ℤ, K < iterMax → ∃ result d iteration,
      studentFixedPoint env (mercedes ℝ) 3 (some (diagonal ![1, 4])) (1 / 10000) iterMax =
        .ok ⟨.fin result, .fin d, iteration, false⟩ ∧ d ≤ 1 / 10000 ∧ iteration ≤ K := by
  have hS0 : (diagonal ![1, 4] : Matrix (Fin 2) (Fin 2) ℝ).PosDef := demoS_posDef
  have hsp : Spans (mercedes ℝ) := tyler_spans (by norm_num) _ (mercedes_nonzero ℝ)
    (generalPosition_tyler mercedes_generalPosition (by norm_num))
  have hfix : Returns (tylerFixedPoint env (mercedes ℝ) (some 1) 0 1 "None") 1 :=
    (run_one_real_eq (.tyler "None") hs (c := ⟨fun q _ => q, fun _ _ => 0⟩)
      ⟨fun _ => rfl, fun _ _ h _ _ => h, fun _ _ => le_rfl⟩ two_pos (mercedes_nonzero ℝ) rfl
      PosDef.one 0 1).2 (mercedes_fix ℝ)
  obtain ⟨S, hS, hr⟩ := C85_of_tyler_real env hs _ two_pos hsp (mercedes_nonzero ℝ) 0 1 PosDef.one
    hfix 3 three_pos
  exact ⟨C84_stops_real env hs _ two_pos hsp (mercedes_nonzero ℝ) mercedes_indecomposable 1
      PosDef.one 0 hfix (some _) (by rintro S ⟨⟩; exact hS0) "trace" _ (by norm_num),
    C83_stops_real env hs _ two_pos hsp 3 three_pos S hS 0 hr (some _)
      (by rintro S ⟨⟩; exact hS0) _ (by norm_num)⟩

end
end RS
