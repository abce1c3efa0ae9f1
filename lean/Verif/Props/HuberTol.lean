import Verif.Props.Tolerance
import Verif.Props.HuberCont

/-
A small tolerance gives an accurate Huber estimate (C112).
-/
set_option autoImplicit false

namespace RS
open Matrix ComplexOrder

section
variable {N p : ℕ}

/-- Huber's estimator of real data: where the samples inside the threshold span the space at the fixed
point, a small tolerance gives an accurate estimate from every start. -/
theorem C112_huber_real (env : NumEnv N p ℝ) (hs : env.eigh.Ok) (c : Chi2) (hc : c.Ok)
    (X : Matrix (Fin N) (Fin p) ℝ) (hp : 0 < p) (hX : Spans X) (q : ℝ) (hq0 : 0 < q) (hq1 : q < 1)
    (S : Matrix (Fin p) (Fin p) ℝ) (hS : S.PosDef) (tol0 : ℝ)
    (hfix : Returns (huberFixedPoint env c X q (some S) tol0 1) S) (hin : InsideSpans (c.ppf q p / 2) X S)
    (init : Option (Matrix (Fin p) (Fin p) ℝ)) (hi : ∀ S ∈ init, S.PosDef) (ε : ℝ) (hε : 0 < ε) :
    ∃ (tol₀ : ℝ) (K : ℕ), 0 < tol₀ ∧ ∀ (tol : ℝ) (iterMax : ℤ), tol ≤ tol₀ → K ≤ iterMax →
      ∃ result delta iteration warned, huberFixedPoint env c X q init tol iterMax =
        .ok ⟨.fin result, delta, iteration, warned⟩ ∧ frobDist result S < ε := by
  refine C112_real (.huber q) env hs c hc X hp hX ⟨hq0, hq1⟩ init hi S (fun ε hε => ?_) ε hε
  obtain ⟨r, C, hr0, hr1, hr⟩ := C104_real_partial env hs c hc X hp hX q hq0 hq1 S hS tol0 hfix hin init hi
  obtain ⟨K, hK⟩ := geometric_small (C := C) hr0 hr1 hε
  refine ⟨K, fun tol iterMax => ?_⟩
  obtain ⟨result, delta, iteration, warned, h1, h2⟩ := hr tol iterMax
  exact ⟨result, delta, iteration, warned, h1, fun hk => h2.trans_lt (hK iteration hk)⟩

/-- Huber's estimator of complex data: where the samples inside the threshold span the space at the fixed
point, a small tolerance gives an accurate estimate from every start. -/
theorem C112_huber_complex (env : NumEnv N p ℂ) (hs : env.eigh.Ok) (c : Chi2) (hc : c.Ok)
    (X : Matrix (Fin N) (Fin p) ℂ) (hp : 0 < p) (hX : Spans X) (q : ℝ) (hq0 : 0 < q) (hq1 : q < 1)
    (S : Matrix (Fin p) (Fin p) ℂ) (hS : S.PosDef) (tol0 : ℝ)
    (hfix : Returns (complexHuberFixedPoint env c X q (some S) tol0 1) S) (hin : InsideSpans (c.ppf q (2 * p) / 2) X S)
    (init : Option (Matrix (Fin p) (Fin p) ℂ)) (hi : ∀ S ∈ init, S.PosDef) (ε : ℝ) (hε : 0 < ε) :
    ∃ (tol₀ : ℝ) (K : ℕ), 0 < tol₀ ∧ ∀ (tol : ℝ) (iterMax : ℤ), tol ≤ tol₀ → K ≤ iterMax →
      ∃ result delta iteration warned, complexHuberFixedPoint env c X q init tol iterMax =
        .ok ⟨.fin result, delta, iteration, warned⟩ ∧ frobDist result S < ε := by
  refine C112_complex (.huber q) env hs c hc X hp hX ⟨hq0, hq1⟩ init hi S (fun ε hε => ?_) ε hε
  obtain ⟨r, C, hr0, hr1, hr⟩ := C104_complex_partial env hs c hc X hp hX q hq0 hq1 S hS tol0 hfix hin init hi
  obtain ⟨K, hK⟩ := geometric_small (C := C) hr0 hr1 hε
  refine ⟨K, fun tol iterMax => ?_⟩
  obtain ⟨result, delta, iteration, warned, h1, h2⟩ := hr tol iterMax
  exact ⟨result, delta, iteration, warned, h1, fun hk => h2.trans_lt (hK iteration hk)⟩

/-- The hypotheses of `C112_huber_real` can be met: two unit vectors. -/
example (env : NumEnv 2 2 ℝ) (hs : env.eigh.Ok) : ∃ S : Matrix (Fin 2) (Fin 2) ℝ,
    ∀ ε : ℝ, 0 < ε → ∃ (tol₀ : ℝ) (K : ℕ), 0 < tol₀ ∧ ∃ result delta iteration warned,
      huberFixedPoint env chi2Big (unitSamples ℝ 2 2) (1 / 2) none tol₀ K =
        .ok ⟨.fin result, delta, iteration, warned⟩ ∧ frobDist result S < ε := by
  obtain ⟨S, hS, h1, h2⟩ := huber_inside_example env hs
  refine ⟨S, fun ε hε => ?_⟩
  obtain ⟨tol₀, K, h3, h4⟩ := C112_huber_real env hs chi2Big chi2Big_ok (unitSamples ℝ 2 2) two_pos
    (unitSamples_spans le_rfl) (1 / 2) (by norm_num) (by norm_num) S hS 0 h1 h2 none (fun S hS => by simp at hS) ε hε
  exact ⟨tol₀, K, h3, h4 tol₀ K le_rfl le_rfl⟩

end
end RS
