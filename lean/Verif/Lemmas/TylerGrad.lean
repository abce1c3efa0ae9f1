import Verif.Lemmas.TylerRounding
import Verif.Lemmas.NatGrad
import Verif.Lemmas.MatDeriv
import Verif.Spec.TylerGrad

/-
The gradient of Tyler's cost and how far a matrix with a small gradient can be from Tyler's estimate.
-/
set_option autoImplicit false

namespace RS
open Matrix ComplexOrder Filter Topology

/-! ### Exponentially tilted means -/

theorem pair_sum {ι : Type*} [Fintype ι] (b f g : ι → ℝ) :
    (∑ j, b j * (f j * g j)) * (∑ j, b j) - (∑ j, b j * f j) * (∑ j, b j * g j) =
      (1 / 2) * ∑ j, ∑ k, b j * b k * ((f j - f k) * (g j - g k)) := by
  have h1 : ∑ j, ∑ k, b j * b k * ((f j - f k) * (g j - g k)) =
      (∑ j, ∑ k, (b j * (f j * g j)) * b k) + (∑ j, ∑ k, b j * (b k * (f k * g k))) -
      (∑ j, ∑ k, (b j * f j) * (b k * g k)) - ∑ j, ∑ k, (b j * g j) * (b k * f k) := by
    rw [← Finset.sum_add_distrib, ← Finset.sum_sub_distrib, ← Finset.sum_sub_distrib]
    refine Finset.sum_congr rfl fun j _ => ?_
    rw [← Finset.sum_add_distrib, ← Finset.sum_sub_distrib, ← Finset.sum_sub_distrib]
    exact Finset.sum_congr rfl fun k _ => by ring
  rw [h1]
  simp only [← Finset.mul_sum, ← Finset.sum_mul]
  ring

theorem exp_gap {x y R : ℝ} (hx : -R ≤ x) (hy : -R ≤ y) :
    Real.exp (-R) * (x - y) ^ 2 ≤ (x - y) * (Real.exp x - Real.exp y) := by
  wlog h : y ≤ x generalizing x y
  · have := this hy hx (le_of_not_ge h)
    nlinarith
  have h1 : Real.exp y * (x - y) ≤ Real.exp x - Real.exp y := by
    have h2 := Real.add_one_le_exp (x - y)
    have h3 : Real.exp x = Real.exp y * Real.exp (x - y) := by rw [← Real.exp_add]; ring_nf
    rw [h3]
    nlinarith [Real.exp_pos y]
  have h4 : Real.exp (-R) ≤ Real.exp y := Real.exp_le_exp.2 hy
  have h5 := mul_le_mul_of_nonneg_left h1 (sub_nonneg.2 h)
  have h6 := mul_le_mul_of_nonneg_right h4 (sq_nonneg (x - y))
  nlinarith

/-- Tilting the weights by `exp(-u d)` lowers the mean of `d` by at least a multiple of its
variance. -/
theorem mean_shift {ι : Type*} [Fintype ι] (b d : ι → ℝ) (hb : ∀ j, 0 ≤ b j) (hB : 0 < ∑ j, b j)
    {u R : ℝ} (hu : 0 ≤ u) (hR : ∀ j, |d j| ≤ R) :
    u * Real.exp (-(2 * (u * R))) * ((∑ j, b j * d j ^ 2) / (∑ j, b j) -
        ((∑ j, b j * d j) / (∑ j, b j)) ^ 2) ≤
      (∑ j, b j * d j) / (∑ j, b j) -
        (∑ j, b j * Real.exp (-(u * d j)) * d j) / (∑ j, b j * Real.exp (-(u * d j))) := by
  have hle : ∀ j, u * d j ≤ u * R := fun j => mul_le_mul_of_nonneg_left (abs_le.1 (hR j)).2 hu
  have hge : ∀ j, -(u * R) ≤ u * d j := fun j => by
    have := mul_le_mul_of_nonneg_left (abs_le.1 (hR j)).1 hu
    linarith
  have p1 := pair_sum b d d
  have p2 := pair_sum b d fun j => Real.exp (-(u * d j))
  have h1 : u * Real.exp (-(u * R)) * ((1 / 2) * ∑ j, ∑ k, b j * b k * ((d j - d k) * (d j - d k))) ≤
      -((1 / 2) * ∑ j, ∑ k, b j * b k * ((d j - d k) *
        (Real.exp (-(u * d j)) - Real.exp (-(u * d k))))) := by
    have e : ∀ z : ℝ, -((1 / 2) * z) = (1 / 2) * -z := fun z => by ring
    rw [mul_left_comm, e, Finset.mul_sum, ← Finset.sum_neg_distrib]
    refine mul_le_mul_of_nonneg_left (Finset.sum_le_sum fun j _ => ?_) (by norm_num)
    rw [Finset.mul_sum, ← Finset.sum_neg_distrib]
    refine Finset.sum_le_sum fun k _ => ?_
    have hbb := mul_nonneg (hb j) (hb k)
    rcases hu.eq_or_lt with rfl | hu'
    · simp
    have h2 := exp_gap (x := -(u * d j)) (y := -(u * d k)) (R := u * R)
      (by linarith [hle j]) (by linarith [hle k])
    have h3 : u * (u * Real.exp (-(u * R)) * ((d j - d k) * (d j - d k))) ≤
        u * -((d j - d k) * (Real.exp (-(u * d j)) - Real.exp (-(u * d k)))) := by
      nlinarith
    have h4 := le_of_mul_le_mul_left h3 hu'
    have h5 := mul_le_mul_of_nonneg_left h4 hbb
    linarith
  obtain ⟨B, hBd⟩ : ∃ B, B = ∑ j, b j := ⟨_, rfl⟩
  obtain ⟨M, hM⟩ : ∃ M, M = ∑ j, b j * d j := ⟨_, rfl⟩
  obtain ⟨Q, hQ⟩ : ∃ Q, Q = ∑ j, b j * d j ^ 2 := ⟨_, rfl⟩
  obtain ⟨C, hC⟩ : ∃ C, C = ∑ j, b j * Real.exp (-(u * d j)) := ⟨_, rfl⟩
  obtain ⟨E, hE⟩ : ∃ E, E = ∑ j, b j * Real.exp (-(u * d j)) * d j := ⟨_, rfl⟩
  have hQ' : ∑ j, b j * (d j * d j) = Q := by
    rw [hQ]; exact Finset.sum_congr rfl fun j _ => by ring
  have hE' : ∑ j, b j * (d j * Real.exp (-(u * d j))) = E := by
    rw [hE]; exact Finset.sum_congr rfl fun j _ => by ring
  rw [hQ', ← hBd, ← hM] at p1
  rw [hE', ← hBd, ← hM, ← hC] at p2
  rw [← p1, ← p2] at h1
  rw [← hBd, ← hM, ← hQ, ← hC, ← hE]
  rw [← hBd] at hB
  have hV : 0 ≤ Q * B - M * M := by
    rw [p1]
    refine mul_nonneg (by norm_num) (Finset.sum_nonneg fun j _ => Finset.sum_nonneg fun k _ => ?_)
    exact mul_nonneg (mul_nonneg (hb j) (hb k)) (mul_self_nonneg _)
  have hCle : C ≤ Real.exp (u * R) * B := by
    rw [hC, hBd, Finset.mul_sum]
    refine Finset.sum_le_sum fun j _ => ?_
    rw [mul_comm]
    exact mul_le_mul_of_nonneg_right (Real.exp_le_exp.2 (by linarith [hge j])) (hb j)
  have hCpos : 0 < C := by
    have : Real.exp (-(u * R)) * B ≤ C := by
      rw [hC, hBd, Finset.mul_sum]
      refine Finset.sum_le_sum fun j _ => ?_
      rw [mul_comm]
      exact mul_le_mul_of_nonneg_left (Real.exp_le_exp.2 (by linarith [hle j])) (hb j)
    have := mul_pos (Real.exp_pos (-(u * R))) hB
    linarith
  have hexp : Real.exp (-(2 * (u * R))) * Real.exp (u * R) = Real.exp (-(u * R)) := by
    rw [← Real.exp_add]; ring_nf
  have e1 : Q / B - (M / B) ^ 2 = (Q * B - M * M) / B ^ 2 := by field_simp
  have e2 : M / B - E / C = (M * C - E * B) / (B * C) := by field_simp
  rw [e1, e2, ← mul_div_assoc, div_le_div_iff₀ (by positivity) (by positivity)]
  have h6 : u * Real.exp (-(2 * (u * R))) * (Q * B - M * M) * (B * C) ≤
      u * Real.exp (-(2 * (u * R))) * (Q * B - M * M) * (B * (Real.exp (u * R) * B)) :=
    mul_le_mul_of_nonneg_left (mul_le_mul_of_nonneg_left hCle hB.le)
      (mul_nonneg (mul_nonneg hu (Real.exp_pos _).le) hV)
  refine h6.trans ?_
  have h7 : u * Real.exp (-(2 * (u * R))) * (Q * B - M * M) * (B * (Real.exp (u * R) * B)) =
      u * (Real.exp (-(2 * (u * R))) * Real.exp (u * R)) * (Q * B - M * M) * B ^ 2 := by ring
  rw [h7, hexp]
  exact mul_le_mul_of_nonneg_right (by linarith) (sq_nonneg B)

section
variable {𝕜 : Type} [RCLike 𝕜] {N p : ℕ}

theorem re_trace_mul_le {A B : Matrix (Fin p) (Fin p) 𝕜} (hA : A.IsHermitian) (hB : B.IsHermitian) :
    RCLike.re (A * B).trace ≤ frob A * frob B := by
  have hq : ∀ s : ℝ, 0 ≤ frob A ^ 2 * (s * s) + (-(2 * RCLike.re (A * B).trace)) * s + frob B ^ 2 := by
    intro s
    have hH : ((s : 𝕜) • A - B).IsHermitian := by
      refine IsHermitian.sub ?_ hB
      rw [IsHermitian, conjTranspose_smul, hA.eq, RCLike.star_def, RCLike.conj_ofReal]
    have h := re_trace_mul_self_frob hH
    have e : ((s : 𝕜) • A - B) * ((s : 𝕜) • A - B) =
        (s : 𝕜) • ((s : 𝕜) • (A * A)) - (s : 𝕜) • (A * B) - (s : 𝕜) • (B * A) + B * B := by
      simp only [Matrix.mul_sub, Matrix.sub_mul, Matrix.smul_mul, Matrix.mul_smul, smul_sub]
      abel
    rw [e] at h
    simp only [trace_add, trace_sub, trace_smul, smul_eq_mul, map_add, map_sub,
      RCLike.re_ofReal_mul] at h
    rw [trace_mul_comm B A, re_trace_mul_self_frob hA, re_trace_mul_self_frob hB] at h
    have h0 := sq_nonneg (frob ((s : 𝕜) • A - B))
    nlinarith
  have hd := discrim_le_zero hq
  unfold discrim at hd
  have h2 : RCLike.re (A * B).trace ^ 2 ≤ (frob A * frob B) ^ 2 := by nlinarith
  exact le_of_abs_le (abs_le_of_sq_le_sq h2 (mul_nonneg (frob_nonneg _) (frob_nonneg _)))

theorem qform_fn {e : EigRes (Fin p) 𝕜} (f : ℝ → ℝ) (x : Fin p → 𝕜) :
    qform (e.fn f) x = ∑ j, ‖(e.vecsᴴ *ᵥ x) j‖ ^ 2 * f (e.vals j) := by
  have h : star x ⬝ᵥ (e.fn f *ᵥ x) =
      star (e.vecsᴴ *ᵥ x) ⬝ᵥ (diagonal (fun i => (f (e.vals i) : 𝕜)) *ᵥ (e.vecsᴴ *ᵥ x)) := by
    rw [star_mulVec, conjTranspose_conjTranspose, ← dotProduct_mulVec, mulVec_mulVec, mulVec_mulVec]
    unfold EigRes.fn
    rw [Matrix.mul_assoc]
  unfold qform
  rw [h]
  simp only [dotProduct, mulVec_diagonal, map_sum, Pi.star_apply, RCLike.star_def]
  refine Finset.sum_congr rfl fun j _ => ?_
  rw [mul_left_comm, RCLike.conj_mul, ← RCLike.ofReal_pow, ← RCLike.ofReal_mul, RCLike.ofReal_re,
    mul_comm]

theorem frob_fn_sq {e : EigRes (Fin p) 𝕜} {A : Matrix (Fin p) (Fin p) 𝕜} (he : e.Valid A)
    (f : ℝ → ℝ) : frob (e.fn f) ^ 2 = ∑ j, f (e.vals j) ^ 2 := by
  unfold EigRes.fn
  rw [frob_unitary _ _ he.unitary, frob_diagonal_sq]

/-- The square of the norm of the natural gradient divided by the number of samples. -/
noncomputable def tyGradSq (X : Matrix (Fin N) (Fin p) 𝕜) (S : Matrix (Fin p) (Fin p) 𝕜) : ℝ :=
  RCLike.re (((S - mStep (wTyler p) X S) * S⁻¹) * ((S - mStep (wTyler p) X S) * S⁻¹)).trace

theorem tyGradSq_whiten {X : Matrix (Fin N) (Fin p) 𝕜} {S K : Matrix (Fin p) (Fin p) 𝕜}
    (hS : S.PosDef) (hK : K.IsHermitian) (hKK : K * K = S⁻¹) :
    (K * (S - mStep (wTyler p) X S) * K).IsHermitian ∧
      tyGradSq X S = frob (K * (S - mStep (wTyler p) X S) * K) ^ 2 := by
  have hR : (S - mStep (wTyler p) X S).IsHermitian := hS.1.sub (scatter_isHermitian _ X)
  obtain ⟨R, hRd⟩ : ∃ R, R = S - mStep (wTyler p) X S := ⟨_, rfl⟩
  unfold tyGradSq
  rw [← hRd] at hR ⊢
  have hH : (K * R * K).IsHermitian := by
    rw [IsHermitian, conjTranspose_mul, conjTranspose_mul, hK.eq, hR.eq, Matrix.mul_assoc]
  refine ⟨hH, ?_⟩
  rw [← re_trace_mul_self_frob hH, ← hKK]
  congr 1
  rw [show K * R * K * (K * R * K) = K * (R * (K * K) * R * K) by simp only [Matrix.mul_assoc],
    trace_mul_comm K]
  simp only [Matrix.mul_assoc]

variable {X : Matrix (Fin N) (Fin p) 𝕜}

theorem tyQuad_eq (hn : NonzeroSamples X) (P : Matrix (Fin p) (Fin p) 𝕜) :
    tyQuad X P = RCLike.re (P * tyLin X P).trace := by
  unfold tyLin
  rw [trace_scatter, tyQuad]
  congr 1
  refine Finset.sum_congr rfl fun i _ => ?_
  have h2 : qform P (sample X i) = rayl P X i * qform 1 (sample X i) := by
    unfold rayl
    field_simp [(qform_one_pos (hn i)).ne']
  rw [h2]
  ring

set_option maxHeartbeats 400000 in
/-- A matrix of determinant 1 whose logarithm has norm `ρ` has a natural gradient of size at least
`min ρ (1/2)`, up to a constant, when the identity is Tyler's estimate. -/
theorem tyler_grad_one (hp : 0 < p) (hn : NonzeroSamples X) (hfix : scatter (unitW X) X = 1) {q : ℝ}
    (hq1 : q < 1)
    (hgap : ∀ P : Matrix (Fin p) (Fin p) 𝕜, P.IsHermitian → RCLike.re P.trace = 0 →
      frob (tyLin X P) ≤ q * frob P)
    {S : Matrix (Fin p) (Fin p) 𝕜} (hS : S.PosDef) {e : EigRes (Fin p) 𝕜} (he : e.Valid S)
    (h0 : ∑ j, Real.log (e.vals j) = 0) :
    Real.exp (-1) * (1 - q) * min (frob (e.fn Real.log)) (1 / 2) ≤ Real.sqrt (tyGradSq X S) := by
  have hl := he.vals_pos hS
  obtain ⟨P, hP⟩ : ∃ P, P = e.fn Real.log := ⟨_, rfl⟩
  obtain ⟨K, hK⟩ : ∃ K, K = e.fn fun x => (Real.sqrt x)⁻¹ := ⟨_, rfl⟩
  obtain ⟨ρ, hρ⟩ : ∃ ρ, ρ = frob P := ⟨_, rfl⟩
  obtain ⟨T, hT⟩ : ∃ T, T = mStep (wTyler p) X S := ⟨_, rfl⟩
  have hPH : P.IsHermitian := by rw [hP]; exact he.fn_isHermitian _
  have hKH : K.IsHermitian := by rw [hK]; exact he.fn_isHermitian _
  have hinv : S⁻¹ = e.fn fun x => x⁻¹ := by
    apply Matrix.inv_eq_right_inv
    conv_lhs => rw [← he.fn_id]
    rw [he.fn_mul, ← he.fn_one]
    exact he.fn_congr fun i => mul_inv_cancel₀ (hl i).ne'
  have hKK : K * K = S⁻¹ := by
    rw [hK, he.fn_mul, hinv]
    refine he.fn_congr fun i => ?_
    rw [← mul_inv, Real.mul_self_sqrt (hl i).le]
  have hKP : K * P = P * K := by
    rw [hK, hP, he.fn_mul, he.fn_mul]
    exact he.fn_congr fun i => mul_comm _ _
  obtain ⟨hM, hsq⟩ := tyGradSq_whiten (X := X) hS hKH hKK
  have hsqrt : Real.sqrt (tyGradSq X S) = frob (K * (S - T) * K) := by
    rw [hsq, ← hT, Real.sqrt_sq (frob_nonneg _)]
  rw [← hT] at hM
  rw [hsqrt, ← hP, ← hρ]
  have hρ0 : 0 ≤ ρ := by rw [hρ]; exact frob_nonneg _
  -- the trace of the logarithm
  have htrP : RCLike.re P.trace = 0 := by
    rw [hP, he.fn_trace, map_sum]
    simp only [RCLike.ofReal_re]
    exact h0
  -- coordinates
  obtain ⟨a, ha⟩ : ∃ a : Fin N → Fin p → ℝ, a = fun i j => ‖(e.vecsᴴ *ᵥ sample X i) j‖ ^ 2 := ⟨_, rfl⟩
  obtain ⟨d, hd⟩ : ∃ d : Fin p → ℝ, d = fun j => Real.log (e.vals j) := ⟨_, rfl⟩
  have haij : ∀ i j, ‖(e.vecsᴴ *ᵥ sample X i) j‖ ^ 2 = a i j := fun i j => by rw [ha]
  have hdj : ∀ j, Real.log (e.vals j) = d j := fun j => by rw [hd]
  have hexp : ∀ j, (e.vals j)⁻¹ = Real.exp (-(1 * d j)) := fun j => by
    rw [one_mul, Real.exp_neg, ← hdj, Real.exp_log (hl j)]
  have ha0 : ∀ i j, 0 ≤ a i j := fun i j => by rw [← haij]; positivity
  have hone : ∀ i, qform 1 (sample X i) = ∑ j, a i j := fun i => by
    rw [← he.fn_one, qform_fn]
    exact Finset.sum_congr rfl fun j _ => by rw [haij, mul_one]
  have hApos : ∀ i, 0 < ∑ j, a i j := fun i => by rw [← hone]; exact qform_one_pos (hn i)
  have hqP : ∀ i, qform P (sample X i) = ∑ j, a i j * d j := fun i => by
    rw [hP, qform_fn]
    exact Finset.sum_congr rfl fun j _ => by rw [haij, hdj]
  have hqPP : ∀ i, qform (P * P) (sample X i) = ∑ j, a i j * d j ^ 2 := fun i => by
    rw [hP, he.fn_mul, qform_fn]
    exact Finset.sum_congr rfl fun j _ => by rw [haij, hdj, sq]
  have hqf : ∀ i, qf S (sample X i) = ∑ j, a i j * Real.exp (-(1 * d j)) := fun i => by
    have : qf S (sample X i) = qform S⁻¹ (sample X i) := rfl
    rw [this, hinv, qform_fn]
    exact Finset.sum_congr rfl fun j _ => by rw [haij, hexp]
  have hqSP : ∀ i, qform (S⁻¹ * P) (sample X i) = ∑ j, a i j * Real.exp (-(1 * d j)) * d j := fun i => by
    rw [hinv, hP, he.fn_mul, qform_fn]
    exact Finset.sum_congr rfl fun j _ => by rw [haij, hdj, hexp, mul_assoc]
  have hdρ : ∀ j, |d j| ≤ ρ := fun j => by
    refine abs_le_of_sq_le_sq ?_ hρ0
    rw [hρ, hP, frob_fn_sq he]
    simp only [hdj]
    exact Finset.single_le_sum (f := fun j => d j ^ 2) (fun j _ => sq_nonneg _) (Finset.mem_univ j)
  -- the pairing of the gradient with the logarithm
  have hpair : RCLike.re ((K * (S - T) * K) * P).trace = -((N : ℝ)⁻¹ * ∑ i,
      p * ((∑ j, a i j * Real.exp (-(1 * d j)) * d j) / ∑ j, a i j * Real.exp (-(1 * d j)))) := by
    have e1 : ((K * (S - T) * K) * P).trace = ((S⁻¹ * P) * (S - T)).trace := by
      rw [show K * (S - T) * K * P = K * ((S - T) * (K * P)) by simp only [Matrix.mul_assoc],
        trace_mul_comm, Matrix.mul_assoc, hKP,
        show (S - T) * (P * K * K) = (S - T) * (P * (K * K)) by simp only [Matrix.mul_assoc],
        trace_mul_comm, hKK]
      congr 1
      rw [hinv, hP, he.fn_mul, he.fn_mul]
      congr 1
      exact he.fn_congr fun i => mul_comm _ _
    have e2 : (S⁻¹ * P) * S = P := by
      have hid : S = e.fn fun x => x := he.fn_id.symm
      rw [hinv, hP]
      conv_lhs => rw [hid]
      rw [he.fn_mul, he.fn_mul]
      refine he.fn_congr fun i => ?_
      field_simp [(hl i).ne']
    rw [e1, Matrix.mul_sub, trace_sub, map_sub, e2, htrP, zero_sub, hT]
    unfold mStep
    rw [trace_scatter]
    congr 2
    refine Finset.sum_congr rfl fun i _ => ?_
    rw [hqSP, hqf]
    unfold wTyler
    ring
  -- the gap
  have hvar : (1 - q) * ρ ^ 2 ≤ (N : ℝ)⁻¹ * ∑ i, p * ((∑ j, a i j * d j ^ 2) / (∑ j, a i j) -
      ((∑ j, a i j * d j) / (∑ j, a i j)) ^ 2) := by
    have h1 : tyQuad X P ≤ q * ρ ^ 2 := by
      rw [tyQuad_eq hn]
      refine (re_trace_mul_le hPH (scatter_isHermitian _ X)).trans ?_
      have := mul_le_mul_of_nonneg_left (hgap P hPH htrP) (frob_nonneg P)
      rw [← hρ] at this ⊢
      calc _ ≤ ρ * (q * ρ) := this
        _ = q * ρ ^ 2 := by ring
    have h2 : ρ ^ 2 = (N : ℝ)⁻¹ * ∑ i, unitW X i * qform (P * P) (sample X i) := by
      rw [hρ, frob_sq_herm hPH, ← trace_scatter, hfix, Matrix.mul_one]
    have h3 : (N : ℝ)⁻¹ * ∑ i, p * ((∑ j, a i j * d j ^ 2) / (∑ j, a i j) -
        ((∑ j, a i j * d j) / (∑ j, a i j)) ^ 2) = ρ ^ 2 - tyQuad X P := by
      rw [h2, tyQuad, ← mul_sub, ← Finset.sum_sub_distrib]
      congr 1
      refine Finset.sum_congr rfl fun i _ => ?_
      unfold unitW rayl
      rw [hqPP, hqP, hone]
      have := (hApos i).ne'
      field_simp
    rw [h3]
    linarith
  have hmean : (N : ℝ)⁻¹ * ∑ i, p * ((∑ j, a i j * d j) / ∑ j, a i j) = 0 := by
    have h1 := trace_scatter P (unitW X) X
    rw [hfix, Matrix.mul_one, htrP] at h1
    rw [h1]
    congr 1
    refine Finset.sum_congr rfl fun i _ => ?_
    unfold unitW
    rw [hqP, hone]
    ring
  -- the inequality along the geodesic
  have hgeo : ∀ u : ℝ, 0 ≤ u → u ≤ 1 → u * Real.exp (-(2 * (u * ρ))) * ((1 - q) * ρ ^ 2) ≤
      RCLike.re ((K * (S - T) * K) * P).trace := by
    intro u hu hu1
    have hi : ∀ i, u * Real.exp (-(2 * (u * ρ))) * ((∑ j, a i j * d j ^ 2) / (∑ j, a i j) -
        ((∑ j, a i j * d j) / (∑ j, a i j)) ^ 2) ≤ (∑ j, a i j * d j) / (∑ j, a i j) -
        (∑ j, a i j * Real.exp (-(1 * d j)) * d j) / ∑ j, a i j * Real.exp (-(1 * d j)) := by
      intro i
      have h1 := mean_shift (a i) d (ha0 i) (hApos i) hu hdρ
      have hpos : 0 < ∑ j, a i j * Real.exp (-(u * d j)) := by
        have h3 : Real.exp (-(u * ρ)) * ∑ j, a i j ≤ ∑ j, a i j * Real.exp (-(u * d j)) := by
          rw [Finset.mul_sum]
          refine Finset.sum_le_sum fun j _ => ?_
          rw [mul_comm]
          refine mul_le_mul_of_nonneg_left (Real.exp_le_exp.2 ?_) (ha0 i j)
          have := mul_le_mul_of_nonneg_left (abs_le.1 (hdρ j)).2 hu
          linarith
        have := mul_pos (Real.exp_pos (-(u * ρ))) (hApos i)
        linarith
      have h2 := mean_shift (fun j => a i j * Real.exp (-(u * d j))) d
        (fun j => mul_nonneg (ha0 i j) (Real.exp_pos _).le) hpos (sub_nonneg.2 hu1) hdρ
      have e1 : ∀ j, a i j * Real.exp (-(u * d j)) * Real.exp (-((1 - u) * d j)) =
          a i j * Real.exp (-(1 * d j)) := fun j => by
        rw [mul_assoc, ← Real.exp_add]
        congr 2
        ring
      simp only [e1] at h2
      have h3 : 0 ≤ (1 - u) * Real.exp (-(2 * ((1 - u) * ρ))) *
          ((∑ j, a i j * Real.exp (-(u * d j)) * d j ^ 2) / (∑ j, a i j * Real.exp (-(u * d j))) -
          ((∑ j, a i j * Real.exp (-(u * d j)) * d j) / ∑ j, a i j * Real.exp (-(u * d j))) ^ 2) := by
        refine mul_nonneg (mul_nonneg (sub_nonneg.2 hu1) (Real.exp_pos _).le) ?_
        have hp1 := pair_sum (fun j => a i j * Real.exp (-(u * d j))) d d
        have hp2 : 0 ≤ (1 / 2 : ℝ) * ∑ j, ∑ k, a i j * Real.exp (-(u * d j)) *
            (a i k * Real.exp (-(u * d k))) * ((d j - d k) * (d j - d k)) :=
          mul_nonneg (by norm_num) (Finset.sum_nonneg fun j _ => Finset.sum_nonneg fun k _ =>
            mul_nonneg (mul_nonneg (mul_nonneg (ha0 i j) (Real.exp_pos _).le)
              (mul_nonneg (ha0 i k) (Real.exp_pos _).le)) (mul_self_nonneg _))
        rw [← hp1] at hp2
        have e2 : ∑ j, a i j * Real.exp (-(u * d j)) * (d j * d j) =
            ∑ j, a i j * Real.exp (-(u * d j)) * d j ^ 2 :=
          Finset.sum_congr rfl fun j _ => by ring
        rw [e2] at hp2
        generalize ∑ j, a i j * Real.exp (-(u * d j)) * d j ^ 2 = Q at hp2
        generalize ∑ j, a i j * Real.exp (-(u * d j)) * d j = M at hp2
        generalize ∑ j, a i j * Real.exp (-(u * d j)) = B at hp2 hpos
        have e3 : Q / B - (M / B) ^ 2 = (Q * B - M * M) / B ^ 2 := by field_simp
        rw [e3]
        positivity
      linarith
    rw [hpair]
    have h4 := mul_le_mul_of_nonneg_left hvar (mul_nonneg hu (Real.exp_pos (-(2 * (u * ρ)))).le)
    refine h4.trans ?_
    have h5 : ∀ A B : Fin N → ℝ, (N : ℝ)⁻¹ * ∑ i, p * A i = 0 →
        -((N : ℝ)⁻¹ * ∑ i, p * B i) = (N : ℝ)⁻¹ * ∑ i, p * (A i - B i) := fun A B h => by
      simp only [mul_sub, Finset.sum_sub_distrib]
      rw [h, zero_sub]
    rw [h5 _ _ hmean, mul_left_comm, Finset.mul_sum]
    refine mul_le_mul_of_nonneg_left (Finset.sum_le_sum fun i _ => ?_) (by positivity)
    rw [mul_left_comm]
    exact mul_le_mul_of_nonneg_left (hi i) (by positivity)
  rcases hρ0.eq_or_lt with h | hpos
  · rw [← h, min_eq_left (by norm_num), mul_zero]
    exact frob_nonneg _
  have hcs := re_trace_mul_le hM hPH
  rw [← hρ] at hcs
  -- the choice of the point on the geodesic
  obtain ⟨u, hu0, hu1, huρ⟩ : ∃ u : ℝ, 0 ≤ u ∧ u ≤ 1 ∧ u * ρ = min ρ (1 / 2) := by
    refine ⟨min ρ (1 / 2) / ρ, by positivity, ?_, by field_simp⟩
    rw [div_le_one hpos]
    exact min_le_left _ _
  have h1 := (hgeo u hu0 hu1).trans hcs
  have h2 : Real.exp (-1) ≤ Real.exp (-(2 * (u * ρ))) := by
    refine Real.exp_le_exp.2 ?_
    rw [huρ]
    have := min_le_right ρ (1 / 2)
    linarith
  have h3 : u * Real.exp (-1) * ((1 - q) * ρ ^ 2) ≤ frob (K * (S - T) * K) * ρ := by
    refine le_trans ?_ h1
    refine mul_le_mul_of_nonneg_right (mul_le_mul_of_nonneg_left h2 hu0) ?_
    exact mul_nonneg (by linarith) (sq_nonneg _)
  have h4 : u * Real.exp (-1) * ((1 - q) * ρ ^ 2) = Real.exp (-1) * (1 - q) * (u * ρ) * ρ := by ring
  rw [h4, huρ] at h3
  exact le_of_mul_le_mul_right h3 hpos

theorem mDev_smul {A : Matrix (Fin p) (Fin p) 𝕜} {r : ℝ} (hr : r ≠ 0) :
    mDev ((r : 𝕜) • A) = mDev A := by
  have h : mScale ((r : 𝕜) • A) = r * mScale A := by
    unfold mScale
    rw [trace_smul, smul_eq_mul, RCLike.re_ofReal_mul, mul_div_assoc]
  unfold mDev
  rw [h, smul_smul, ← RCLike.ofReal_mul, mul_inv, mul_right_comm, inv_mul_cancel₀ hr, one_mul]

theorem mDev_le_log (hp : 0 < p) {A : Matrix (Fin p) (Fin p) 𝕜} (hA : A.PosDef)
    {e : EigRes (Fin p) 𝕜} (he : e.Valid A) (h0 : ∑ j, Real.log (e.vals j) = 0)
    (hρ : frob (e.fn Real.log) ≤ 1 / 2) : frob (mDev A) ≤ 2 * frob (e.fn Real.log) := by
  have hl := he.vals_pos hA
  have hp' : (0 : ℝ) < p := by exact_mod_cast hp
  have htr : mScale A = (∑ j, e.vals j) / p := by
    have h := he.fn_trace fun x => x
    rw [he.fn_id] at h
    unfold mScale
    rw [h, map_sum]
    simp only [RCLike.ofReal_re]
  obtain ⟨m, hm⟩ : ∃ m, m = mScale A := ⟨_, rfl⟩
  have hsum : ∑ j, e.vals j = p * m := by rw [hm, htr]; field_simp
  have hm1 : 1 ≤ m := by
    have h1 : ∑ j, (1 + Real.log (e.vals j)) ≤ ∑ j, e.vals j := Finset.sum_le_sum fun j _ => by
      have := Real.log_le_sub_one_of_pos (hl j)
      linarith
    rw [Finset.sum_add_distrib, h0, hsum] at h1
    simp at h1
    nlinarith
  have hD : mDev A = e.fn fun x => m⁻¹ * x - 1 := by
    unfold mDev
    rw [← hm]
    have h1 : A = e.fn fun x => x := he.fn_id.symm
    conv_lhs => rw [h1]
    unfold EigRes.fn
    have h2 : (1 : Matrix (Fin p) (Fin p) 𝕜) = e.fn fun _ => 1 := he.fn_one.symm
    rw [h2]
    unfold EigRes.fn
    rw [← Matrix.smul_mul, ← Matrix.mul_smul, ← Matrix.sub_mul, ← Matrix.mul_sub, ← diagonal_smul,
      diagonal_sub]
    congr 3
    funext j
    simp
  have h1 : frob (mDev A) ^ 2 ≤ (2 * frob (e.fn Real.log)) ^ 2 := by
    rw [hD, frob_fn_sq he, mul_pow, frob_fn_sq he, Finset.mul_sum]
    have h2 : ∑ j, (m⁻¹ * e.vals j - 1) ^ 2 ≤ ∑ j, (e.vals j - 1) ^ 2 := by
      have e1 : ∑ j, (m⁻¹ * e.vals j - 1) ^ 2 = (m⁻¹) ^ 2 * ∑ j, (e.vals j - m) ^ 2 := by
        rw [Finset.mul_sum]
        refine Finset.sum_congr rfl fun j _ => ?_
        have : m ≠ 0 := by linarith
        field_simp
      have e2 : ∑ j, (e.vals j - m) ^ 2 = ∑ j, (e.vals j - 1) ^ 2 - p * (m - 1) ^ 2 := by
        have : ∀ j, (e.vals j - m) ^ 2 = (e.vals j - 1) ^ 2 - 2 * (m - 1) * e.vals j + (m ^ 2 - 1) :=
          fun j => by ring
        simp only [this]
        rw [Finset.sum_add_distrib, Finset.sum_sub_distrib, ← Finset.mul_sum, hsum]
        simp
        ring
      rw [e1]
      have h3 : 0 ≤ ∑ j, (e.vals j - m) ^ 2 := Finset.sum_nonneg fun j _ => sq_nonneg _
      have h4 : (m⁻¹) ^ 2 ≤ 1 := by
        have h5 : m⁻¹ ≤ 1 := inv_le_one_of_one_le₀ hm1
        have h6 : 0 ≤ m⁻¹ := by positivity
        nlinarith
      have h7 : 0 ≤ (p : ℝ) * (m - 1) ^ 2 := by positivity
      nlinarith
    refine h2.trans (Finset.sum_le_sum fun j _ => ?_)
    have h3 : |Real.log (e.vals j)| ≤ 1 := by
      have h4 : |Real.log (e.vals j)| ≤ 1 / 2 := by
        refine abs_le_of_sq_le_sq ?_ (by norm_num)
        have h5 : frob (e.fn Real.log) ^ 2 ≤ (1 / 2) ^ 2 := pow_le_pow_left₀ (frob_nonneg _) hρ 2
        rw [frob_fn_sq he] at h5
        exact (Finset.single_le_sum (f := fun j => Real.log (e.vals j) ^ 2)
          (fun j _ => sq_nonneg _) (Finset.mem_univ j)).trans h5
      linarith
    have h5 := Real.abs_exp_sub_one_le h3
    rw [Real.exp_log (hl j)] at h5
    have h6 := pow_le_pow_left₀ (abs_nonneg _) h5 2
    rw [sq_abs, mul_pow, sq_abs] at h6
    exact h6
  exact le_of_abs_le (abs_le_of_sq_le_sq h1 (mul_nonneg (by norm_num) (frob_nonneg _)))

theorem tyGradSq_smul {S : Matrix (Fin p) (Fin p) 𝕜} (hS : S.PosDef) {r : ℝ} (hr : 0 < r) :
    tyGradSq X ((r : 𝕜) • S) = tyGradSq X S := by
  have hr' : (r : 𝕜) ≠ 0 := by exact_mod_cast hr.ne'
  have hinv : ((r : 𝕜) • S)⁻¹ = (r : 𝕜)⁻¹ • S⁻¹ := by
    apply Matrix.inv_eq_right_inv
    rw [Matrix.smul_mul, Matrix.mul_smul, smul_smul, mul_inv_cancel₀ hr', one_smul,
      Matrix.mul_nonsing_inv _ ((isUnit_iff_isUnit_det _).1 hS.isUnit)]
  unfold tyGradSq
  obtain ⟨R, hR⟩ : ∃ R, R = S - mStep (wTyler p) X S := ⟨_, rfl⟩
  have e : ((r : 𝕜) • R) * ((r : 𝕜)⁻¹ • S⁻¹) = R * S⁻¹ := by
    rw [Matrix.smul_mul, Matrix.mul_smul, smul_smul, mul_inv_cancel₀ hr', one_smul]
  rw [mStep_tyler_smul X hS hr, hinv, ← smul_sub, ← hR, e]

theorem tyGradSq_mul {G S : Matrix (Fin p) (Fin p) 𝕜} (hG : IsUnit G) :
    tyGradSq (X * Gᵀ) (G * S * Gᴴ) = tyGradSq X S := by
  have hd := (isUnit_iff_isUnit_det _).1 hG
  have hd' : IsUnit Gᴴ.det := by rw [det_conjTranspose]; exact hd.star
  have hinv : (G * S * Gᴴ)⁻¹ = (Gᴴ)⁻¹ * (S⁻¹ * G⁻¹) := by
    rw [Matrix.mul_inv_rev, Matrix.mul_inv_rev]
  unfold tyGradSq
  rw [mStep_equivariant _ X G hG, hinv, ← Matrix.sub_mul, ← Matrix.mul_sub]
  obtain ⟨R, hR⟩ : ∃ R, R = S - mStep (wTyler p) X S := ⟨_, rfl⟩
  rw [← hR]
  have e : G * R * Gᴴ * ((Gᴴ)⁻¹ * (S⁻¹ * G⁻¹)) = G * (R * S⁻¹) * G⁻¹ := by
    rw [show G * R * Gᴴ * ((Gᴴ)⁻¹ * (S⁻¹ * G⁻¹)) = G * R * (Gᴴ * (Gᴴ)⁻¹) * (S⁻¹ * G⁻¹) by
      simp only [Matrix.mul_assoc], Matrix.mul_nonsing_inv _ hd', Matrix.mul_one]
    simp only [Matrix.mul_assoc]
  rw [e, show G * (R * S⁻¹) * G⁻¹ * (G * (R * S⁻¹) * G⁻¹) =
    G * ((R * S⁻¹) * (G⁻¹ * G) * (R * S⁻¹) * G⁻¹) by simp only [Matrix.mul_assoc],
    Matrix.nonsing_inv_mul _ hd, Matrix.mul_one, trace_mul_comm,
    Matrix.mul_assoc, Matrix.nonsing_inv_mul _ hd, Matrix.mul_one]

/-- When the identity is Tyler's estimate, a matrix with a small gradient is nearly a multiple of it. -/
theorem mDev_le_grad (hp : 0 < p) (hn : NonzeroSamples X) (hI : Indecomposable X)
    (hfix : scatter (unitW X) X = 1) : ∃ κ : ℝ, 0 < κ ∧ ∀ A : Matrix (Fin p) (Fin p) 𝕜, A.PosDef →
      Real.sqrt (tyGradSq X A) < κ → frob (mDev A) ≤ κ⁻¹ * Real.sqrt (tyGradSq X A) := by
  obtain ⟨q, -, hq1, hgap⟩ := tyler_gap hp hn hI hfix
  have hp' : (0 : ℝ) < p := by exact_mod_cast hp
  have hk : 0 < Real.exp (-1) * (1 - q) := mul_pos (Real.exp_pos _) (by linarith)
  refine ⟨Real.exp (-1) * (1 - q) / 2, by linarith, fun A hA hg => ?_⟩
  obtain ⟨e, he⟩ := IsHermitian.exists_valid hA.1
  have hl := he.vals_pos hA
  obtain ⟨r, hr⟩ : ∃ r, r = Real.exp (-((∑ j, Real.log (e.vals j)) / p)) := ⟨_, rfl⟩
  have hr0 : 0 < r := by rw [hr]; exact Real.exp_pos _
  have hrA : ((r : 𝕜) • A).PosDef := hA.smul (by exact_mod_cast hr0)
  have he' : EigRes.Valid ⟨fun i => r * e.vals i, e.vecs⟩ ((r : 𝕜) • A) := by
    have h1 := he.fn_valid fun x => r * x
    have h2 : (e.fn fun x => r * x) = (r : 𝕜) • A := by
      have h3 : A = e.fn fun x => x := he.fn_id.symm
      conv_rhs => rw [h3]
      unfold EigRes.fn
      rw [← Matrix.smul_mul, ← Matrix.mul_smul, ← diagonal_smul]
      congr 3
      funext j
      simp
    rw [h2] at h1
    exact h1
  have h0 : ∑ j, Real.log (r * e.vals j) = 0 := by
    have : ∀ j, Real.log (r * e.vals j) = Real.log r + Real.log (e.vals j) := fun j =>
      Real.log_mul hr0.ne' (hl j).ne'
    have hlr : Real.log r = -((∑ j, Real.log (e.vals j)) / p) := by rw [hr, Real.log_exp]
    rw [Finset.sum_congr rfl fun j _ => this j, Finset.sum_add_distrib, hlr, Finset.sum_const,
      Finset.card_univ, Fintype.card_fin, nsmul_eq_mul]
    field_simp
    ring
  rw [← mDev_smul hr0.ne', ← tyGradSq_smul hA hr0]
  rw [← tyGradSq_smul hA hr0] at hg
  have h1 := tyler_grad_one hp hn hfix hq1 hgap hrA he' h0
  obtain ⟨ρ, hρ⟩ : ∃ ρ, ρ = frob (EigRes.fn ⟨fun i => r * e.vals i, e.vecs⟩ Real.log) := ⟨_, rfl⟩
  rw [← hρ] at h1
  have h2 : ρ ≤ 1 / 2 := by
    by_contra hc
    rw [min_eq_right (le_of_not_ge hc)] at h1
    linarith
  rw [min_eq_left h2] at h1
  refine (mDev_le_log hp hrA he' h0 (by rw [← hρ]; exact h2)).trans ?_
  rw [← hρ, inv_mul_eq_div, le_div_iff₀ (by linarith)]
  linarith

theorem shapeDev_le_grad (hp : 0 < p) (hn : NonzeroSamples X) (hI : Indecomposable X)
    {S G : Matrix (Fin p) (Fin p) 𝕜} (hfix : mStep (wTyler p) X S = S) (hG : Gᴴ = G) (hGu : IsUnit G)
    (hGS : G * S * Gᴴ = 1) : ∃ κ : ℝ, 0 < κ ∧ ∀ A : Matrix (Fin p) (Fin p) 𝕜, A.PosDef →
      Real.sqrt (tyGradSq X A) < κ → shapeDev G A ≤ κ⁻¹ * Real.sqrt (tyGradSq X A) := by
  have hone : scatter (unitW (X * Gᵀ)) (X * Gᵀ) = 1 := by
    rw [← mStep_one_eq, ← hGS, mStep_equivariant _ X G hGu, hfix]
  obtain ⟨κ, hκ, h⟩ := mDev_le_grad hp (nonzero_mul X hn G hGu) (indecomposable_mul hI hGu) hone
  refine ⟨κ, hκ, fun A hA hg => ?_⟩
  have hGA : (G * A * Gᴴ).PosDef :=
    hA.mul_mul_conjTranspose_same (Matrix.vecMul_injective_of_isUnit hGu)
  have h1 := h _ hGA (by rwa [tyGradSq_mul hGu])
  rw [tyGradSq_mul hGu, hG] at h1
  exact h1

/-! ### The derivative of Tyler's cost -/

theorem CurveDeriv.inv_near {n : ℕ} {c : ℝ → Matrix (Fin n) (Fin n) 𝕜} {c' : Matrix (Fin n) (Fin n) 𝕜}
    {t : ℝ} (hc : CurveDeriv c c' t) (hu : IsUnit (c t).det) :
    CurveDeriv (fun s => (c s)⁻¹) (-((c t)⁻¹ * c' * (c t)⁻¹)) t := by
  classical
  have hcont : ContinuousAt (fun s => (c s).det) t := hc.det.continuousAt
  have hev : ∀ᶠ s in 𝓝 t, (c s).det ≠ 0 :=
    hcont.eventually_ne (isUnit_iff_ne_zero.1 hu)
  set c2 : ℝ → Matrix (Fin n) (Fin n) 𝕜 := fun s => if (c s).det ≠ 0 then c s else c t with hc2
  have he : ∀ᶠ s in 𝓝 t, c2 s = c s := hev.mono fun s hs => if_pos hs
  have h2t : c2 t = c t := if_pos (isUnit_iff_ne_zero.1 hu)
  have hd : CurveDeriv c2 c' t := fun i j =>
    (hc i j).congr_of_eventuallyEq (he.mono fun s hs => by simp only [hs])
  have h2 := hd.inv (fun s => by
    rw [isUnit_iff_ne_zero]
    simp only [hc2]
    split_ifs with h
    · exact h
    · exact isUnit_iff_ne_zero.1 hu)
  rw [h2t] at h2
  exact fun i j => (h2 i j).congr_of_eventuallyEq (he.mono fun s hs => by simp only [hs])

theorem re_hasDerivAt {f : ℝ → 𝕜} {f' : 𝕜} {t : ℝ} (h : HasDerivAt f f' t) :
    HasDerivAt (fun s => RCLike.re (f s)) (RCLike.re f') t :=
  (RCLike.reCLM (K := 𝕜)).hasFDerivAt.comp_hasDerivAt t h

theorem qf_hasDerivAt {c : ℝ → Matrix (Fin p) (Fin p) 𝕜} {D : Matrix (Fin p) (Fin p) 𝕜}
    (hc : (c 0).PosDef) (hd : CurveDeriv c D 0) (x : Fin p → 𝕜) :
    HasDerivAt (fun t => qf (c t) x) (-qform ((c 0)⁻¹ * D * (c 0)⁻¹) x) 0 := by
  have hi := hd.inv_near ((isUnit_iff_isUnit_det _).1 hc.isUnit)
  have h3 : HasDerivAt (fun t => star x ⬝ᵥ (c t)⁻¹ *ᵥ x)
      (∑ i, star x i * ∑ j, (-((c 0)⁻¹ * D * (c 0)⁻¹)) i j * x j) 0 :=
    HasDerivAt.fun_sum fun i _ => by
      have h4 : HasDerivAt (fun t => ∑ j, (c t)⁻¹ i j * x j)
          (∑ j, (-((c 0)⁻¹ * D * (c 0)⁻¹)) i j * x j) 0 :=
        HasDerivAt.fun_sum fun j _ => (hi i j).mul_const (x j)
      exact h4.const_mul (star x i)
  refine (re_hasDerivAt h3).congr_deriv ?_
  unfold qform
  rw [← map_neg, ← dotProduct_neg, ← neg_mulVec]
  rfl

theorem logdet_hasDerivAt {c : ℝ → Matrix (Fin p) (Fin p) 𝕜} {D : Matrix (Fin p) (Fin p) 𝕜}
    (hc : (c 0).PosDef) (hd : CurveDeriv c D 0) :
    HasDerivAt (fun t => Real.log (RCLike.re (c t).det)) (RCLike.re ((c 0)⁻¹ * D).trace) 0 := by
  have hdet := RCLike.pos_iff.1 hc.det_pos
  have h := re_hasDerivAt (hd.det_of_isUnit ((isUnit_iff_isUnit_det _).1 hc.isUnit))
  refine (h.log hdet.1.ne').congr_deriv ?_
  rw [RCLike.mul_re, hdet.2, zero_mul, sub_zero, mul_div_cancel_left₀ _ hdet.1.ne']

/-- The derivative of Tyler's cost along a curve. -/
theorem tylerCost_hasDerivAt (hN : 0 < N) (hn : NonzeroSamples X)
    {c : ℝ → Matrix (Fin p) (Fin p) 𝕜} {D : Matrix (Fin p) (Fin p) 𝕜}
    (hc : (c 0).PosDef) (hd : CurveDeriv c D 0) :
    HasDerivAt (fun t => tylerCost X (c t))
      (N * RCLike.re ((c 0)⁻¹ * (c 0 - mStep (wTyler p) X (c 0)) * (c 0)⁻¹ * D).trace) 0 := by
  have h1 : HasDerivAt (fun t => ∑ i, Real.log (qf (c t) (sample X i)))
      (∑ i, -qform ((c 0)⁻¹ * D * (c 0)⁻¹) (sample X i) / qf (c 0) (sample X i)) 0 :=
    HasDerivAt.fun_sum fun i _ => (qf_hasDerivAt hc hd (sample X i)).log (qf_pos hc (hn i)).ne'
  unfold tylerCost
  refine ((h1.const_mul (p : ℝ)).add ((logdet_hasDerivAt hc hd).const_mul (N : ℝ))).congr_deriv ?_
  obtain ⟨S, hS⟩ : ∃ S, S = c 0 := ⟨_, rfl⟩
  rw [← hS] at hc ⊢
  have hu := (isUnit_iff_isUnit_det _).1 hc.isUnit
  have e1 : (S⁻¹ * (S - mStep (wTyler p) X S) * S⁻¹ * D) =
      S⁻¹ * D - S⁻¹ * (mStep (wTyler p) X S * S⁻¹ * D) := by
    rw [Matrix.mul_sub, Matrix.sub_mul, Matrix.sub_mul, Matrix.nonsing_inv_mul _ hu, Matrix.one_mul]
    simp only [Matrix.mul_assoc]
  have e2 : (S⁻¹ * (mStep (wTyler p) X S * S⁻¹ * D)).trace =
      ((S⁻¹ * D * S⁻¹) * mStep (wTyler p) X S).trace := by
    rw [trace_mul_comm, show mStep (wTyler p) X S * S⁻¹ * D * S⁻¹ =
      mStep (wTyler p) X S * (S⁻¹ * D * S⁻¹) by simp only [Matrix.mul_assoc], trace_mul_comm]
  rw [e1, trace_sub, map_sub, e2]
  unfold mStep
  have hN' : (N : ℝ) ≠ 0 := by exact_mod_cast hN.ne'
  rw [trace_scatter, mul_sub, ← mul_assoc, mul_inv_cancel₀ hN', one_mul, Finset.mul_sum, add_comm,
    sub_eq_add_neg, ← Finset.sum_neg_distrib]
  congr 1
  refine Finset.sum_congr rfl fun i _ => ?_
  unfold wTyler
  ring

/-- A curve of positive definite matrices through `S` in a given direction. -/
theorem exists_curve {S D : Matrix (Fin p) (Fin p) 𝕜} (hS : S.PosDef) (hD : D.IsHermitian) :
    ∃ c : ℝ → Matrix (Fin p) (Fin p) 𝕜, (∀ t, (c t).PosDef) ∧ c 0 = S ∧ CurveDeriv c D 0 := by
  obtain ⟨G, H, hG, hH, hGH, hHG, hHH, hGu, hGS⟩ := exists_whiten hS
  obtain ⟨P, hP⟩ : ∃ P, P = G * D * G := ⟨_, rfl⟩
  have hPH : P.IsHermitian := by
    rw [hP, IsHermitian, conjTranspose_mul, conjTranspose_mul, hG, hD.eq, Matrix.mul_assoc]
  have hHP : H * P * H = D := by
    rw [hP, show H * (G * D * G) * H = (H * G) * D * (G * H) by simp only [Matrix.mul_assoc], hHG, hGH,
      Matrix.one_mul, Matrix.mul_one]
  have hHu : IsUnit H := IsUnit.of_mul_eq_one G hHG
  obtain ⟨k, hk⟩ : ∃ k, k = frob P := ⟨_, rfl⟩
  have hk0 : 0 ≤ k := by rw [hk]; exact frob_nonneg _
  obtain ⟨s, hs⟩ : ∃ s : ℝ → ℝ, s = fun t => t / (1 + (k * t) ^ 2) := ⟨_, rfl⟩
  have hden : ∀ t : ℝ, 0 < 1 + (k * t) ^ 2 := fun t => by positivity
  have hs0 : s 0 = 0 := by rw [hs]; simp
  have hsb : ∀ t, |s t| * k ≤ 1 / 2 := fun t => by
    rw [hs]
    simp only
    rw [abs_div, abs_of_pos (hden t), div_mul_eq_mul_div, div_le_iff₀ (hden t)]
    have h1 : (k * t) ^ 2 = (|t| * k) ^ 2 := by rw [mul_pow, mul_pow, sq_abs]; ring
    rw [h1]
    nlinarith [sq_nonneg (|t| * k - 1)]
  have hsd : HasDerivAt s 1 0 := by
    have h1 : HasDerivAt (fun t : ℝ => 1 + (k * t) ^ 2) (0 + 2 * (k * 0) ^ 1 * (k * 1)) 0 :=
      (hasDerivAt_const 0 (1 : ℝ)).add (((hasDerivAt_id (0 : ℝ)).const_mul k).fun_pow 2)
    have h2 := (hasDerivAt_id (0 : ℝ)).fun_div h1 (hden 0).ne'
    rw [hs]
    refine h2.congr_deriv ?_
    simp
  refine ⟨fun t => H * (1 + (s t : 𝕜) • P) * H, fun t => ?_, ?_, ?_⟩
  · have h1 : ((s t : 𝕜) • P).IsHermitian := by
      rw [IsHermitian, conjTranspose_smul, hPH.eq, RCLike.star_def, RCLike.conj_ofReal]
    have h2 := (posDef_one_add h1 (by rw [frob_smul, ← hk]; exact hsb t)).2
    have h3 := h2.mul_mul_conjTranspose_same (Matrix.vecMul_injective_of_isUnit hHu)
    rwa [hH] at h3
  · simp only [hs0, RCLike.ofReal_zero, zero_smul, add_zero, Matrix.mul_one]
    exact hHH
  · have h1 : CurveDeriv (fun t => (1 : Matrix (Fin p) (Fin p) 𝕜) + (s t : 𝕜) • P) (0 + P) 0 := by
      refine (CurveDeriv.const 1 0).add fun i j => ?_
      have h2 := ((RCLike.ofRealCLM (K := 𝕜)).hasFDerivAt.comp_hasDerivAt 0 hsd).mul_const (P i j)
      simpa using h2
    have h2 := (h1.const_mul H).mul_const H
    rw [zero_add, hHP] at h2
    exact h2

/-! ### Gradients -/

theorem CurveDeriv.isHermitian {c : ℝ → Matrix (Fin p) (Fin p) 𝕜} {D : Matrix (Fin p) (Fin p) 𝕜}
    (hc : ∀ t, (c t).IsHermitian) (hd : CurveDeriv c D 0) : D.IsHermitian := by
  ext i j
  rw [conjTranspose_apply]
  have h1 : HasDerivAt (fun t => star (c t j i)) (star (D j i)) 0 := (hd j i).star
  have h2 : (fun t => star (c t j i)) = fun t => c t i j := by
    funext t
    exact congrFun (congrFun (hc t) i) j
  rw [h2] at h1
  exact h1.unique (hd i j)

/-- The Hermitian part of a gradient. -/
theorem re_trace_herm_part {G D : Matrix (Fin p) (Fin p) 𝕜} (hD : D.IsHermitian) :
    RCLike.re (Gᴴ * D).trace = RCLike.re (((1 / 2 : 𝕜) • (G + Gᴴ)) * D).trace := by
  have h1 : RCLike.re (G * D).trace = RCLike.re (Gᴴ * D).trace := by
    have h2 : (Gᴴ * D).trace = star (G * D).trace := by
      rw [← trace_conjTranspose, conjTranspose_mul, hD.eq, trace_mul_comm]
    rw [h2, RCLike.star_def, RCLike.conj_re]
  have h3 : (1 / 2 : 𝕜) = ((1 / 2 : ℝ) : 𝕜) := by push_cast; rfl
  rw [Matrix.smul_mul, trace_smul, smul_eq_mul, h3, RCLike.re_ofReal_mul, Matrix.add_mul, trace_add,
    map_add, h1]
  ring

theorem herm_part (G : Matrix (Fin p) (Fin p) 𝕜) : ((1 / 2 : 𝕜) • (G + Gᴴ)).IsHermitian := by
  rw [IsHermitian, conjTranspose_smul, conjTranspose_add, conjTranspose_conjTranspose, add_comm]
  congr 1
  simp

theorem isGradientAt_iff {cost : Matrix (Fin p) (Fin p) 𝕜 → Py CostVal} {k : ℝ}
    (hcost : ∀ S : Matrix (Fin p) (Fin p) 𝕜, S.PosDef → cost S = .ok (.fin (tylerCost X S + k)))
    (hN : 0 < N) (hn : NonzeroSamples X) {S : Matrix (Fin p) (Fin p) 𝕜} (hS : S.PosDef)
    (G : Matrix (Fin p) (Fin p) 𝕜) :
    IsGradientAt cost S G ↔ natGrad S G = (N : 𝕜) • (S - mStep (wTyler p) X S) := by
  obtain ⟨R, hR⟩ : ∃ R, R = S - mStep (wTyler p) X S := ⟨_, rfl⟩
  obtain ⟨F, hF⟩ : ∃ F, F = (1 / 2 : 𝕜) • (G + Gᴴ) := ⟨_, rfl⟩
  have hFH : F.IsHermitian := by rw [hF]; exact herm_part G
  have hRH : R.IsHermitian := by rw [hR]; exact hS.1.sub (scatter_isHermitian _ X)
  have hu := (isUnit_iff_isUnit_det _).1 hS.isUnit
  have hNr : (N : 𝕜) = ((N : ℝ) : 𝕜) := by push_cast; rfl
  have hiff : natGrad S G = (N : 𝕜) • R ↔ F = (N : 𝕜) • (S⁻¹ * R * S⁻¹) := by
    unfold natGrad
    rw [← hF]
    constructor
    · intro h
      have h1 : S⁻¹ * (S * F * S) * S⁻¹ = F := by
        rw [show S⁻¹ * (S * F * S) * S⁻¹ = (S⁻¹ * S) * F * (S * S⁻¹) by simp only [Matrix.mul_assoc],
          Matrix.nonsing_inv_mul _ hu, Matrix.mul_nonsing_inv _ hu, Matrix.one_mul, Matrix.mul_one]
      rw [← h1, h, Matrix.mul_smul, Matrix.smul_mul]
    · intro h
      rw [h, Matrix.mul_smul, Matrix.smul_mul,
        show S * (S⁻¹ * R * S⁻¹) * S = (S * S⁻¹) * R * (S⁻¹ * S) by simp only [Matrix.mul_assoc],
        Matrix.nonsing_inv_mul _ hu, Matrix.mul_nonsing_inv _ hu, Matrix.one_mul, Matrix.mul_one]
  have hder : ∀ (c : ℝ → Matrix (Fin p) (Fin p) 𝕜) (D : Matrix (Fin p) (Fin p) 𝕜),
      c 0 = S → CurveDeriv c D 0 → HasDerivAt (fun t => tylerCost X (c t) + k)
        (RCLike.re (((N : 𝕜) • (S⁻¹ * R * S⁻¹)) * D).trace) 0 := fun c D h0 hd => by
    have h := tylerCost_hasDerivAt hN hn (by rw [h0]; exact hS) hd
    rw [h0, ← hR] at h
    refine (h.add_const k).congr_deriv ?_
    rw [Matrix.smul_mul, trace_smul, smul_eq_mul, hNr, RCLike.re_ofReal_mul]
  rw [← hR, hiff]
  constructor
  · intro h
    obtain ⟨W, hW⟩ : ∃ W, W = F - (N : 𝕜) • (S⁻¹ * R * S⁻¹) := ⟨_, rfl⟩
    have hWH : W.IsHermitian := by
      rw [hW]
      refine hFH.sub ?_
      rw [IsHermitian, conjTranspose_smul, conjTranspose_mul, conjTranspose_mul,
        hS.inv.1.eq, hRH.eq, Matrix.mul_assoc]
      congr 1
      simp
    obtain ⟨c, hc, h0, hd⟩ := exists_curve hS hWH
    obtain ⟨f, hf, hfd⟩ := h c W hc h0 hd
    have hfe : f = fun t => tylerCost X (c t) + k := by
      funext t
      have := hf t
      rw [hcost _ (hc t)] at this
      exact (CostVal.fin.inj (Except.ok.inj this)).symm
    rw [hfe, re_trace_herm_part hWH, ← hF] at hfd
    have h1 := hfd.unique (hder c W h0 hd)
    have h2 : RCLike.re (W * W).trace = 0 := by
      have e : W * W = F * W - ((N : 𝕜) • (S⁻¹ * R * S⁻¹)) * W := by
        rw [← Matrix.sub_mul, ← hW]
      rw [e, trace_sub, map_sub, h1, sub_self]
    rw [re_trace_mul_self_frob hWH] at h2
    have h3 : W = 0 := (frob_eq_zero _).1 (pow_eq_zero_iff two_ne_zero |>.1 h2)
    rw [h3] at hW
    exact (sub_eq_zero.1 hW.symm)
  · intro h c D hc h0 hd
    refine ⟨fun t => tylerCost X (c t) + k, fun t => hcost _ (hc t), ?_⟩
    rw [re_trace_herm_part (CurveDeriv.isHermitian (fun t => (hc t).1) hd), ← hF, h]
    exact hder c D h0 hd

theorem exists_gradient (S : Matrix (Fin p) (Fin p) 𝕜) (hS : S.PosDef) :
    ∃ G : Matrix (Fin p) (Fin p) 𝕜, natGrad S G = (N : 𝕜) • (S - mStep (wTyler p) X S) := by
  have hu := (isUnit_iff_isUnit_det _).1 hS.isUnit
  obtain ⟨R, hR⟩ : ∃ R, R = (N : 𝕜) • (S - mStep (wTyler p) X S) := ⟨_, rfl⟩
  have hRH : R.IsHermitian := by
    have : (S - mStep (wTyler p) X S).IsHermitian := hS.1.sub (scatter_isHermitian _ X)
    rw [hR, IsHermitian, conjTranspose_smul, this.eq]
    congr 1
    simp
  refine ⟨S⁻¹ * R * S⁻¹, ?_⟩
  have h1 : (S⁻¹ * R * S⁻¹)ᴴ = S⁻¹ * R * S⁻¹ := by
    rw [conjTranspose_mul, conjTranspose_mul, hS.inv.1.eq, hRH.eq, Matrix.mul_assoc]
  have h2 : (1 / 2 : 𝕜) • (S⁻¹ * R * S⁻¹ + S⁻¹ * R * S⁻¹) = S⁻¹ * R * S⁻¹ := by
    rw [← two_smul 𝕜, smul_smul]
    norm_num
  unfold natGrad
  rw [h1, h2, show S * (S⁻¹ * R * S⁻¹) * S = (S * S⁻¹) * R * (S⁻¹ * S) by simp only [Matrix.mul_assoc],
    Matrix.nonsing_inv_mul _ hu, Matrix.mul_nonsing_inv _ hu, Matrix.one_mul, Matrix.mul_one, ← hR]

theorem lengthAt_tyler {S : Matrix (Fin p) (Fin p) 𝕜} :
    lengthAt S ((N : 𝕜) • (S - mStep (wTyler p) X S)) = N * Real.sqrt (tyGradSq X S) := by
  have hNr : (N : 𝕜) = ((N : ℝ) : 𝕜) := by push_cast; rfl
  obtain ⟨R, hR⟩ : ∃ R, R = S - mStep (wTyler p) X S := ⟨_, rfl⟩
  unfold lengthAt tyGradSq
  rw [← hR, hNr, Matrix.mul_smul, Matrix.smul_mul, Matrix.mul_smul, smul_smul, ← RCLike.ofReal_mul,
    trace_smul, smul_eq_mul, RCLike.re_ofReal_mul, Real.sqrt_mul (by positivity),
    Real.sqrt_mul_self (by positivity)]
  congr 3
  rw [show S⁻¹ * R * (S⁻¹ * R) = S⁻¹ * (R * S⁻¹ * R) by simp only [Matrix.mul_assoc], trace_mul_comm]
  simp only [Matrix.mul_assoc]

/-- A gradient at a minimiser is zero. -/
theorem minimises_gradient {cost : Matrix (Fin p) (Fin p) 𝕜 → Py CostVal}
    {S G : Matrix (Fin p) (Fin p) 𝕜} (hS : Minimises cost S) (hG : IsGradientAt cost S G) :
    natGrad S G = 0 := by
  obtain ⟨hS, v, hv, hmin⟩ := hS
  obtain ⟨F, hF⟩ : ∃ F, F = (1 / 2 : 𝕜) • (G + Gᴴ) := ⟨_, rfl⟩
  have hFH : F.IsHermitian := by rw [hF]; exact herm_part G
  obtain ⟨c, hc, h0, hd⟩ := exists_curve hS hFH
  obtain ⟨f, hf, hfd⟩ := hG c F hc h0 hd
  rw [re_trace_herm_part hFH, ← hF] at hfd
  have hloc : IsLocalMin f 0 := Filter.Eventually.of_forall fun t => by
    obtain ⟨v', hv', hle⟩ := hmin (c t) (hc t)
    have h1 : f 0 = v := by
      have := hf 0
      rw [h0, hv] at this
      exact (CostVal.fin.inj (Except.ok.inj this)).symm
    have h2 : f t = v' := by
      have := hf t
      rw [hv'] at this
      exact (CostVal.fin.inj (Except.ok.inj this)).symm
    rw [h1, h2]
    exact hle
  have h1 := hloc.hasDerivAt_eq_zero hfd
  rw [re_trace_mul_self_frob hFH] at h1
  have h3 : F = 0 := (frob_eq_zero _).1 (pow_eq_zero_iff two_ne_zero |>.1 h1)
  unfold natGrad
  rw [← hF, h3, Matrix.mul_zero, Matrix.zero_mul]

end

/-- A solver that finds minimisers meets every tolerance. -/
theorem SolverFinds.stops {L : Lib} {p : ℕ} {init : Option (Matrix (Fin p) (Fin p) ℝ)}
    (h : SolverFinds L p init) {ε : ℝ} (hε : 0 ≤ ε) : SolverStops L p init ε := fun cost hm hG => by
  obtain ⟨S, hS, hret⟩ := h cost hm
  obtain ⟨G, hG⟩ := hG S hS.1
  refine ⟨S, G, hS.1, hret, hG, ?_⟩
  rw [minimises_gradient hS hG]
  unfold lengthAt
  rw [Matrix.mul_zero, Matrix.mul_zero, trace_zero, map_zero, Real.sqrt_zero]
  exact hε

/-- What a solver with a small tolerance returns for Tyler's cost has nearly the shape of Tyler's
estimate. -/
theorem solver_near {N p : ℕ} {X : Matrix (Fin N) (Fin p) ℝ} (hN : 0 < N) (hp : 0 < p)
    (hn : NonzeroSamples X) (hI : Indecomposable X)
    {S0 G : Matrix (Fin p) (Fin p) ℝ} (hS0 : S0.PosDef)
    (hfix : mStep (wTyler p) X S0 = S0) (hG : Gᴴ = G) (hGu : IsUnit G) (hGS : G * S0 * Gᴴ = 1) :
    ∃ κ : ℝ, 0 < κ ∧ ∀ (L : Lib), (L.envR N p).eigh.Ok →
      ∀ (init : Option (Matrix (Fin p) (Fin p) ℝ)) (ε : ℝ), ε < κ → SolverStops L p init ε →
      ∃ S : Matrix (Fin p) (Fin p) ℝ, S.PosDef ∧ L.solve p (ngCost L X) init = .ok (.fin S) ∧
        shapeDev G S ≤ κ⁻¹ * ε := by
  obtain ⟨κ, hκ, h⟩ := shapeDev_le_grad hp hn hI hfix hG hGu hGS
  refine ⟨κ, hκ, fun L hs init ε hε hsol => ?_⟩
  obtain ⟨k, hk⟩ := ngCost_eq L hs hn
  obtain ⟨S, D, hS, hret, hD, hlen⟩ := hsol (ngCost L X)
    ⟨S0, (minimises_iff L hs hn S0).2 ⟨hS0, tyler_fix_minimises hn hS0 hfix⟩⟩ fun S hS => by
      obtain ⟨G, hG⟩ := exists_gradient (X := X) S hS
      exact ⟨G, (isGradientAt_iff hk hN hn hS G).2 hG⟩
  rw [(isGradientAt_iff hk hN hn hS D).1 hD, lengthAt_tyler] at hlen
  have hN1 : (1 : ℝ) ≤ N := by exact_mod_cast hN
  have hs0 := Real.sqrt_nonneg (tyGradSq X S)
  have h1 : Real.sqrt (tyGradSq X S) ≤ ε := by nlinarith
  exact ⟨S, hS, hret, (h S hS (lt_of_le_of_lt h1 hε)).trans
    (mul_le_mul_of_nonneg_left h1 (inv_pos.2 hκ).le)⟩

section
variable {𝕜 : Type} [RCLike 𝕜] {p : ℕ}

theorem shapeDev_scaled (hp : 0 < p) {S A G H : Matrix (Fin p) (Fin p) 𝕜} (hG : Gᴴ = G)
    (hGH : G * H = 1) (hHG : H * G = 1) (hHH : H * H = S) (hGu : IsUnit G) (hA : A.PosDef) :
    ∃ s : ℝ, 0 < s ∧ frob ((s : 𝕜) • A - S) ≤ frob H * frob H * shapeDev G A := by
  have hGA : (G * A * G).PosDef := by
    have := hA.mul_mul_conjTranspose_same (Matrix.vecMul_injective_of_isUnit hGu)
    rwa [hG] at this
  have hs := mScale_pos hp hGA
  obtain ⟨s, hsdef⟩ : ∃ s, s = mScale (G * A * G) := ⟨_, rfl⟩
  rw [← hsdef] at hs
  refine ⟨s⁻¹, inv_pos.2 hs, ?_⟩
  have e : ((s⁻¹ : ℝ) : 𝕜) • A - S = H * mDev (G * A * G) * H := by
    unfold mDev
    rw [← hsdef, Matrix.mul_sub, Matrix.sub_mul, Matrix.mul_smul, Matrix.smul_mul, Matrix.mul_one, hHH,
      show H * (G * A * G) * H = (H * G) * A * (G * H) by simp only [Matrix.mul_assoc], hHG, hGH,
      Matrix.one_mul, Matrix.mul_one]
  rw [e]; exact frob_sandwich H _

theorem posDef_near {Q : Matrix (Fin p) (Fin p) 𝕜} (hQ : Q.PosDef) :
    ∃ δ : ℝ, 0 < δ ∧ ∀ T : Matrix (Fin p) (Fin p) 𝕜, T.IsHermitian → frob (T - Q) ≤ δ → T.PosDef := by
  obtain ⟨c, hc, h⟩ := squeezed_of_frob hQ
  refine ⟨1 / (2 * c), by positivity, fun T hT hf => ?_⟩
  have h1 := (h Q (T - Q) (hT.sub hQ.1)).1
  rw [add_sub_cancel] at h1
  refine h1.posDef ?_
  have h2 : c * frob (T - Q) ≤ 1 / 2 := by
    have := mul_le_mul_of_nonneg_left hf (by linarith : 0 ≤ c)
    have e : c * (1 / (2 * c)) = 1 / 2 := by field_simp
    linarith
  have e : Q - ((c * frob (T - Q) : ℝ) : 𝕜) • Q = ((1 - c * frob (T - Q) : ℝ) : 𝕜) • Q := by
    rw [RCLike.ofReal_sub, sub_smul, RCLike.ofReal_one, one_smul]
  rw [e]
  exact hQ.smul (by exact_mod_cast (by linarith : (0 : ℝ) < 1 - c * frob (T - Q)))

end

theorem ngToComplex_smul {p : ℕ} (r : ℝ) (S : Matrix (Fin (p + p)) (Fin (p + p)) ℝ) :
    ngToComplex (r • S) = (r : ℂ) • ngToComplex S := by
  ext i j
  rw [Matrix.smul_apply, ngToComplex_apply, ngToComplex_apply]
  apply Complex.ext <;> simp [-Fin.natAdd_eq_addNat] <;> ring

theorem ngToComplex_sub {p : ℕ} (S T : Matrix (Fin (p + p)) (Fin (p + p)) ℝ) :
    ngToComplex (S - T) = ngToComplex S - ngToComplex T := by
  ext i j
  rw [Matrix.sub_apply, ngToComplex_apply, ngToComplex_apply, ngToComplex_apply]
  apply Complex.ext <;> simp only [Matrix.sub_apply, Complex.sub_re, Complex.sub_im] <;> ring

theorem ngToComplex_herm {p : ℕ} (S : Matrix (Fin (p + p)) (Fin (p + p)) ℝ) :
    (ngToComplex S).IsHermitian := by
  ext i j
  rw [conjTranspose_apply, ngToComplex_apply, ngToComplex_apply]
  apply Complex.ext <;> simp [-Fin.natAdd_eq_addNat] <;> ring

theorem frob_ngToComplex {p : ℕ} (E : Matrix (Fin (p + p)) (Fin (p + p)) ℝ) :
    frob (ngToComplex E) ≤ 2 * frob E := by
  have h0 : frob E ^ 2 = ∑ i, ∑ j, E i j ^ 2 := by
    unfold frob
    rw [Real.sq_sqrt (Finset.sum_nonneg fun i _ => Finset.sum_nonneg fun j _ => sq_nonneg _)]
    simp only [Real.norm_eq_abs, sq_abs]
  have h1 : frob (ngToComplex E) ^ 2 ≤ (2 * frob E) ^ 2 := by
    rw [mul_pow, h0]
    unfold frob
    rw [Real.sq_sqrt (Finset.sum_nonneg fun i _ => Finset.sum_nonneg fun j _ => sq_nonneg _)]
    obtain ⟨a, ha⟩ : ∃ a : Fin p → Fin p → ℝ, a = fun i j => E (Fin.castAdd p i) (Fin.castAdd p j) :=
      ⟨_, rfl⟩
    obtain ⟨b, hb⟩ : ∃ b : Fin p → Fin p → ℝ, b = fun i j => E (Fin.natAdd p i) (Fin.castAdd p j) :=
      ⟨_, rfl⟩
    have h2 : ∀ i j, ‖ngToComplex E i j‖ ^ 2 ≤
        2 * (a i j ^ 2 + b i j ^ 2) + 2 * (a j i ^ 2 + b j i ^ 2) := fun i j => by
      rw [ngToComplex_apply, ← Complex.normSq_eq_norm_sq, Complex.normSq_mk, ha, hb]
      simp only
      nlinarith [sq_nonneg (E (Fin.castAdd p i) (Fin.castAdd p j) - E (Fin.castAdd p j) (Fin.castAdd p i)),
        sq_nonneg (E (Fin.natAdd p i) (Fin.castAdd p j) + E (Fin.natAdd p j) (Fin.castAdd p i))]
    have h3 : ∑ i, ∑ j, (a i j ^ 2 + b i j ^ 2) ≤ ∑ i, ∑ j, E i j ^ 2 := by
      rw [Fin.sum_univ_add]
      simp only [Fin.sum_univ_add, Finset.sum_add_distrib, ha, hb]
      have h4 : 0 ≤ ∑ i : Fin p, ∑ j : Fin p, E (Fin.castAdd p i) (Fin.natAdd p j) ^ 2 :=
        Finset.sum_nonneg fun i _ => Finset.sum_nonneg fun j _ => sq_nonneg _
      have h5 : 0 ≤ ∑ i : Fin p, ∑ j : Fin p, E (Fin.natAdd p i) (Fin.natAdd p j) ^ 2 :=
        Finset.sum_nonneg fun i _ => Finset.sum_nonneg fun j _ => sq_nonneg _
      linarith
    have h6 : ∑ i, ∑ j, ‖ngToComplex E i j‖ ^ 2 ≤
        ∑ i, ∑ j, (2 * (a i j ^ 2 + b i j ^ 2) + 2 * (a j i ^ 2 + b j i ^ 2)) :=
      Finset.sum_le_sum fun i _ => Finset.sum_le_sum fun j _ => h2 i j
    have h7 : ∑ i, ∑ j, (2 * (a i j ^ 2 + b i j ^ 2) + 2 * (a j i ^ 2 + b j i ^ 2)) =
        4 * ∑ i, ∑ j, (a i j ^ 2 + b i j ^ 2) := by
      have h8 : ∑ i, ∑ j, 2 * (a j i ^ 2 + b j i ^ 2) = ∑ i, ∑ j, 2 * (a i j ^ 2 + b i j ^ 2) :=
        Finset.sum_comm
      have h9 : ∑ i, ∑ j, (2 * (a i j ^ 2 + b i j ^ 2) + 2 * (a j i ^ 2 + b j i ^ 2)) =
          ∑ i, ∑ j, 2 * (a i j ^ 2 + b i j ^ 2) + ∑ i, ∑ j, 2 * (a j i ^ 2 + b j i ^ 2) := by
        rw [← Finset.sum_add_distrib]
        exact Finset.sum_congr rfl fun i _ => Finset.sum_add_distrib
      rw [h9, h8]
      simp only [← Finset.mul_sum]
      ring
    linarith
  exact le_of_abs_le (abs_le_of_sq_le_sq h1 (mul_nonneg (by norm_num) (frob_nonneg _)))

end RS
