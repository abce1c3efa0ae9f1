import Verif.Spec.Structured
import Verif.Lemmas.Cost
import Verif.Lemmas.FixedPoint
import Verif.Props.Linalg

/-! Lemmas about the Kronecker-structured estimators. -/
set_option autoImplicit false

namespace RS
open Matrix ComplexOrder
open scoped Kronecker

section
variable {𝕜 : Type} [RCLike 𝕜] {N a b : ℕ}

/-! ## Kronecker products -/

theorem npKron_eq (A : Matrix (Fin a) (Fin a) 𝕜) (B : Matrix (Fin b) (Fin b) 𝕜) :
    npKron A B = kron A B := rfl

omit [RCLike 𝕜] in
theorem reshapeF_eq (x : Fin (a * b) → 𝕜) (h : a * b = a * b) : reshapeF h x = unstack x := by
  ext r c
  simp only [reshapeF, unstack, of_apply]
  congr 1

theorem kron_posDef {A : Matrix (Fin a) (Fin a) 𝕜} {B : Matrix (Fin b) (Fin b) 𝕜} (hA : A.PosDef)
    (hB : B.PosDef) : (kron A B).PosDef :=
  (hA.kronecker hB).submatrix finProdFinEquiv.symm.injective

theorem kron_inv {A : Matrix (Fin a) (Fin a) 𝕜} {B : Matrix (Fin b) (Fin b) 𝕜} :
    (kron A B)⁻¹ = kron A⁻¹ B⁻¹ := by
  unfold kron
  rw [Matrix.inv_submatrix_equiv, Matrix.inv_kronecker]

theorem det_kron (A : Matrix (Fin a) (Fin a) 𝕜) (B : Matrix (Fin b) (Fin b) 𝕜) :
    (kron A B).det = A.det ^ b * B.det ^ a := by
  unfold kron
  rw [Matrix.det_submatrix_equiv_self, Matrix.det_kronecker]
  simp

/-- The quadratic form of a Kronecker product. -/
theorem quad_kron (P : Matrix (Fin a) (Fin a) 𝕜) (Q : Matrix (Fin b) (Fin b) 𝕜)
    (x : Fin (a * b) → 𝕜) :
    star x ⬝ᵥ (kron P Q *ᵥ x) = trace (Pᵀ * ((unstack x)ᴴ * Q * unstack x)) := by
  have e : ∀ y : Fin (a * b) → 𝕜, ∀ f : Fin (a * b) → 𝕜, f ⬝ᵥ y =
      ∑ c, ∑ r, f (finProdFinEquiv (c, r)) * y (finProdFinEquiv (c, r)) := fun y f => by
    rw [dotProduct, ← Equiv.sum_comp finProdFinEquiv, Fintype.sum_prod_type]
  rw [e]
  simp only [mulVec, e, trace, diag_apply, Matrix.mul_apply, transpose_apply, kron,
    submatrix_apply, Equiv.symm_apply_apply, kroneckerMap_apply, unstack, of_apply,
    conjTranspose_apply, Pi.star_apply, Finset.mul_sum, Finset.sum_mul]
  rw [Finset.sum_congr rfl fun c _ => Finset.sum_comm]
  rw [Finset.sum_comm]
  refine Finset.sum_congr rfl fun c' _ => Finset.sum_congr rfl fun c _ => ?_
  rw [Finset.sum_comm]
  refine Finset.sum_congr rfl fun r' _ => Finset.sum_congr rfl fun r _ => ?_
  ring

theorem transpose_posDef {A : Matrix (Fin a) (Fin a) 𝕜} (hA : A.PosDef) : Aᵀ.PosDef := by
  exact hA.transpose

/-! ## Square roots and traces -/

theorem exists_pd_root {n : ℕ} {S : Matrix (Fin n) (Fin n) 𝕜} (hS : S.PosDef) :
    ∃ R : Matrix (Fin n) (Fin n) 𝕜, R.PosDef ∧ R * R = S := by
  obtain ⟨e, he⟩ := eigh_exists (ι := Fin n) (𝕜 := 𝕜)
  exact ⟨sqrtm e S, C08_sqrtm_posDef e he S hS, C08_sqrtm_mul_self e he S hS.posSemidef⟩

/-- The trace of the weights as a sum of squares. -/
theorem trace_den {A : Matrix (Fin a) (Fin a) 𝕜} {B : Matrix (Fin b) (Fin b) 𝕜} (hA : A.PosDef)
    (hB : B.PosDef) (M : Matrix (Fin b) (Fin a) 𝕜) :
    ∃ r : ℝ, trace (A⁻¹ * (Mᴴ * B⁻¹ * M)) = (r : 𝕜) ∧ 0 ≤ r ∧ (M ≠ 0 → 0 < r) := by
  obtain ⟨L, hL, hLL⟩ := exists_pd_root hA.inv
  obtain ⟨K, hK, hKK⟩ := exists_pd_root hB.inv
  have e : trace (A⁻¹ * (Mᴴ * B⁻¹ * M)) = trace ((K * M * L)ᴴ * (K * M * L)) := by
    rw [← hLL, ← hKK, conjTranspose_mul, conjTranspose_mul, hL.1.eq, hK.1.eq]
    rw [Matrix.mul_assoc L L, trace_mul_comm]
    simp only [Matrix.mul_assoc]
  have e2 : trace ((K * M * L)ᴴ * (K * M * L)) =
      ((∑ j, ∑ i, ‖(K * M * L) i j‖ ^ 2 : ℝ) : 𝕜) := by
    simp only [trace, diag_apply, Matrix.mul_apply (M := (K * M * L)ᴴ), conjTranspose_apply]
    push_cast
    refine Finset.sum_congr rfl fun j _ => Finset.sum_congr rfl fun i _ => ?_
    rw [RCLike.star_def, RCLike.conj_mul]
  refine ⟨_, e.trans e2, by positivity, fun hM => ?_⟩
  rcases (show 0 ≤ ∑ j, ∑ i, ‖(K * M * L) i j‖ ^ 2 by positivity).lt_or_eq with h | h
  · exact h
  · exfalso
    apply hM
    have h0 : K * M * L = 0 := by
      rw [eq_comm, Finset.sum_eq_zero_iff_of_nonneg (fun _ _ => by positivity)] at h
      ext i j
      have := (Finset.sum_eq_zero_iff_of_nonneg (fun _ _ => by positivity)).1 (h j (by simp)) i
        (by simp)
      simpa using this
    have h1 : K * M = 0 := by
      have := congrArg (· * L⁻¹) h0
      simpa [Matrix.mul_assoc, mul_nonsing_inv L ((isUnit_iff_isUnit_det L).1 hL.isUnit)] using this
    have := congrArg (K⁻¹ * ·) h1
    simpa [← Matrix.mul_assoc, nonsing_inv_mul K ((isUnit_iff_isUnit_det K).1 hK.isUnit)] using this

/-- The same trace seen from the other side. -/
theorem trace_swap (P : Matrix (Fin a) (Fin a) 𝕜) (Q : Matrix (Fin b) (Fin b) 𝕜)
    (M : Matrix (Fin b) (Fin a) 𝕜) :
    trace (P * (Mᴴ * Q * M)) = trace (Q * (M * P * Mᴴ)) := by
  rw [trace_mul_comm, Matrix.mul_assoc, Matrix.mul_assoc, trace_mul_comm, Matrix.mul_assoc,
    Matrix.mul_assoc]

theorem pyInv_posDef {n : ℕ} {A : Matrix (Fin n) (Fin n) 𝕜} (hA : A.PosDef) :
    pyInv A = .ok A⁻¹ := by
  unfold pyInv
  rw [if_pos ((isUnit_iff_isUnit_det A).1 hA.isUnit)]

/-- Solving `Y A⁻¹ Y = S` with square roots, and uniqueness of the solution. -/
theorem riccati {n : ℕ} {A S rA R : Matrix (Fin n) (Fin n) 𝕜} (hr : rA.PosDef)
    (hrr : rA * rA = A) (hR : R.PosDef) (hRR : R * R = rA⁻¹ * S * rA⁻¹) :
    (rA * R * rA).PosDef ∧ (rA * R * rA) * A⁻¹ * (rA * R * rA) = S ∧
    ∀ Y : Matrix (Fin n) (Fin n) 𝕜, Y.PosDef → Y * A⁻¹ * Y = S → Y = rA * R * rA := by
  have hu := (isUnit_iff_isUnit_det rA).1 hr.isUnit
  have h1 : rA⁻¹ * rA = 1 := nonsing_inv_mul _ hu
  have h2 : rA * rA⁻¹ = 1 := mul_nonsing_inv _ hu
  have hinv : A⁻¹ = rA⁻¹ * rA⁻¹ := by rw [← hrr, Matrix.mul_inv_rev]
  have c1 : ∀ Z : Matrix (Fin n) (Fin n) 𝕜, rA * (rA⁻¹ * Z) = Z := fun Z => by
    rw [← Matrix.mul_assoc, h2, Matrix.one_mul]
  have c2 : ∀ Z : Matrix (Fin n) (Fin n) 𝕜, rA⁻¹ * (rA * Z) = Z := fun Z => by
    rw [← Matrix.mul_assoc, h1, Matrix.one_mul]
  have hRR' : ∀ Z, R * (R * Z) = rA⁻¹ * (S * (rA⁻¹ * Z)) := fun Z => by
    rw [← Matrix.mul_assoc, hRR, Matrix.mul_assoc, Matrix.mul_assoc]
  refine ⟨?_, ?_, fun Y hY hYS => ?_⟩
  · have := hR.mul_mul_conjTranspose_same (B := rA)
      (vecMul_injective_of_isUnit hr.isUnit)
    rwa [hr.1.eq] at this
  · rw [hinv]
    simp only [Matrix.mul_assoc, c2, c1, hRR', h1, Matrix.mul_one]
  · have hi : (rA⁻¹).PosDef := hr.inv
    have hP : (rA⁻¹ * Y * rA⁻¹).PosDef := by
      have := hY.mul_mul_conjTranspose_same (B := rA⁻¹) (vecMul_injective_of_isUnit hi.isUnit)
      rwa [hi.1.eq] at this
    have hPP : (rA⁻¹ * Y * rA⁻¹) * (rA⁻¹ * Y * rA⁻¹) = rA⁻¹ * S * rA⁻¹ := by
      rw [← hYS, hinv]
      simp only [Matrix.mul_assoc]
    have := psd_sqrt_unique hP.posSemidef hR.posSemidef hPP hRR
    rw [← this]
    simp only [Matrix.mul_assoc, c1, h1, Matrix.mul_one]

/-- A positive combination of positive semidefinite matrices without common kernel. -/
theorem posDef_sum {n : ℕ} (C : Fin N → Matrix (Fin n) (Fin n) 𝕜) (hC : ∀ i, (C i).PosSemidef)
    (hk : ∀ v, (∀ i, C i *ᵥ v = 0) → v = 0) (w : Fin N → ℝ) (hw : ∀ i, 0 < w i) :
    (∑ i, (w i : 𝕜) • C i).PosDef := by
  have hps : ∀ i, ((w i : 𝕜) • C i).PosSemidef := fun i =>
    (hC i).smul (by exact_mod_cast (hw i).le)
  have hsum : (∑ i, (w i : 𝕜) • C i).PosSemidef := posSemidef_sum _ fun i _ => hps i
  refine PosDef.of_dotProduct_mulVec_pos hsum.1 fun x hx => ?_
  refine lt_of_le_of_ne (hsum.dotProduct_mulVec_nonneg x) fun h0 => hx ?_
  apply hk
  rw [Matrix.sum_mulVec, dotProduct_sum, eq_comm,
    Finset.sum_eq_zero_iff_of_nonneg fun i _ => (hps i).dotProduct_mulVec_nonneg x] at h0
  intro i
  have h1 := h0 i (Finset.mem_univ i)
  rw [smul_mulVec, dotProduct_smul, smul_eq_mul, mul_eq_zero] at h1
  rcases h1 with h1 | h1
  · exact absurd h1 (by exact_mod_cast (hw i).ne')
  · exact ((hC i).dotProduct_mulVec_zero_iff x).1 h1

theorem num_posSemidef {B : Matrix (Fin b) (Fin b) 𝕜} (hB : B.PosDef)
    (M : Matrix (Fin b) (Fin a) 𝕜) : (Mᴴ * B⁻¹ * M).PosSemidef :=
  hB.inv.posSemidef.conjTranspose_mul_mul_same M

theorem num_ker {B : Matrix (Fin b) (Fin b) 𝕜} (hB : B.PosDef) (M : Matrix (Fin b) (Fin a) 𝕜)
    (v : Fin a → 𝕜) (h : (Mᴴ * B⁻¹ * M) *ᵥ v = 0) : M *ᵥ v = 0 := by
  by_contra hne
  have := hB.inv.dotProduct_mulVec_pos hne
  have e : star (M *ᵥ v) ⬝ᵥ (B⁻¹ *ᵥ (M *ᵥ v)) = star v ⬝ᵥ ((Mᴴ * B⁻¹ * M) *ᵥ v) := by
    rw [star_mulVec, ← dotProduct_mulVec, mulVec_mulVec, mulVec_mulVec, Matrix.mul_assoc]
  rw [e, h, dotProduct_zero] at this
  exact lt_irrefl _ this

theorem scatterA_posDef {M : Fin N → Matrix (Fin b) (Fin a) 𝕜} (hM : KronData M) (hN : 0 < N)
    (ha : 0 < a) {A : Matrix (Fin a) (Fin a) 𝕜} {B : Matrix (Fin b) (Fin b) 𝕜} (hA : A.PosDef)
    (hB : B.PosDef) : (scatterA M A B).PosDef := by
  choose r h1 h2 h3 using fun i => trace_den hA hB (M i)
  have e : scatterA M A B = ∑ i, (((a : ℝ) / N * (r i)⁻¹ : ℝ) : 𝕜) • ((M i)ᴴ * B⁻¹ * M i) := by
    unfold scatterA
    rw [Finset.smul_sum]
    refine Finset.sum_congr rfl fun i _ => ?_
    rw [h1, smul_smul]
    push_cast
    rfl
  rw [e]
  have ha' : (0 : ℝ) < a := by exact_mod_cast ha
  have hN' : (0 : ℝ) < N := by exact_mod_cast hN
  exact posDef_sum _ (fun i => num_posSemidef hB _)
    (fun v hv => hM.cols v fun i => num_ker hB _ _ (hv i)) _
    fun i => by have := h3 i (hM.nonzero i); positivity

theorem scatterB_posDef {M : Fin N → Matrix (Fin b) (Fin a) 𝕜} (hM : KronData M) (hN : 0 < N)
    (hb : 0 < b) {A : Matrix (Fin a) (Fin a) 𝕜} {B : Matrix (Fin b) (Fin b) 𝕜} (hA : A.PosDef)
    (hB : B.PosDef) : (scatterB M A B).PosDef := by
  choose r h1 h2 h3 using fun i => trace_den hA hB (M i)
  have e : scatterB M A B = ∑ i, (((b : ℝ) / N * (r i)⁻¹ : ℝ) : 𝕜) • ((M i)ᴴᴴ * A⁻¹ * (M i)ᴴ) := by
    unfold scatterB
    rw [Finset.smul_sum]
    refine Finset.sum_congr rfl fun i _ => ?_
    rw [h1, smul_smul, conjTranspose_conjTranspose]
    push_cast
    rfl
  rw [e]
  have hb' : (0 : ℝ) < b := by exact_mod_cast hb
  have hN' : (0 : ℝ) < N := by exact_mod_cast hN
  exact posDef_sum _ (fun i => num_posSemidef hA _)
    (fun v hv => hM.rows v fun i => num_ker hA _ _ (hv i)) _
    fun i => by have := h3 i (hM.nonzero i); positivity

theorem kronData_pos {M : Fin N → Matrix (Fin b) (Fin a) 𝕜} (hM : KronData M) (ha : 0 < a) :
    0 < N := by
  rcases Nat.eq_zero_or_pos N with h | h
  · subst h
    have := congrFun (hM.cols (fun _ => 1) fun i => i.elim0) ⟨0, ha⟩
    simp at this
  · exact h

theorem sandwich_posDef {n : ℕ} {S r : Matrix (Fin n) (Fin n) 𝕜} (hS : S.PosDef) (hr : r.PosDef) :
    (r⁻¹ * S * r⁻¹).PosDef := by
  have := hS.mul_mul_conjTranspose_same (B := r⁻¹) (vecMul_injective_of_isUnit hr.inv.isUnit)
  rwa [hr.inv.1.eq] at this

/-- One pass through the loop body. -/
theorem kronStep_ok (sq : Sqrtm 𝕜) (hsq : SqrtmPD sq) {M : Fin N → Matrix (Fin b) (Fin a) 𝕜}
    (hM : KronData M) (ha : 0 < a) (hb : 0 < b) {A : Matrix (Fin a) (Fin a) 𝕜}
    {B : Matrix (Fin b) (Fin b) 𝕜} (hA : A.PosDef) (hB : B.PosDef) :
    ∃ A' B', kronStep sq M A A⁻¹ B = .ok (A', A'⁻¹, B') ∧ KronUpdate M A A' B B' := by
  have hN := kronData_pos hM ha
  obtain ⟨rA, e1, hrA, hrrA⟩ := hsq a A hA
  obtain ⟨rB, e2, hrB, hrrB⟩ := hsq b B hB
  have hSA := scatterA_posDef hM hN ha hA hB
  obtain ⟨R, e3, hR, hRR⟩ := hsq a _ (sandwich_posDef hSA hrA)
  obtain ⟨k1, k2, k3⟩ := riccati hrA hrrA hR hRR
  have hSB := scatterB_posDef hM hN hb k1 hB
  obtain ⟨R', e4, hR', hRR'⟩ := hsq b _ (sandwich_posDef hSB hrB)
  obtain ⟨l1, l2, l3⟩ := riccati hrB hrrB hR' hRR'
  refine ⟨rA * R * rA, rB * R' * rB, ?_, ⟨k1, k2, k3, l1, l2, l3⟩⟩
  have hden : ∀ {A : Matrix (Fin a) (Fin a) 𝕜}, A.PosDef →
      ¬ ∃ i, trace (A⁻¹ * ((M i)ᴴ * B⁻¹ * M i)) = 0 := by
    rintro A hA ⟨i, hi⟩
    obtain ⟨r, h1, h2, h3⟩ := trace_den hA hB (M i)
    rw [h1] at hi
    exact (h3 (hM.nonzero i)).ne' (by exact_mod_cast hi)
  have eA : ∑ i, ((a : 𝕜) / (N : 𝕜)) • ((trace (A⁻¹ * ((M i)ᴴ * B⁻¹ * M i)))⁻¹ •
      ((M i)ᴴ * B⁻¹ * M i)) = scatterA M A B := by rw [scatterA, Finset.smul_sum]
  have eB : ∑ i, ((b : 𝕜) / (N : 𝕜)) • ((trace ((rA * R * rA)⁻¹ * ((M i)ᴴ * B⁻¹ * M i)))⁻¹ •
      (M i * (rA * R * rA)⁻¹ * (M i)ᴴ)) = scatterB M (rA * R * rA) B := by
    rw [scatterB, Finset.smul_sum]
  simp only [kronStep, bind, Except.bind, pyInv_posDef hB, e1, e2, pyInv_posDef hrA,
    pyInv_posDef hrB, if_neg (hden hA), eA, e3, pyInv_posDef k1, if_neg (hden k1), eB, e4, pure,
    Except.pure]

/-! ## The majorisation step -/

theorem trace_sq_ge {n : ℕ} {A A' : Matrix (Fin n) (Fin n) 𝕜} (hA : A.PosDef) (hA' : A'.PosDef) :
    2 * RCLike.re (trace (A⁻¹ * A')) - n ≤ RCLike.re (trace (A⁻¹ * (A' * A⁻¹ * A'))) := by
  obtain ⟨G, l, hG, hl, h1, h2⟩ := simultaneous A A' hA hA'
  have hGu := (isUnit_iff_isUnit_det G).1 hG
  have hiA : A⁻¹ = Gᴴ * G := by
    have hGH : IsUnit Gᴴ.det := by rw [det_conjTranspose]; exact hGu.star
    apply inv_eq_left_inv
    have : Gᴴ * G * A * Gᴴ = Gᴴ := by
      rw [Matrix.mul_assoc Gᴴ G A, Matrix.mul_assoc, h1, Matrix.mul_one]
    have := congrArg (· * (Gᴴ)⁻¹) this
    simpa [Matrix.mul_assoc, mul_nonsing_inv _ hGH] using this
  have t1 : trace (A⁻¹ * A') = trace (diagonal fun j => (l j : 𝕜)) := by
    rw [hiA, ← h2, Matrix.mul_assoc, trace_mul_comm, Matrix.mul_assoc]
  have t2 : trace (A⁻¹ * (A' * A⁻¹ * A')) =
      trace (diagonal (fun j => (l j : 𝕜)) * diagonal fun j => (l j : 𝕜)) := by
    rw [hiA, ← h2, Matrix.mul_assoc, trace_mul_comm]
    simp only [Matrix.mul_assoc]
  rw [t1, t2, diagonal_mul_diagonal, trace_diagonal, trace_diagonal]
  have r1 : RCLike.re (∑ j, (l j : 𝕜)) = ∑ j, l j := by rw [map_sum]; simp
  have r2 : RCLike.re (∑ j, (l j : 𝕜) * (l j : 𝕜)) = ∑ j, l j * l j := by
    rw [map_sum]; simp
  rw [r1, r2]
  have : ∑ j, (2 * l j - 1) ≤ ∑ j, l j * l j :=
    Finset.sum_le_sum fun j _ => by nlinarith [sq_nonneg (l j - 1)]
  rw [Finset.sum_sub_distrib, ← Finset.mul_sum] at this
  simpa using this

theorem geo_mm {n : ℕ} {A A' : Matrix (Fin n) (Fin n) 𝕜} (hA : A.PosDef) (hA' : A'.PosDef)
    (C : Fin N → Matrix (Fin n) (Fin n) 𝕜) (d e : Fin N → ℝ)
    (hd : ∀ i, trace (A⁻¹ * C i) = (d i : 𝕜)) (hd0 : ∀ i, 0 < d i)
    (he : ∀ i, trace (A'⁻¹ * C i) = (e i : 𝕜)) (he0 : ∀ i, 0 < e i) (hN : 0 < N)
    (hS : A' * A⁻¹ * A' = ((n : 𝕜) / N) • ∑ i, (trace (A⁻¹ * C i))⁻¹ • C i) :
    n * ∑ i, Real.log (e i) + N * Real.log (RCLike.re A'.det) ≤
      n * ∑ i, Real.log (d i) + N * Real.log (RCLike.re A.det) := by
  have hN' : (0 : ℝ) < N := by exact_mod_cast hN
  have hNk : (N : 𝕜) ≠ 0 := by exact_mod_cast hN.ne'
  set T := RCLike.re (trace (A⁻¹ * A')) with hT
  have hu := (isUnit_iff_isUnit_det A').1 hA'.isUnit
  -- traces of the equation
  have tr : ∀ P : Matrix (Fin n) (Fin n) 𝕜, ∀ f : Fin N → ℝ, (∀ i, trace (P * C i) = (f i : 𝕜)) →
      RCLike.re (trace (P * (A' * A⁻¹ * A'))) = n / N * ∑ i, f i / d i := fun P f hf => by
    rw [hS, Matrix.mul_smul, trace_smul, Matrix.mul_sum, trace_sum]
    have : ∀ i, trace (P * ((trace (A⁻¹ * C i))⁻¹ • C i)) = ((f i / d i : ℝ) : 𝕜) := fun i => by
      rw [Matrix.mul_smul, trace_smul, hd, hf, smul_eq_mul]
      push_cast
      rw [div_eq_inv_mul]
    simp only [this, smul_eq_mul]
    rw [← RCLike.ofReal_sum, show ((n : 𝕜) / N) = ((n / N : ℝ) : 𝕜) by push_cast; rfl,
      ← RCLike.ofReal_mul, RCLike.ofReal_re]
  have h1 := tr A⁻¹ d hd
  have h2 := tr A'⁻¹ e he
  have h3 : RCLike.re (trace (A'⁻¹ * (A' * A⁻¹ * A'))) = T := by
    rw [Matrix.mul_assoc A', ← Matrix.mul_assoc A'⁻¹, nonsing_inv_mul _ hu, Matrix.one_mul]
  have h4 : ∑ i, d i / d i = N := by
    rw [Finset.sum_congr rfl fun i _ => div_self (hd0 i).ne']; simp
  rw [h3] at h2
  rw [h4, div_mul_cancel₀ _ hN'.ne'] at h1
  have h5 := trace_sq_ge hA hA'
  rw [h1, ← hT] at h5
  have h6 : (n : ℝ) * ∑ i, e i / d i = N * T := by rw [h2]; field_simp
  have h7 : ∑ i, Real.log (e i) ≤ ∑ i, (Real.log (d i) + (e i - d i) / d i) :=
    Finset.sum_le_sum fun i _ => log_tangent (hd0 i) (he0 i)
  have h8 : ∑ i, (Real.log (d i) + (e i - d i) / d i) =
      ∑ i, Real.log (d i) + ∑ i, e i / d i - N := by
    rw [Finset.sum_add_distrib]
    simp only [sub_div, Finset.sum_sub_distrib, h4]
    ring
  have h9 := log_det_le A A' hA hA'
  rw [← hT] at h9
  have hn : (0 : ℝ) ≤ n := Nat.cast_nonneg n
  have m1 := mul_le_mul_of_nonneg_left (h7.trans_eq h8) hn
  have m2 := mul_le_mul_of_nonneg_left h9 hN'.le
  nlinarith

/-! ## The loop -/

theorem pyMax_isMax (x y : Delta) : IsMax x y (x.pyMax y) := by
  unfold Delta.pyMax
  match x, y with
  | .fin r, .fin s =>
    by_cases h : r < s
    · rw [if_pos (show (Delta.fin r).lt (.fin s) from h), ← max_eq_right h.le]
      have := IsMax.fin r s
      rwa [max_eq_right h.le] at this ⊢
    · rw [if_neg (show ¬ (Delta.fin r).lt (.fin s) from h)]
      have := IsMax.fin r s
      rwa [max_eq_left (not_lt.1 h)] at this
  | .fin r, .inf => rw [if_pos (show (Delta.fin r).lt .inf from trivial)]; exact .right r
  | .fin r, .nan => rw [if_neg (show ¬ (Delta.fin r).lt .nan from id)]; exact .nanRight _
  | .inf, .fin s => rw [if_neg (show ¬ Delta.inf.lt (.fin s) from id)]; exact .left s
  | .inf, .inf => rw [if_neg (show ¬ Delta.inf.lt .inf from id)]; exact .both
  | .inf, .nan => rw [if_neg (show ¬ Delta.inf.lt .nan from id)]; exact .nanRight _
  | .nan, y =>
    rw [if_neg (show ¬ Delta.nan.lt y by cases y <;> exact id)]; exact .nanLeft _

theorem kronStep_inv {sq : Sqrtm 𝕜} {M : Fin N → Matrix (Fin b) (Fin a) 𝕜}
    {A iA A' iA' : Matrix (Fin a) (Fin a) 𝕜} {B B' : Matrix (Fin b) (Fin b) 𝕜}
    (h : kronStep sq M A iA B = .ok (A', iA', B')) : iA' = A'⁻¹ := by
  have hi : ∀ {n : ℕ} {C D : Matrix (Fin n) (Fin n) 𝕜}, pyInv C = .ok D → D = C⁻¹ := by
    intro n C D h
    unfold pyInv at h
    split_ifs at h
    exact (Except.ok.inj h).symm
  simp only [kronStep, bind, Except.bind, pure, Except.pure] at h
  repeat' split at h
  all_goals first
    | (cases h; done)
    | skip
  all_goals
    simp only [Except.ok.injEq, Prod.mk.injEq] at h
    obtain ⟨h1, h2, -⟩ := h
    subst h1 h2
    exact hi (by assumption)

/-- What one pass through the loop does to the variables. -/
def KronPass (sq : Sqrtm 𝕜) (M : Fin N → Matrix (Fin b) (Fin a) 𝕜) (s s' : KronState a b 𝕜) :
    Prop :=
  ∃ A iA B, kronStep sq M s.A s.iA s.B = .ok (A, iA, B) ∧
    s' = ⟨A, iA, B, (relErr (.fin A) (.fin s.A)).pyMax (relErr (.fin B) (.fin s.B)),
      s.iteration + 1⟩

theorem kronLoop_trace (sq : Sqrtm 𝕜) (M : Fin N → Matrix (Fin b) (Fin a) 𝕜) (tol : ℝ)
    (iterMax : ℤ) (s out : KronState a b 𝕜) (tr : ℕ → KronState a b 𝕜)
    (h : kronLoop sq M tol iterMax s = .ok out)
    (h1 : ∀ k < s.iteration, KronPass sq M (tr k) (tr (k + 1)) ∧ (tr k).delta.gt tol)
    (h2 : tr s.iteration = s) (h3 : (s.iteration : ℤ) ≤ max iterMax 0) :
    ∃ tr' : ℕ → KronState a b 𝕜, tr' 0 = tr 0 ∧ tr' out.iteration = out ∧
      (∀ k < out.iteration, KronPass sq M (tr' k) (tr' (k + 1)) ∧ (tr' k).delta.gt tol) ∧
      (out.iteration : ℤ) ≤ max iterMax 0 ∧
      ((out.iteration : ℤ) < iterMax → ¬ out.delta.gt tol) := by
  induction hn : (iterMax - s.iteration).toNat generalizing s tr with
  | zero =>
    rw [kronLoop, if_neg (by omega)] at h
    cases h
    exact ⟨tr, rfl, h2, h1, h3, fun h => by omega⟩
  | succ n ih =>
    rw [kronLoop] at h
    by_cases hc : s.delta.gt tol ∧ (s.iteration : ℤ) < iterMax
    · rw [if_pos hc] at h
      cases hs : kronStep sq M s.A s.iA s.B with
      | error e => rw [hs] at h; cases h
      | ok r =>
        obtain ⟨A, iA, B⟩ := r
        rw [hs] at h
        simp only at h
        set new : KronState a b 𝕜 := ⟨A, iA, B,
          (relErr (.fin A) (.fin s.A)).pyMax (relErr (.fin B) (.fin s.B)), s.iteration + 1⟩
          with hnew
        set tr' : ℕ → KronState a b 𝕜 := fun k => if k = s.iteration + 1 then new else tr k
          with htr'
        have e1 : ∀ k, k ≤ s.iteration → tr' k = tr k := by
          intro k hk; simp only [htr']; rw [if_neg (by omega)]
        have e2 : tr' (s.iteration + 1) = new := by simp [htr']
        have e3 : ∀ k < new.iteration, KronPass sq M (tr' k) (tr' (k + 1)) ∧
            (tr' k).delta.gt tol := fun k hk => by
          have hk : k < s.iteration + 1 := hk
          rcases Nat.lt_succ_iff_lt_or_eq.1 hk with hk | rfl
          · rw [e1 k (by omega), e1 (k + 1) (by omega)]; exact h1 k hk
          · rw [e1 _ le_rfl, e2, h2]; exact ⟨⟨A, iA, B, hs, rfl⟩, hc.1⟩
        have e4 : (new.iteration : ℤ) = s.iteration + 1 := by simp only [hnew]; push_cast; rfl
        obtain ⟨t, t0, t1, t2, t3, t4⟩ := ih new tr' h e3 e2 (by omega) (by omega)
        exact ⟨t, t0.trans (e1 0 (by omega)), t1, t2, t3, t4⟩
    · rw [if_neg hc] at h
      cases h
      exact ⟨tr, rfl, h2, h1, h3, fun h hd => hc ⟨hd, h⟩⟩

theorem kronLoop_run (sq : Sqrtm 𝕜) (M : Fin N → Matrix (Fin b) (Fin a) 𝕜) (tol : ℝ)
    (iterMax : ℤ) (out : KronState a b 𝕜)
    (h : kronLoop sq M tol iterMax ⟨1, 1, 1, .inf, 0⟩ = .ok out) :
    ∃ A B d, A out.iteration = out.A ∧ B out.iteration = out.B ∧ d out.iteration = out.delta ∧
      IsKronRun (fun A B A' B' => kronStep sq M A A⁻¹ B = .ok (A', A'⁻¹, B')) tol iterMax A B d
        out.iteration := by
  obtain ⟨t, t0, t1, t2, t3, t4⟩ := kronLoop_trace sq M tol iterMax ⟨1, 1, 1, .inf, 0⟩ out
    (fun _ => ⟨1, 1, 1, .inf, 0⟩) h (fun k hk => by simp at hk) rfl (by simp)
  have inv : ∀ k ≤ out.iteration, (t k).iA = (t k).A⁻¹ := by
    intro k hk
    cases k with
    | zero => rw [t0]; simp
    | succ k =>
      obtain ⟨⟨A, iA, B, h1, h2⟩, -⟩ := t2 k (by omega)
      rw [h2]
      exact kronStep_inv h1
  refine ⟨fun k => (t k).A, fun k => (t k).B, fun k => (t k).delta,
    congrArg _ t1, congrArg _ t1, congrArg _ t1, ⟨?_, fun k hk => ?_, fun k hk => ?_, fun k hk => (t2 k hk).2, t3, fun h => ?_⟩⟩
  · simp [t0]
  · obtain ⟨⟨A, iA, B, h1, h2⟩, -⟩ := t2 k hk
    have := kronStep_inv h1
    subst this
    rw [inv k hk.le] at h1
    simp only [h2]
    exact h1
  · obtain ⟨⟨A, iA, B, h1, h2⟩, -⟩ := t2 k hk
    refine ⟨_, _, (relChange_iff _ _ _).2 rfl, (relChange_iff _ _ _).2 rfl, ?_⟩
    simp only [h2]
    exact pyMax_isMax _ _
  · rw [t1]; exact t4 h

theorem kronLoop_total (sq : Sqrtm 𝕜) (hsq : SqrtmPD sq) {M : Fin N → Matrix (Fin b) (Fin a) 𝕜}
    (hM : KronData M) (ha : 0 < a) (hb : 0 < b) (tol : ℝ) (iterMax : ℤ) (s : KronState a b 𝕜)
    (hA : s.A.PosDef) (hi : s.iA = s.A⁻¹) (hB : s.B.PosDef) :
    ∃ out, kronLoop sq M tol iterMax s = .ok out := by
  induction hn : (iterMax - s.iteration).toNat generalizing s with
  | zero =>
    rw [kronLoop, if_neg (by omega)]
    exact ⟨_, rfl⟩
  | succ n ih =>
    rw [kronLoop]
    split_ifs with hc
    · obtain ⟨A', B', h1, h2⟩ := kronStep_ok sq hsq hM ha hb hA hB
      rw [hi, h1]
      exact ih _ h2.posA rfl h2.posB (by simp only; push_cast; omega)
    · exact ⟨_, rfl⟩

/-! ## The cost -/

/-- The quadratic form the algorithm uses is that of `Aᵀ ⊗ B`. -/
theorem qf_kron (A : Matrix (Fin a) (Fin a) 𝕜) (B : Matrix (Fin b) (Fin b) 𝕜)
    (x : Fin (a * b) → 𝕜) :
    qf (kron Aᵀ B) x = RCLike.re (trace (A⁻¹ * ((unstack x)ᴴ * B⁻¹ * unstack x))) := by
  unfold qf
  rw [kron_inv, quad_kron, ← transpose_nonsing_inv, transpose_transpose]

theorem re_det_kron {A : Matrix (Fin a) (Fin a) 𝕜} {B : Matrix (Fin b) (Fin b) 𝕜} (hA : A.PosDef)
    (hB : B.PosDef) : Real.log (RCLike.re (kron A B).det) =
      b * Real.log (RCLike.re A.det) + a * Real.log (RCLike.re B.det) := by
  have h1 := posDef_det_pos hA
  have h2 := posDef_det_pos hB
  have : RCLike.re (kron A B).det = RCLike.re A.det ^ b * RCLike.re B.det ^ a := by
    rw [det_kron, ← h1.2, ← h2.2, ← RCLike.ofReal_pow, ← RCLike.ofReal_pow, ← RCLike.ofReal_mul]
    simp
  rw [this, Real.log_mul (pow_pos h1.1 _).ne' (pow_pos h2.1 _).ne', Real.log_pow, Real.log_pow]

theorem tylerCost_kron (X : Matrix (Fin N) (Fin (a * b)) 𝕜) {A : Matrix (Fin a) (Fin a) 𝕜}
    {B : Matrix (Fin b) (Fin b) 𝕜} (hA : A.PosDef) (hB : B.PosDef) (d : Fin N → ℝ)
    (hd : ∀ i, trace (A⁻¹ * ((unstack (X i))ᴴ * B⁻¹ * unstack (X i))) = (d i : 𝕜)) :
    tylerCost X (kron Aᵀ B) = a * b * ∑ i, Real.log (d i) +
      N * (b * Real.log (RCLike.re A.det) + a * Real.log (RCLike.re B.det)) := by
  have h : ∀ i, qf (kron Aᵀ B) (sample X i) = d i := fun i => by
    have := qf_kron A B (X i)
    rw [hd, RCLike.ofReal_re] at this
    exact this
  unfold tylerCost
  rw [re_det_kron hA.transpose hB, det_transpose]
  simp only [h]
  push_cast
  ring

theorem kron_mm (X : Matrix (Fin N) (Fin (a * b)) 𝕜) (hN : 0 < N) (h0 : ∀ i, X i ≠ 0)
    {A A' : Matrix (Fin a) (Fin a) 𝕜} {B B' : Matrix (Fin b) (Fin b) 𝕜} (hA : A.PosDef)
    (hB : B.PosDef) (h : KronUpdate (fun i => unstack (X i)) A A' B B') :
    tylerCost X (kron A'ᵀ B') ≤ tylerCost X (kron Aᵀ B) := by
  have hne : ∀ i, unstack (X i) ≠ 0 := fun i h => h0 i (by
    ext j
    have := congrFun (congrFun h (finProdFinEquiv.symm j).2) (finProdFinEquiv.symm j).1
    simpa [unstack, -finProdFinEquiv_symm_apply] using this)
  choose d d1 d2 d3 using fun i => trace_den hA hB (unstack (X i))
  choose e e1 e2 e3 using fun i => trace_den h.posA hB (unstack (X i))
  choose f f1 f2 f3 using fun i => trace_den h.posA h.posB (unstack (X i))
  rw [tylerCost_kron X hA hB d d1, tylerCost_kron X h.posA h.posB f f1]
  have m1 := geo_mm hA h.posA (fun i => (unstack (X i))ᴴ * B⁻¹ * unstack (X i)) d e d1
    (fun i => d3 i (hne i)) e1 (fun i => e3 i (hne i)) hN h.eqA
  have m2 := geo_mm hB h.posB (fun i => unstack (X i) * A'⁻¹ * (unstack (X i))ᴴ) e f
    (fun i => by rw [← trace_swap, e1]) (fun i => e3 i (hne i))
    (fun i => by rw [← trace_swap, f1]) (fun i => f3 i (hne i)) hN
    (by rw [h.eqB]; simp only [scatterB, trace_swap])
  have ha : (0 : ℝ) ≤ a := Nat.cast_nonneg a
  have hb : (0 : ℝ) ≤ b := Nat.cast_nonneg b
  have k1 := mul_le_mul_of_nonneg_left m1 hb
  have k2 := mul_le_mul_of_nonneg_left m2 ha
  nlinarith

/-! ## Global optimality of fixed points -/

theorem inv_of_diag {n : ℕ} {G A : Matrix (Fin n) (Fin n) 𝕜} {l : Fin n → ℝ} (hG : IsUnit G)
    (hl : ∀ j, 0 < l j) (h : G * A * Gᴴ = diagonal fun j => (l j : 𝕜)) :
    A⁻¹ = Gᴴ * diagonal (fun j => ((l j)⁻¹ : 𝕜)) * G := by
  have hGu := (isUnit_iff_isUnit_det G).1 hG
  have hGH : IsUnit Gᴴ.det := by rw [det_conjTranspose]; exact hGu.star
  have hd : diagonal (fun j => ((l j)⁻¹ : 𝕜)) * diagonal (fun j => (l j : 𝕜)) = 1 := by
    rw [diagonal_mul_diagonal, ← diagonal_one]
    congr 1
    funext j
    apply inv_mul_cancel₀
    rw [Ne, RCLike.ofReal_eq_zero]
    exact (hl j).ne'
  apply inv_eq_left_inv
  have : Gᴴ * diagonal (fun j => ((l j)⁻¹ : 𝕜)) * G * A * Gᴴ = Gᴴ := by
    rw [Matrix.mul_assoc _ G A, Matrix.mul_assoc, h, Matrix.mul_assoc, hd, Matrix.mul_one]
  have := congrArg (· * (Gᴴ)⁻¹) this
  simpa [Matrix.mul_assoc, mul_nonsing_inv _ hGH] using this

theorem trace_diag_form {A G : Matrix (Fin a) (Fin a) 𝕜} {B H : Matrix (Fin b) (Fin b) 𝕜}
    {l : Fin a → ℝ} {m : Fin b → ℝ} (hG : IsUnit G) (hH : IsUnit H) (hl : ∀ j, 0 < l j)
    (hm : ∀ j, 0 < m j) (h1 : G * A * Gᴴ = diagonal fun j => (l j : 𝕜))
    (h2 : H * B * Hᴴ = diagonal fun j => (m j : 𝕜)) (M : Matrix (Fin b) (Fin a) 𝕜) :
    trace (A⁻¹ * (Mᴴ * B⁻¹ * M)) =
      ((∑ c, ∑ r, ‖(H * M * Gᴴ) r c‖ ^ 2 / (l c * m r) : ℝ) : 𝕜) := by
  have e : trace (A⁻¹ * (Mᴴ * B⁻¹ * M)) = trace (diagonal (fun j => ((l j)⁻¹ : 𝕜)) *
      ((H * M * Gᴴ)ᴴ * (diagonal (fun j => ((m j)⁻¹ : 𝕜)) * (H * M * Gᴴ)))) := by
    rw [inv_of_diag hG hl h1, inv_of_diag hH hm h2, conjTranspose_mul, conjTranspose_mul,
      conjTranspose_conjTranspose]
    rw [Matrix.mul_assoc Gᴴ, Matrix.mul_assoc Gᴴ, trace_mul_comm Gᴴ]
    simp only [Matrix.mul_assoc]
  rw [e]
  set Y := H * M * Gᴴ
  simp only [trace, diag_apply, diagonal_mul, Matrix.mul_apply (M := Yᴴ), conjTranspose_apply]
  push_cast
  refine Finset.sum_congr rfl fun c _ => ?_
  rw [Finset.mul_sum]
  refine Finset.sum_congr rfl fun r _ => ?_
  rw [RCLike.star_def, mul_left_comm (starRingEnd 𝕜 (Y r c)), RCLike.conj_mul, div_eq_mul_inv,
    mul_inv]
  ring

/-- Column and row sums of the normalised samples at a fixed point. -/
theorem fixed_margins (M : Fin N → Matrix (Fin b) (Fin a) 𝕜) (hN : 0 < N)
    {A G : Matrix (Fin a) (Fin a) 𝕜} {B H : Matrix (Fin b) (Fin b) 𝕜} (hG : IsUnit G)
    (hH : IsUnit H) (h1 : G * A * Gᴴ = 1) (h2 : H * B * Hᴴ = 1) (d : Fin N → ℝ)
    (hd : ∀ i, trace (A⁻¹ * ((M i)ᴴ * B⁻¹ * M i)) = (d i : 𝕜)) (hfA : scatterA M A B = A)
    (hfB : scatterB M A B = B) :
    (∀ c, a * ∑ i, (∑ r, ‖(H * M i * Gᴴ) r c‖ ^ 2) / d i = N) ∧
    (∀ r, b * ∑ i, (∑ c, ‖(H * M i * Gᴴ) r c‖ ^ 2) / d i = N) := by
  have one_diag : ∀ n : ℕ, (1 : Matrix (Fin n) (Fin n) 𝕜) =
      diagonal fun j => (((fun _ => 1 : Fin n → ℝ) j : ℝ) : 𝕜) := fun n => by simp
  have iA : A⁻¹ = Gᴴ * G := by
    have := inv_of_diag (l := fun _ => 1) hG (fun _ => one_pos) (by rw [h1]; exact one_diag a)
    simpa using this
  have iB : B⁻¹ = Hᴴ * H := by
    have := inv_of_diag (l := fun _ => 1) hH (fun _ => one_pos) (by rw [h2]; exact one_diag b)
    simpa using this
  have hNk : (N : 𝕜) ≠ 0 := by exact_mod_cast hN.ne'
  refine ⟨fun c => ?_, fun r => ?_⟩
  · have e : G * scatterA M A B * Gᴴ =
        ((a : 𝕜) / N) • ∑ i, (d i : 𝕜)⁻¹ • ((H * M i * Gᴴ)ᴴ * (H * M i * Gᴴ)) := by
      unfold scatterA
      simp only [hd]
      rw [Matrix.mul_smul, Matrix.smul_mul, Matrix.mul_sum, Matrix.sum_mul]
      congr 1
      refine Finset.sum_congr rfl fun i _ => ?_
      rw [Matrix.mul_smul, Matrix.smul_mul, iB, conjTranspose_mul, conjTranspose_mul,
        conjTranspose_conjTranspose]
      simp only [Matrix.mul_assoc]
    rw [hfA, h1] at e
    have := congrFun (congrFun e c) c
    rw [one_apply_eq, Matrix.smul_apply, Matrix.sum_apply] at this
    simp only [Matrix.smul_apply, Matrix.mul_apply (M := (H * M _ * Gᴴ)ᴴ), conjTranspose_apply,
      RCLike.star_def, RCLike.conj_mul, smul_eq_mul] at this
    field_simp at this
    have t2 : (((a * ∑ i, (∑ r, ‖(H * M i * Gᴴ) r c‖ ^ 2) / d i : ℝ)) : 𝕜) = ((N : ℝ) : 𝕜) := by
      push_cast
      exact this.symm
    exact RCLike.ofReal_injective t2
  · have e : H * scatterB M A B * Hᴴ =
        ((b : 𝕜) / N) • ∑ i, (d i : 𝕜)⁻¹ • ((H * M i * Gᴴ) * (H * M i * Gᴴ)ᴴ) := by
      unfold scatterB
      simp only [hd]
      rw [Matrix.mul_smul, Matrix.smul_mul, Matrix.mul_sum, Matrix.sum_mul]
      congr 1
      refine Finset.sum_congr rfl fun i _ => ?_
      rw [Matrix.mul_smul, Matrix.smul_mul, iA, conjTranspose_mul, conjTranspose_mul,
        conjTranspose_conjTranspose]
      simp only [Matrix.mul_assoc]
    rw [hfB, h2] at e
    have := congrFun (congrFun e r) r
    rw [one_apply_eq, Matrix.smul_apply, Matrix.sum_apply] at this
    simp only [Matrix.smul_apply, Matrix.mul_apply (N := (H * M _ * Gᴴ)ᴴ), conjTranspose_apply,
      RCLike.star_def, RCLike.mul_conj, smul_eq_mul] at this
    field_simp at this
    have t2 : (((b * ∑ i, (∑ c, ‖(H * M i * Gᴴ) r c‖ ^ 2) / d i : ℝ)) : 𝕜) = ((N : ℝ) : 𝕜) := by
      push_cast
      exact this.symm
    exact RCLike.ofReal_injective t2

theorem jensen_prod (t : Fin a → Fin b → ℝ) (l : Fin a → ℝ) (m : Fin b → ℝ)
    (ht : ∀ c r, 0 ≤ t c r) (hl : ∀ j, 0 < l j) (hm : ∀ j, 0 < m j)
    (hpos : 0 < ∑ c, ∑ r, t c r) :
    Real.log (∑ c, ∑ r, t c r) - (∑ c, ∑ r, t c r * (Real.log (l c) + Real.log (m r))) /
      (∑ c, ∑ r, t c r) ≤ Real.log (∑ c, ∑ r, t c r / (l c * m r)) := by
  have e : ∀ f : Fin a → Fin b → ℝ, ∑ j : Fin (a * b), f (finProdFinEquiv.symm j).1
      (finProdFinEquiv.symm j).2 = ∑ c, ∑ r, f c r := fun f => by
    rw [← Equiv.sum_comp finProdFinEquiv, Fintype.sum_prod_type]
    simp only [Equiv.symm_apply_apply]
  have := jensen_log (p := a * b) (nu := 0) le_rfl
    (fun j => t (finProdFinEquiv.symm j).1 (finProdFinEquiv.symm j).2)
    (fun j => l (finProdFinEquiv.symm j).1 * m (finProdFinEquiv.symm j).2)
    (fun j => ht _ _) (fun j => mul_pos (hl _) (hm _)) (by rw [e, zero_add]; exact hpos)
  rw [zero_add, zero_add, e t, e fun c r => t c r / (l c * m r),
    e fun c r => t c r * Real.log (l c * m r)] at this
  have h2 : ∀ c r, Real.log (l c * m r) = Real.log (l c) + Real.log (m r) := fun c r =>
    Real.log_mul (hl c).ne' (hm r).ne'
  simpa only [h2] using this

/-- The difference of the costs of a pair of matrices and of a fixed point, in bases in which all
are diagonal. -/
theorem kron_gap (X : Matrix (Fin N) (Fin (a * b)) 𝕜) (hN : 0 < N) (h0 : ∀ i, X i ≠ 0)
    {A A' G : Matrix (Fin a) (Fin a) 𝕜} {B B' H : Matrix (Fin b) (Fin b) 𝕜} (hA : A.PosDef)
    (hB : B.PosDef) (hfA : scatterA (fun i => unstack (X i)) A B = A)
    (hfB : scatterB (fun i => unstack (X i)) A B = B) (hA' : A'.PosDef) (hB' : B'.PosDef)
    {l : Fin a → ℝ} {m : Fin b → ℝ} (hG : IsUnit G) (hl : ∀ j, 0 < l j) (g1 : G * A * Gᴴ = 1)
    (g2 : G * A' * Gᴴ = diagonal fun j => (l j : 𝕜)) (hH : IsUnit H) (hm : ∀ j, 0 < m j)
    (k1 : H * B * Hᴴ = 1) (k2 : H * B' * Hᴴ = diagonal fun j => (m j : 𝕜))
    (t : Fin N → Fin a → Fin b → ℝ) (ht : t = fun i c r => ‖(H * unstack (X i) * Gᴴ) r c‖ ^ 2) :
    (∀ i, 0 < ∑ c, ∑ r, t i c r) ∧
    tylerCost X (kron A'ᵀ B') = tylerCost X (kron Aᵀ B) +
      a * b * ∑ i, (Real.log (∑ c, ∑ r, t i c r / (l c * m r)) - (Real.log (∑ c, ∑ r, t i c r) -
        (∑ c, ∑ r, t i c r * (Real.log (l c) + Real.log (m r))) / (∑ c, ∑ r, t i c r))) := by
  have hne : ∀ i, unstack (X i) ≠ 0 := fun i h => h0 i (by
    ext j
    have := congrFun (congrFun h (finProdFinEquiv.symm j).2) (finProdFinEquiv.symm j).1
    simpa [unstack, -finProdFinEquiv_symm_apply] using this)
  have hd : ∀ i, trace (A⁻¹ * ((unstack (X i))ᴴ * B⁻¹ * unstack (X i))) =
      ((∑ c, ∑ r, t i c r : ℝ) : 𝕜) := fun i => by
    have := trace_diag_form (l := fun _ => 1) (m := fun _ => 1) hG hH (fun _ => one_pos)
      (fun _ => one_pos) (by rw [g1]; simp) (by rw [k1]; simp) (unstack (X i))
    simpa [ht] using this
  have he : ∀ i, trace (A'⁻¹ * ((unstack (X i))ᴴ * B'⁻¹ * unstack (X i))) =
      ((∑ c, ∑ r, t i c r / (l c * m r) : ℝ) : 𝕜) := fun i =>
    by rw [ht]; exact trace_diag_form hG hH hl hm g2 k2 (unstack (X i))
  have hd0 : ∀ i, 0 < ∑ c, ∑ r, t i c r := fun i => by
    obtain ⟨r, h1, h2, h3⟩ := trace_den hA hB (unstack (X i))
    have : (∑ c, ∑ r, t i c r) = r := RCLike.ofReal_injective ((hd i).symm.trans h1)
    rw [this]
    exact h3 (hne i)
  obtain ⟨m1, m2⟩ := fixed_margins (fun i => unstack (X i)) hN hG hH g1 k1 _ hd hfA hfB
  have hw : (a : ℝ) * b * ∑ i, (∑ c, ∑ r, t i c r * (Real.log (l c) + Real.log (m r))) /
      (∑ c, ∑ r, t i c r) = N * (b * ∑ c, Real.log (l c) + a * ∑ r, Real.log (m r)) := by
    have split : ∀ i, (∑ c, ∑ r, t i c r * (Real.log (l c) + Real.log (m r))) /
        (∑ c, ∑ r, t i c r) = ∑ c, Real.log (l c) * ((∑ r, t i c r) / (∑ c, ∑ r, t i c r)) +
        ∑ r, Real.log (m r) * ((∑ c, t i c r) / (∑ c, ∑ r, t i c r)) := fun i => by
      have s1 : ∑ c, ∑ r, t i c r * (Real.log (l c) + Real.log (m r)) =
          ∑ c, Real.log (l c) * ∑ r, t i c r + ∑ r, Real.log (m r) * ∑ c, t i c r := by
        simp only [mul_add, Finset.sum_add_distrib, Finset.mul_sum]
        rw [Finset.sum_comm (f := fun c r => t i c r * Real.log (m r))]
        simp only [mul_comm]
      rw [s1, add_div, Finset.sum_div, Finset.sum_div]
      simp only [mul_div_assoc]
    simp only [split]
    rw [Finset.sum_add_distrib, Finset.sum_comm, Finset.sum_comm (s := Finset.univ (α := Fin N))
      (t := Finset.univ (α := Fin b))]
    simp only [← Finset.mul_sum]
    have q1 : ∀ c, (a : ℝ) * ∑ i, (∑ r, t i c r) / (∑ c, ∑ r, t i c r) = N := fun c => by rw [ht] at m1 ⊢; exact m1 c
    have q2 : ∀ r, (b : ℝ) * ∑ i, (∑ c, t i c r) / (∑ c, ∑ r, t i c r) = N := fun r => by rw [ht] at m2 ⊢; exact m2 r
    have p1 : (a : ℝ) * ∑ c, Real.log (l c) * ∑ i, (∑ r, t i c r) / (∑ c, ∑ r, t i c r) =
        N * ∑ c, Real.log (l c) := by
      rw [Finset.mul_sum, Finset.mul_sum]
      refine Finset.sum_congr rfl fun c _ => ?_
      rw [mul_left_comm, q1 c, mul_comm]
    have p2 : (b : ℝ) * ∑ r, Real.log (m r) * ∑ i, (∑ c, t i c r) / (∑ c, ∑ r, t i c r) =
        N * ∑ r, Real.log (m r) := by
      rw [Finset.mul_sum, Finset.mul_sum]
      refine Finset.sum_congr rfl fun r _ => ?_
      rw [mul_left_comm, q2 r, mul_comm]
    linear_combination (b : ℝ) * p1 + (a : ℝ) * p2
  have ld1 := log_det_diff hA hA' hG hl g1 g2
  have ld2 := log_det_diff hB hB' hH hm k1 k2
  refine ⟨hd0, ?_⟩
  rw [tylerCost_kron X hA hB _ hd, tylerCost_kron X hA' hB' _ he, ld1, ld2, Finset.sum_sub_distrib,
    Finset.sum_sub_distrib]
  linear_combination -hw

theorem kron_fixed_minimises (X : Matrix (Fin N) (Fin (a * b)) 𝕜) (hN : 0 < N) (h0 : ∀ i, X i ≠ 0)
    {A A' : Matrix (Fin a) (Fin a) 𝕜} {B B' : Matrix (Fin b) (Fin b) 𝕜} (hA : A.PosDef)
    (hB : B.PosDef) (hfA : scatterA (fun i => unstack (X i)) A B = A)
    (hfB : scatterB (fun i => unstack (X i)) A B = B) (hA' : A'.PosDef) (hB' : B'.PosDef) :
    tylerCost X (kron Aᵀ B) ≤ tylerCost X (kron A'ᵀ B') := by
  obtain ⟨G, l, hG, hl, g1, g2⟩ := simultaneous A A' hA hA'
  obtain ⟨H, m, hH, hm, k1, k2⟩ := simultaneous B B' hB hB'
  obtain ⟨h1, h2⟩ := kron_gap X hN h0 hA hB hfA hfB hA' hB' hG hl g1 g2 hH hm k1 k2 _ rfl
  rw [h2]
  have := Finset.sum_nonneg fun i (_ : i ∈ Finset.univ) => sub_nonneg.2 (jensen_prod _ l m
    (fun c r => sq_nonneg ‖(H * unstack (X i) * Gᴴ) r c‖) hl hm (h1 i))
  have hab : (0 : ℝ) ≤ a * b := by positivity
  linarith [mul_nonneg hab this]

/-! ## Equality in the majorisation step -/

theorem geo_mm_eq {n : ℕ} {A A' : Matrix (Fin n) (Fin n) 𝕜} (hA : A.PosDef) (hA' : A'.PosDef)
    (C : Fin N → Matrix (Fin n) (Fin n) 𝕜) (d e : Fin N → ℝ)
    (hd : ∀ i, trace (A⁻¹ * C i) = (d i : 𝕜)) (hd0 : ∀ i, 0 < d i)
    (he : ∀ i, trace (A'⁻¹ * C i) = (e i : 𝕜)) (he0 : ∀ i, 0 < e i) (hN : 0 < N)
    (hS : A' * A⁻¹ * A' = ((n : 𝕜) / N) • ∑ i, (trace (A⁻¹ * C i))⁻¹ • C i)
    (heq : n * ∑ i, Real.log (d i) + N * Real.log (RCLike.re A.det) ≤
      n * ∑ i, Real.log (e i) + N * Real.log (RCLike.re A'.det)) : A' = A := by
  have hN' : (0 : ℝ) < N := by exact_mod_cast hN
  set T := RCLike.re (trace (A⁻¹ * A')) with hT
  have hu := (isUnit_iff_isUnit_det A').1 hA'.isUnit
  have tr : ∀ P : Matrix (Fin n) (Fin n) 𝕜, ∀ f : Fin N → ℝ, (∀ i, trace (P * C i) = (f i : 𝕜)) →
      RCLike.re (trace (P * (A' * A⁻¹ * A'))) = n / N * ∑ i, f i / d i := fun P f hf => by
    rw [hS, Matrix.mul_smul, trace_smul, Matrix.mul_sum, trace_sum]
    have : ∀ i, trace (P * ((trace (A⁻¹ * C i))⁻¹ • C i)) = ((f i / d i : ℝ) : 𝕜) := fun i => by
      rw [Matrix.mul_smul, trace_smul, hd, hf, smul_eq_mul]
      push_cast
      rw [div_eq_inv_mul]
    simp only [this, smul_eq_mul]
    rw [← RCLike.ofReal_sum, show ((n : 𝕜) / N) = ((n / N : ℝ) : 𝕜) by push_cast; rfl,
      ← RCLike.ofReal_mul, RCLike.ofReal_re]
  have h1 := tr A⁻¹ d hd
  have h2 := tr A'⁻¹ e he
  have h3 : RCLike.re (trace (A'⁻¹ * (A' * A⁻¹ * A'))) = T := by
    rw [Matrix.mul_assoc A', ← Matrix.mul_assoc A'⁻¹, nonsing_inv_mul _ hu, Matrix.one_mul]
  have h4 : ∑ i, d i / d i = N := by
    rw [Finset.sum_congr rfl fun i _ => div_self (hd0 i).ne']; simp
  rw [h3] at h2
  rw [h4, div_mul_cancel₀ _ hN'.ne'] at h1
  have h6 : (n : ℝ) * ∑ i, e i / d i = N * T := by rw [h2]; field_simp
  have h7 : ∑ i, Real.log (e i) ≤ ∑ i, (Real.log (d i) + (e i - d i) / d i) :=
    Finset.sum_le_sum fun i _ => log_tangent (hd0 i) (he0 i)
  have h8 : ∑ i, (Real.log (d i) + (e i - d i) / d i) =
      ∑ i, Real.log (d i) + ∑ i, e i / d i - N := by
    rw [Finset.sum_add_distrib]
    simp only [sub_div, Finset.sum_sub_distrib, h4]
    ring
  have h9 := log_det_le A A' hA hA'
  rw [← hT] at h9
  have hn : (0 : ℝ) ≤ n := Nat.cast_nonneg n
  have m1 := mul_le_mul_of_nonneg_left (h7.trans_eq h8) hn
  have m2 := mul_le_mul_of_nonneg_left h9 hN'.le
  have hTn : (n : ℝ) ≤ T := by
    have : 0 ≤ N * (2 * (T - n)) := by nlinarith
    have := nonneg_of_mul_nonneg_right this hN'
    linarith
  -- in the common basis
  obtain ⟨G, l, hG, hl, g1, g2⟩ := simultaneous A A' hA hA'
  have iA : A⁻¹ = Gᴴ * G := by
    have := inv_of_diag (l := fun _ => 1) hG (fun _ => one_pos) (by rw [g1]; simp)
    simpa using this
  have t1 : trace (A⁻¹ * A') = trace (diagonal fun j => (l j : 𝕜)) := by
    rw [iA, ← g2, Matrix.mul_assoc, trace_mul_comm, Matrix.mul_assoc]
  have t2 : trace (A⁻¹ * (A' * A⁻¹ * A')) =
      trace (diagonal (fun j => (l j : 𝕜)) * diagonal fun j => (l j : 𝕜)) := by
    rw [iA, ← g2, Matrix.mul_assoc, trace_mul_comm]
    simp only [Matrix.mul_assoc]
  have r1 : T = ∑ j, l j := by rw [hT, t1, trace_diagonal, map_sum]; simp
  have r2 : (n : ℝ) = ∑ j, l j * l j := by
    rw [← h1, t2, diagonal_mul_diagonal, trace_diagonal, map_sum]; simp
  have r3 : ∑ j, (l j - 1) ^ 2 = 0 := by
    apply le_antisymm _ (by positivity)
    have : ∑ j, (l j - 1) ^ 2 = ∑ j, l j * l j - 2 * ∑ j, l j + n := by
      rw [Finset.mul_sum, ← Finset.sum_sub_distrib]
      rw [show (n : ℝ) = ∑ _j : Fin n, (1 : ℝ) by simp, ← Finset.sum_add_distrib]
      exact Finset.sum_congr rfl fun j _ => by ring
    rw [this, ← r1, ← r2]
    linarith
  have r4 : ∀ j, l j = 1 := fun j => by
    have := (Finset.sum_eq_zero_iff_of_nonneg fun j _ => sq_nonneg (l j - 1)).1 r3 j (by simp)
    have := pow_eq_zero_iff (two_ne_zero) |>.1 this
    linarith
  have g3 : G * A' * Gᴴ = G * A * Gᴴ := by
    rw [g1, g2]
    simp [r4]
  have hGu := (isUnit_iff_isUnit_det G).1 hG
  have hGH : IsUnit Gᴴ.det := by rw [det_conjTranspose]; exact hGu.star
  have g4 := congrArg (fun Z => G⁻¹ * Z * (Gᴴ)⁻¹) g3
  simpa [Matrix.mul_assoc, mul_nonsing_inv _ hGH, ← Matrix.mul_assoc G⁻¹ G,
    nonsing_inv_mul _ hGu] using g4

theorem kron_mm_eq (X : Matrix (Fin N) (Fin (a * b)) 𝕜) (hN : 0 < N) (h0 : ∀ i, X i ≠ 0)
    (ha : 0 < a) (hb : 0 < b)
    {A A' : Matrix (Fin a) (Fin a) 𝕜} {B B' : Matrix (Fin b) (Fin b) 𝕜} (hA : A.PosDef)
    (hB : B.PosDef) (h : KronUpdate (fun i => unstack (X i)) A A' B B')
    (heq : tylerCost X (kron Aᵀ B) ≤ tylerCost X (kron A'ᵀ B')) : A' = A ∧ B' = B := by
  have hne : ∀ i, unstack (X i) ≠ 0 := fun i h => h0 i (by
    ext j
    have := congrFun (congrFun h (finProdFinEquiv.symm j).2) (finProdFinEquiv.symm j).1
    simpa [unstack, -finProdFinEquiv_symm_apply] using this)
  choose d d1 d2 d3 using fun i => trace_den hA hB (unstack (X i))
  choose e e1 e2 e3 using fun i => trace_den h.posA hB (unstack (X i))
  choose f f1 f2 f3 using fun i => trace_den h.posA h.posB (unstack (X i))
  rw [tylerCost_kron X hA hB d d1, tylerCost_kron X h.posA h.posB f f1] at heq
  have eB : B' * B⁻¹ * B' = ((b : 𝕜) / N) • ∑ i,
      (trace (B⁻¹ * (unstack (X i) * A'⁻¹ * (unstack (X i))ᴴ)))⁻¹ •
        (unstack (X i) * A'⁻¹ * (unstack (X i))ᴴ) := by
    rw [h.eqB]; simp only [scatterB, trace_swap]
  have m1 := geo_mm hA h.posA (fun i => (unstack (X i))ᴴ * B⁻¹ * unstack (X i)) d e d1
    (fun i => d3 i (hne i)) e1 (fun i => e3 i (hne i)) hN h.eqA
  have m2 := geo_mm hB h.posB (fun i => unstack (X i) * A'⁻¹ * (unstack (X i))ᴴ) e f
    (fun i => by rw [← trace_swap, e1]) (fun i => e3 i (hne i))
    (fun i => by rw [← trace_swap, f1]) (fun i => f3 i (hne i)) hN eB
  have ha : (0 : ℝ) < a := by exact_mod_cast ha
  have hb : (0 : ℝ) < b := by exact_mod_cast hb
  have k1 := mul_le_mul_of_nonneg_left m1 hb.le
  have k2 := mul_le_mul_of_nonneg_left m2 ha.le
  refine ⟨geo_mm_eq hA h.posA (fun i => (unstack (X i))ᴴ * B⁻¹ * unstack (X i)) d e d1
    (fun i => d3 i (hne i)) e1 (fun i => e3 i (hne i)) hN h.eqA ?_,
    geo_mm_eq hB h.posB (fun i => unstack (X i) * A'⁻¹ * (unstack (X i))ᴴ) e f
    (fun i => by rw [← trace_swap, e1]) (fun i => e3 i (hne i))
    (fun i => by rw [← trace_swap, f1]) (fun i => f3 i (hne i)) hN eB ?_⟩
  · refine le_of_mul_le_mul_left ?_ hb
    nlinarith
  · refine le_of_mul_le_mul_left ?_ ha
    nlinarith

/-! ## Invariances -/

theorem kronStep_scale (sq : Sqrtm 𝕜) (M : Fin N → Matrix (Fin b) (Fin a) 𝕜) (c : Fin N → 𝕜)
    (hc : ∀ i, c i ≠ 0) : kronStep (a := a) (b := b) sq (fun i => c i • M i) = kronStep sq M := by
  funext A iA B
  have n1 : ∀ (i) (K : Matrix (Fin b) (Fin b) 𝕜), (c i • M i)ᴴ * K * (c i • M i) =
      (star (c i) * c i) • ((M i)ᴴ * K * M i) := fun i K => by
    rw [conjTranspose_smul, Matrix.smul_mul, Matrix.smul_mul, Matrix.mul_smul, smul_smul]
  have n2 : ∀ (i) (K : Matrix (Fin a) (Fin a) 𝕜), (c i • M i) * K * (c i • M i)ᴴ =
      (star (c i) * c i) • (M i * K * (M i)ᴴ) := fun i K => by
    rw [conjTranspose_smul, Matrix.smul_mul, Matrix.smul_mul, Matrix.mul_smul, smul_smul, mul_comm]
  have hcc : ∀ i, star (c i) * c i ≠ 0 := fun i => mul_ne_zero (star_ne_zero.2 (hc i)) (hc i)
  have n3 : ∀ (i) (K : Matrix (Fin b) (Fin b) 𝕜) (L : Matrix (Fin a) (Fin a) 𝕜),
      trace (L * ((star (c i) * c i) • ((M i)ᴴ * K * M i))) =
        (star (c i) * c i) * trace (L * ((M i)ᴴ * K * M i)) := fun i K L => by
    rw [Matrix.mul_smul, trace_smul, smul_eq_mul]
  have n4 : ∀ (i) (x : 𝕜) {n : ℕ} (Z : Matrix (Fin n) (Fin n) 𝕜),
      ((star (c i) * c i) * x)⁻¹ • ((star (c i) * c i) • Z) = x⁻¹ • Z := fun i x n Z => by
    rw [smul_smul, mul_inv, mul_comm _ x⁻¹, mul_assoc, inv_mul_cancel₀ (hcc i), mul_one]
  simp only [kronStep, n1, n2, n3, n4, mul_eq_zero, hcc, false_or]

theorem kronStep_perm (sq : Sqrtm 𝕜) (M : Fin N → Matrix (Fin b) (Fin a) 𝕜)
    (s : Equiv.Perm (Fin N)) : kronStep (a := a) (b := b) sq (fun i => M (s i)) = kronStep sq M := by
  funext A iA B
  have n1 : ∀ {n : ℕ} (f : Fin N → Matrix (Fin n) (Fin n) 𝕜), ∑ i, f (s i) = ∑ i, f i :=
    fun f => Equiv.sum_comp s f
  have n2 : ∀ f : Fin N → 𝕜, (∃ i, f (s i) = 0) ↔ ∃ i, f i = 0 := fun f =>
    ⟨fun ⟨i, h⟩ => ⟨s i, h⟩, fun ⟨i, h⟩ => ⟨s.symm i, by rwa [Equiv.apply_symm_apply]⟩⟩
  have e : ∀ K : Matrix (Fin b) (Fin b) 𝕜, ∀ L L' : Matrix (Fin a) (Fin a) 𝕜,
      ∑ i, ((a : 𝕜) / N) • ((trace (L * ((M (s i))ᴴ * K * M (s i))))⁻¹ • ((M (s i))ᴴ * K * M (s i)))
        = ∑ i, ((a : 𝕜) / N) • ((trace (L * ((M i)ᴴ * K * M i)))⁻¹ • ((M i)ᴴ * K * M i)) ∧
      ∑ i, ((b : 𝕜) / N) • ((trace (L * ((M (s i))ᴴ * K * M (s i))))⁻¹ • (M (s i) * L' * (M (s i))ᴴ))
        = ∑ i, ((b : 𝕜) / N) • ((trace (L * ((M i)ᴴ * K * M i)))⁻¹ • (M i * L' * (M i)ᴴ)) ∧
      ((∃ i, trace (L * ((M (s i))ᴴ * K * M (s i))) = 0) ↔
        ∃ i, trace (L * ((M i)ᴴ * K * M i)) = 0) := fun K L L' =>
    ⟨n1 fun i => ((a : 𝕜) / N) • ((trace (L * ((M i)ᴴ * K * M i)))⁻¹ • ((M i)ᴴ * K * M i)),
      n1 fun i => ((b : 𝕜) / N) • ((trace (L * ((M i)ᴴ * K * M i)))⁻¹ • (M i * L' * (M i)ᴴ)),
      n2 fun i => trace (L * ((M i)ᴴ * K * M i))⟩
  simp only [kronStep, (e _ _ 1).1, (e _ _ _).2.1, (e _ _ 1).2.2]

theorem kronLoop_congr {N' : ℕ} (sq : Sqrtm 𝕜) (M : Fin N → Matrix (Fin b) (Fin a) 𝕜)
    (M' : Fin N' → Matrix (Fin b) (Fin a) 𝕜) (h : kronStep sq M = kronStep sq M') (tol : ℝ)
    (iterMax : ℤ) (s : KronState a b 𝕜) :
    kronLoop sq M tol iterMax s = kronLoop sq M' tol iterMax s := by
  induction hn : (iterMax - s.iteration).toNat generalizing s with
  | zero => rw [kronLoop, kronLoop, if_neg (by omega), if_neg (by omega)]
  | succ n ih =>
    rw [kronLoop, kronLoop, h]
    split_ifs with hc
    · cases hs : kronStep sq M' s.A s.iA s.B with
      | error e => rfl
      | ok r => exact ih _ (by simp only; push_cast; omega)
    · rfl

end
end RS
