import Verif.Props.Structured
import Verif.Props.Probability
import Verif.Lemmas.MatDeriv
import Verif.Lemmas.RealEmbed
import Mathlib.Analysis.SpecialFunctions.Log.Deriv

/-
Properties of `KroneckerStudent` and of the two `score` methods (C68, C69, C92).
-/
set_option autoImplicit false

namespace RS
open Matrix ComplexOrder

/-! ## The cost -/

/-- The cost handed to the solver is minus the log-likelihood of the data under the circular
complex t law of the given location and of shape `A ⊗ B`: it centres the data and uses
`x^H (A ⊗ B)⁻¹ x`. -/
theorem C68_cost {a b m : ℕ} {X : NDArr} {Z : Matrix (Fin m) (Fin (a * b)) ℂ} (hX : DataIs X m Z)
    {loc : Option NDArr} {mu : Fin (a * b) → ℂ} (hm : MeanIs loc mu)
    (A : Matrix (Fin a) (Fin a) ℂ) (B : Matrix (Fin b) (Fin b) ℂ) (hA : A.PosDef) (hB : B.PosDef)
    (df : ℝ) (hdf : 0 < df) :
    kronCost X df loc A B = .ok (-∑ i, ctLogDensity df mu (kron A B) (Z i)) := by
  unfold kronCost
  rw [npKron_eq, C62_frozen hX hm (kron A B) (kron_posDef hA hB) df hdf]
  rfl

/-! ## C68: the gradient -/

theorem size_eq {l : NDArr} {n : ℕ} (h : Entries l n) : l.size = n := by
  cases h <;> simp [NDArr.size, Arr.size, mul_assoc]

/-- The gradient takes no notice of the location (only of its number of entries). -/
theorem C68_location_ignored {N p : ℕ} (X : Matrix (Fin N) (Fin p) ℂ) (a b : ℕ) (df : ℝ)
    (l : NDArr) (hl : Entries l p) (A : Matrix (Fin a) (Fin a) ℂ) (B : Matrix (Fin b) (Fin b) ℂ) :
    kronEgrad X a b df (some l) A B = kronEgrad X a b df none A B := by
  simp only [kronEgrad, size_eq hl, ne_eq, not_true_eq_false, if_false]

/-- A location with another number of entries is rejected with `ValueError`. -/
theorem C68_location_size {N p n : ℕ} (X : Matrix (Fin N) (Fin p) ℂ) (a b : ℕ) (df : ℝ)
    (l : NDArr) (hl : Entries l n) (hn : n ≠ p) (A : Matrix (Fin a) (Fin a) ℂ)
    (B : Matrix (Fin b) (Fin b) ℂ) : kronEgrad X a b df (some l) A B = .error .valueError := by
  simp only [kronEgrad, size_eq hl, ne_eq, hn, not_false_eq_true, if_true]
  rfl

theorem unstack_one (x : Fin (1 * 1) → ℂ) :
    (unstack x : Matrix (Fin 1) (Fin 1) ℂ) = of fun _ _ => x 0 := by
  ext i j
  fin_cases i; fin_cases j; rfl

/-- The gradient for `a = b = 1` at `A = B = 1`. -/
theorem kronEgrad_scalar {N : ℕ} (hN : 0 < N) (x : Fin N → ℂ) (df : ℝ)
    (hd : ∀ i, df + (x i * x i).re ≠ 0) :
    kronEgrad (of fun i (_ : Fin (1 * 1)) => x i) 1 1 df none 1 1 =
      .ok (some (
        of fun _ _ => ((1 - (N : ℝ)⁻¹ * ∑ i, (df + 1) / (df + (x i * x i).re) * Complex.normSq (x i)
          : ℝ) : ℂ),
        of fun _ _ => ((1 - (N : ℝ)⁻¹ * ∑ i, (df + 1) / (df + (x i * x i).re) * Complex.normSq (x i)
          : ℝ) : ℂ))) := by
  have hM : ∀ i, (unstack ((of fun i (_ : Fin (1 * 1)) => x i : Matrix (Fin N) (Fin (1 * 1)) ℂ) i) :
      Matrix (Fin 1) (Fin 1) ℂ) = of fun _ _ => x i := fun i => unstack_one _
  have e : ∀ i, reshapeF (a := 1) (b := 1) rfl
      ((of fun i (_ : Fin (1 * 1)) => x i : Matrix (Fin N) (Fin (1 * 1)) ℂ) i) = of fun _ _ => x i :=
    fun i => (reshapeF_eq _ rfl).trans (hM i)
  have hQ : ∀ i, ((of fun _ _ => x i : Matrix (Fin 1) (Fin 1) ℂ)ᵀ * of fun _ _ => x i).trace.re =
      (x i * x i).re := fun i => by simp [trace, Matrix.mul_apply]
  have h1 : ∀ n : ℕ, pyInv (1 : Matrix (Fin n) (Fin n) ℂ) = .ok 1 := fun n => by
    rw [pyInv_posDef PosDef.one, inv_one]
  unfold kronEgrad
  simp only [bind, Except.bind, pure, Except.pure, h1]
  rw [dif_neg (by simp)]
  simp only [e, Matrix.one_mul, Matrix.mul_one, hQ]
  rw [if_neg (by
    push Not
    exact ⟨hN.ne', hd⟩)]
  refine congrArg (fun z => Except.ok (some z)) ?_
  have hs : ∀ f : Fin N → Matrix (Fin 1) (Fin 1) ℂ, ∀ i j, (∑ k, f k) i j = ∑ k, f k i j :=
    fun f i j => Matrix.sum_apply i j _ _
  have hx : ∀ i, star (x i) * x i = (Complex.normSq (x i) : ℂ) := fun i => by
    rw [Complex.normSq_eq_conj_mul_self]; rfl
  have hx' : ∀ i, x i * star (x i) = (Complex.normSq (x i) : ℂ) := fun i => by
    rw [mul_comm, hx]
  refine Prod.ext ?_ ?_
  · ext i j
    fin_cases i; fin_cases j
    simp only [conjTranspose_apply, Matrix.add_apply, Matrix.smul_apply, Matrix.neg_apply, hs,
      Matrix.mul_apply, of_apply, Finset.univ_unique, Finset.sum_singleton, hx, smul_eq_mul]
    simp
    ring
  · ext i j
    fin_cases i; fin_cases j
    simp only [conjTranspose_apply, Matrix.add_apply, Matrix.smul_apply, Matrix.neg_apply, hs,
      Matrix.mul_apply, of_apply, Finset.univ_unique, Finset.sum_singleton, hx', smul_eq_mul]
    simp
    ring

/-- C68 is false: with the sample `1`, `df = 1` and location `1`, the gradient at `A = B = 1` is 0;
with zero location on the centred sample it is 1. -/
theorem C68_violated_location :
    kronEgrad (of fun (_ : Fin 1) (_ : Fin (1 * 1)) => (1 : ℂ)) 1 1 1
        (some (.cplx (.d1 1 fun _ => 1))) 1 1 = .ok (some (0, 0)) ∧
    kronEgrad (of fun (_ : Fin 1) (_ : Fin (1 * 1)) => (1 : ℂ) - 1) 1 1 1 none 1 1 =
      .ok (some (1, 1)) := by
  have z : ∀ r : ℝ, ∀ M : Matrix (Fin 1) (Fin 1) ℂ, (r : ℂ) = M 0 0 →
      (of fun _ _ => (r : ℂ)) = M := fun r M h => by
    ext i j
    fin_cases i; fin_cases j
    exact h
  constructor
  · refine (C68_location_ignored (p := 1 * 1) _ 1 1 1 _ (Entries.vecC _) 1 1).trans ?_
    rw [kronEgrad_scalar one_pos _ _ (by intro i; norm_num)]
    rw [z _ 0 (by norm_num)]
  · rw [kronEgrad_scalar one_pos _ _ (by intro i; norm_num)]
    rw [z _ 1 (by norm_num)]

/-- C68 is false also in its second part: for the sample `i` with `df = 2` and `A = B = 1`, where
`x^H (A ⊗ B)⁻¹ x = 1` gives the weight 1 and the gradient 0, the gradient is `-2` (weight 3, from
`x^T x = -1`). -/
theorem C68_violated_form :
    kronEgrad (of fun (_ : Fin 1) (_ : Fin (1 * 1)) => Complex.I) 1 1 2 none 1 1 =
      .ok (some (of fun _ _ => -2, of fun _ _ => -2)) ∧
    (star (fun _ : Fin (1 * 1) => Complex.I) ⬝ᵥ
      ((kron 1 1 : Matrix (Fin (1 * 1)) (Fin (1 * 1)) ℂ)⁻¹ *ᵥ fun _ => Complex.I)) = 1 := by
  constructor
  · rw [kronEgrad_scalar one_pos _ _ (by intro i; norm_num)]
    norm_num
  · rw [kron_inv]
    refine (quad_kron _ _ _).trans ?_
    rw [unstack_one]
    simp [trace, Matrix.mul_apply]

/-- The gradient for real data: with the weights `(df + ab) / (df + x^T (A ⊗ B)⁻¹ x)`. Missing for the
full claim: a location other than zero, and complex data; both fail. -/
theorem C68_partial {N a b : ℕ} (hN : 0 < N) (X : Matrix (Fin N) (Fin (a * b)) ℝ) (df : ℝ)
    (hdf : 0 < df) (loc : Option NDArr) (hl : ∀ l, loc = some l → Entries l (a * b))
    (A : Matrix (Fin a) (Fin a) ℝ) (B : Matrix (Fin b) (Fin b) ℝ) (hA : A.PosDef) (hB : B.PosDef) :
    kronEgrad (toC X) a b df loc (toC A) (toC B) = .ok (some (
      toC ((b : ℝ) • A⁻¹ - (N : ℝ)⁻¹ • ∑ i, ((df + a * b) / (df + qf (kron A B) (X i))) •
        (A⁻¹ * ((unstack (X i))ᵀ * B⁻¹ * unstack (X i)) * A⁻¹)),
      toC ((a : ℝ) • B⁻¹ - (N : ℝ)⁻¹ • ∑ i, ((df + a * b) / (df + qf (kron A B) (X i))) •
        (B⁻¹ * (unstack (X i) * A⁻¹ * (unstack (X i))ᵀ) * B⁻¹)))) := by
  have hloc : kronEgrad (toC X) a b df loc (toC A) (toC B) =
      kronEgrad (toC X) a b df none (toC A) (toC B) := by
    cases loc with
    | none => rfl
    | some l => exact C68_location_ignored _ _ _ _ _ (hl l rfl) _ _
  have uA := (isUnit_iff_isUnit_det A).1 hA.isUnit
  have uB := (isUnit_iff_isUnit_det B).1 hB.isUnit
  have hAt : Aᵀ = A := by have := hA.1.eq; rwa [conjTranspose_eq_transpose_of_trivial] at this
  have hBt : Bᵀ = B := by have := hB.1.eq; rwa [conjTranspose_eq_transpose_of_trivial] at this
  have e : ∀ i, reshapeF (a := a) (b := b) rfl (toC X i) = toC (unstack (X i)) := fun i =>
    (reshapeF_eq _ rfl).trans (by ext r c; rfl)
  have tT : ∀ M : Matrix (Fin b) (Fin a) ℝ, (toC M)ᵀ = toC Mᵀ := fun M => by ext i j; rfl
  have hQ : ∀ i, (toC A⁻¹ * toC (unstack (X i))ᵀ * toC B⁻¹ * toC (unstack (X i))).trace.re =
      qf (kron A B) (X i) := fun i => by
    rw [← toC_mul, ← toC_mul, ← toC_mul, toC_trace, Complex.ofReal_re]
    have := qf_kron A B (X i)
    rw [hAt] at this
    rw [this, conjTranspose_eq_transpose_of_trivial]
    simp only [Matrix.mul_assoc]
    rfl
  have hq0 : ∀ i, 0 ≤ qf (kron A B) (X i) := fun i =>
    (RCLike.nonneg_iff.1 ((kron_posDef hA hB).inv.posSemidef.dotProduct_mulVec_nonneg (X i))).1
  rw [hloc]
  unfold kronEgrad
  simp only [bind, Except.bind, pure, Except.pure, pyInv_posDef (toC_posDef hA),
    pyInv_posDef (toC_posDef hB), toC_inv uA, toC_inv uB]
  rw [dif_neg (by simp)]
  simp only [e, tT, hQ]
  rw [if_neg (by
    push Not
    exact ⟨hN.ne', fun i => by have := hq0 i; positivity⟩)]
  refine congrArg (fun z => Except.ok (some z)) ?_
  have hiA : (A⁻¹)ᵀ = A⁻¹ := by rw [transpose_nonsing_inv, hAt]
  have hiB : (B⁻¹)ᵀ = B⁻¹ := by rw [transpose_nonsing_inv, hBt]
  have tS : ∀ {m n : ℕ} (c : ℝ) (M : Matrix (Fin m) (Fin n) ℝ), (c : ℂ) • toC M = toC (c • M) :=
    fun c M => by ext i j; simp
  have tSum : ∀ {n : ℕ} (f : Fin N → Matrix (Fin n) (Fin n) ℝ), ∑ i, toC (f i) = toC (∑ i, f i) :=
    fun f => by ext i j; simp [Matrix.sum_apply]
  have tN : ∀ {n : ℕ} (M : Matrix (Fin n) (Fin n) ℝ), -toC M = toC (-M) := fun M => by
    ext i j; simp
  have tA : ∀ {n : ℕ} (M M' : Matrix (Fin n) (Fin n) ℝ), toC M + toC M' = toC (M + M') :=
    fun M M' => by ext i j; simp
  have c1 : ((N : ℂ))⁻¹ = ((N : ℝ)⁻¹ : ℝ) := by push_cast; rfl
  have c2 : (a : ℂ) = ((a : ℝ) : ℂ) := by push_cast; rfl
  have c3 : (b : ℂ) = ((b : ℝ) : ℂ) := by push_cast; rfl
  rw [c1, c2, c3]
  simp only [toC_conjTranspose, ← toC_mul, tS, tSum, tN, tA]
  refine Prod.ext (congrArg toC ?_) (congrArg toC ?_)
  · rw [transpose_add, transpose_smul, transpose_smul, hiA, transpose_neg, transpose_sum, smul_neg,
      neg_add_eq_sub]
    congr 2
    refine Finset.sum_congr rfl fun i _ => ?_
    rw [transpose_smul]
    simp only [transpose_mul, transpose_transpose, hiA, hiB, Matrix.mul_assoc]
  · rw [transpose_add, transpose_smul, transpose_smul, hiB, transpose_neg, transpose_sum, smul_neg,
      neg_add_eq_sub]
    congr 2
    refine Finset.sum_congr rfl fun i _ => ?_
    rw [transpose_smul]
    simp only [transpose_mul, transpose_transpose, hiA, hiB, Matrix.mul_assoc]

/-! ## C92: is the gradient that of the cost? -/

theorem qf_deriv {a b : ℕ} (x : Fin (a * b) → ℝ) {A : ℝ → Matrix (Fin a) (Fin a) ℝ}
    {B : ℝ → Matrix (Fin b) (Fin b) ℝ} (hA : ∀ s, (A s).PosDef) (hB : ∀ s, (B s).PosDef)
    {A' : Matrix (Fin a) (Fin a) ℝ} {B' : Matrix (Fin b) (Fin b) ℝ} {t : ℝ}
    (dA : CurveDeriv A A' t) (dB : CurveDeriv B B' t) :
    HasDerivAt (fun s => qf (kron (A s) (B s)) x)
      (-(trace ((A t)⁻¹ * ((unstack x)ᵀ * (B t)⁻¹ * unstack x) * (A t)⁻¹ * A')) -
        trace ((B t)⁻¹ * (unstack x * (A t)⁻¹ * (unstack x)ᵀ) * (B t)⁻¹ * B')) t := by
  have uA : ∀ s, IsUnit (A s).det := fun s => (isUnit_iff_isUnit_det _).1 (hA s).isUnit
  have uB : ∀ s, IsUnit (B s).det := fun s => (isUnit_iff_isUnit_det _).1 (hB s).isUnit
  have hq : ∀ s, qf (kron (A s) (B s)) x =
      trace ((A s)⁻¹ * ((unstack x)ᵀ * (B s)⁻¹ * unstack x)) := fun s => by
    have := qf_kron (A s) (B s) x
    have hAt := (hA s).1.eq
    rw [conjTranspose_eq_transpose_of_trivial] at hAt
    rw [hAt, conjTranspose_eq_transpose_of_trivial] at this
    exact this
  have h := ((dA.inv uA).mul
    ((CurveDeriv.const_mul (unstack x)ᵀ (dB.inv uB)).mul_const (unstack x))).trace
  rw [funext hq]
  refine h.congr_deriv ?_
  rw [trace_add, Matrix.neg_mul, trace_neg, Matrix.mul_neg, Matrix.neg_mul, Matrix.mul_neg, trace_neg,
    ← sub_eq_add_neg]
  have e1 : ∀ (P C K : Matrix (Fin a) (Fin a) ℝ), trace (P * K * P * C) = trace (P * C * P * K) :=
    fun P C K => by
      rw [Matrix.mul_assoc (P * K), trace_mul_comm, ← Matrix.mul_assoc]
  have e2 : ∀ (P : Matrix (Fin a) (Fin a) ℝ) (M : Matrix (Fin b) (Fin a) ℝ)
      (Q K : Matrix (Fin b) (Fin b) ℝ),
      trace (P * (Mᵀ * (Q * K * Q) * M)) = trace (Q * (M * P * Mᵀ) * Q * K) := fun P M Q K => by
    have h1 : P * (Mᵀ * (Q * K * Q) * M) = (P * Mᵀ) * ((Q * K) * (Q * M)) := by
      simp only [Matrix.mul_assoc]
    have h2 : (Q * K) * (Q * M) * (P * Mᵀ) = (Q * K) * (Q * (M * P * Mᵀ)) := by
      simp only [Matrix.mul_assoc]
    rw [h1, trace_mul_comm, h2, trace_mul_comm, ← Matrix.mul_assoc]
  rw [e1, e2]

theorem cast_mul_prod (a b : ℕ) : ((a * b : ℕ) : ℝ) = (a : ℝ) * b := by push_cast; rfl

theorem frob_trace {n : ℕ} (G H : Matrix (Fin n) (Fin n) ℝ) :
    ∑ i, ∑ j, G i j * H i j = trace (Gᵀ * H) := by
  simp only [trace, diag_apply, Matrix.mul_apply, transpose_apply]
  rw [Finset.sum_comm]

/-- The derivative of the student cost of `A ⊗ B` along curves of positive pairs. -/
theorem studentCost_kron_deriv {N a b : ℕ} (hN : 0 < N) (X : Matrix (Fin N) (Fin (a * b)) ℝ) (df : ℝ)
    (hdf : 0 < df) {A : ℝ → Matrix (Fin a) (Fin a) ℝ} {B : ℝ → Matrix (Fin b) (Fin b) ℝ}
    (hA : ∀ s, (A s).PosDef) (hB : ∀ s, (B s).PosDef) {A' : Matrix (Fin a) (Fin a) ℝ}
    {B' : Matrix (Fin b) (Fin b) ℝ} {t : ℝ} (dA : CurveDeriv A A' t) (dB : CurveDeriv B B' t) :
    HasDerivAt (fun s => studentCost df X (kron (A s) (B s)) / N)
      (trace (((b : ℝ) • (A t)⁻¹ - (N : ℝ)⁻¹ • ∑ i,
          ((df + a * b) / (df + qf (kron (A t) (B t)) (X i))) •
          ((A t)⁻¹ * ((unstack (X i))ᵀ * (B t)⁻¹ * unstack (X i)) * (A t)⁻¹)) * A') +
        trace (((a : ℝ) • (B t)⁻¹ - (N : ℝ)⁻¹ • ∑ i,
          ((df + a * b) / (df + qf (kron (A t) (B t)) (X i))) •
          ((B t)⁻¹ * (unstack (X i) * (A t)⁻¹ * (unstack (X i))ᵀ) * (B t)⁻¹)) * B')) t := by
  have uA : IsUnit (A t).det := (isUnit_iff_isUnit_det _).1 (hA t).isUnit
  have uB : IsUnit (B t).det := (isUnit_iff_isUnit_det _).1 (hB t).isUnit
  have hq0 : ∀ s i, 0 ≤ qf (kron (A s) (B s)) (X i) := fun s i =>
    (RCLike.nonneg_iff.1 ((kron_posDef (hA s) (hB s)).inv.posSemidef.dotProduct_mulVec_nonneg (X i))).1
  have hd : ∀ i, df + qf (kron (A t) (B t)) (X i) ≠ 0 := fun i => by
    have := hq0 t i; positivity
  have hN' : (N : ℝ) ≠ 0 := by exact_mod_cast hN.ne'
  have hf : ∀ s, studentCost df X (kron (A s) (B s)) / N =
      (N : ℝ)⁻¹ * ((df + a * b) * ∑ i, Real.log (df + qf (kron (A s) (B s)) (X i))) +
        (b * Real.log (A s).det + a * Real.log (B s).det) := fun s => by
    have h := re_det_kron (hA s) (hB s)
    simp only [RCLike.re_to_real] at h
    unfold studentCost
    simp only [RCLike.re_to_real]
    rw [h, cast_mul_prod]
    field_simp
    rfl
  rw [funext hf]
  have h1 := HasDerivAt.sum (u := Finset.univ) fun i _ =>
    (((qf_deriv (X i) hA hB dA dB).const_add df).log (hd i))
  have h2 := ((dA.det_of_isUnit uA).log (isUnit_iff_ne_zero.1 uA)).const_mul (b : ℝ)
  have h3 := ((dB.det_of_isUnit uB).log (isUnit_iff_ne_zero.1 uB)).const_mul (a : ℝ)
  have h4 := ((h1.const_mul (df + a * b)).const_mul (N : ℝ)⁻¹).add (h2.add h3)
  have e : (fun s => (N : ℝ)⁻¹ * ((df + a * b) * ∑ i, Real.log (df + qf (kron (A s) (B s)) (X i))) +
        (b * Real.log (A s).det + a * Real.log (B s).det)) =
      ((fun s => (N : ℝ)⁻¹ * ((df + a * b) * (∑ i, fun s => Real.log (df + qf (kron (A s) (B s)) (X i))) s)) +
        ((fun s => b * Real.log (A s).det) + fun s => a * Real.log (B s).det)) := by
    funext s
    simp only [Pi.add_apply, Finset.sum_apply]
  rw [e]
  refine h4.congr_deriv ?_
  rw [Matrix.sub_mul, Matrix.sub_mul, trace_sub, trace_sub, Matrix.smul_mul, Matrix.smul_mul,
    Matrix.smul_mul, Matrix.smul_mul, trace_smul, trace_smul, trace_smul, trace_smul,
    Matrix.sum_mul, Matrix.sum_mul, trace_sum, trace_sum]
  simp only [Matrix.smul_mul, trace_smul, smul_eq_mul]
  rw [mul_div_cancel_left₀ _ (isUnit_iff_ne_zero.1 uA), mul_div_cancel_left₀ _ (isUnit_iff_ne_zero.1 uB)]
  have e5 : ∀ (c : ℝ) (u v w : Fin N → ℝ), c * ∑ i, (-u i - v i) / w i =
      -(∑ i, c / w i * u i) - ∑ i, c / w i * v i := fun c u v w => by
    rw [Finset.mul_sum, ← Finset.sum_neg_distrib, ← Finset.sum_sub_distrib]
    refine Finset.sum_congr rfl fun i _ => ?_
    ring
  rw [e5]
  ring

/-- For real data and zero location the pair given to the solver is the gradient, in the plain
(entrywise) inner product, of the real student cost of `A ⊗ B` divided by the number of samples.
Missing for the full claim: this is not the cost given to the solver, nor a multiple of it up to a
constant, see `C92_violated`. -/
theorem C92_partial {N a b : ℕ} (hN : 0 < N) (X : Matrix (Fin N) (Fin (a * b)) ℝ) (df : ℝ)
    (hdf : 0 < df) {A : ℝ → Matrix (Fin a) (Fin a) ℝ} {B : ℝ → Matrix (Fin b) (Fin b) ℝ}
    (hA : ∀ s, (A s).PosDef) (hB : ∀ s, (B s).PosDef) {A' : Matrix (Fin a) (Fin a) ℝ}
    {B' : Matrix (Fin b) (Fin b) ℝ} {t : ℝ} (dA : CurveDeriv A A' t) (dB : CurveDeriv B B' t) :
    ∃ gA gB, kronEgrad (toC X) a b df none (toC (A t)) (toC (B t)) = .ok (some (toC gA, toC gB)) ∧
      HasDerivAt (fun s => studentCost df X (kron (A s) (B s)) / N)
        (∑ i, ∑ j, gA i j * A' i j + ∑ i, ∑ j, gB i j * B' i j) t := by
  refine ⟨_, _, C68_partial hN X df hdf none (by simp) (A t) (B t) (hA t) (hB t), ?_⟩
  have hAt : (A t)ᵀ = A t := by
    have := (hA t).1.eq; rwa [conjTranspose_eq_transpose_of_trivial] at this
  have hBt : (B t)ᵀ = B t := by
    have := (hB t).1.eq; rwa [conjTranspose_eq_transpose_of_trivial] at this
  have hiA : ((A t)⁻¹)ᵀ = (A t)⁻¹ := by rw [transpose_nonsing_inv, hAt]
  have hiB : ((B t)⁻¹)ᵀ = (B t)⁻¹ := by rw [transpose_nonsing_inv, hBt]
  refine (studentCost_kron_deriv hN X df hdf hA hB dA dB).congr_deriv ?_
  rw [frob_trace, frob_trace]
  congr 3
  · rw [transpose_sub, transpose_smul, transpose_smul, hiA, transpose_sum]
    congr 2
    refine Finset.sum_congr rfl fun i _ => ?_
    rw [transpose_smul]
    simp only [transpose_mul, transpose_transpose, hiA, hiB, Matrix.mul_assoc]
  · rw [transpose_sub, transpose_smul, transpose_smul, hiB, transpose_sum]
    congr 2
    refine Finset.sum_congr rfl fun i _ => ?_
    rw [transpose_smul]
    simp only [transpose_mul, transpose_transpose, hiA, hiB, Matrix.mul_assoc]

/-- The hypotheses are met by the curves `A = exp(s) 1`, `B = 1` in any dimensions. -/
example (a b : ℕ) : (∀ s, (Real.exp s • (1 : Matrix (Fin a) (Fin a) ℝ)).PosDef) ∧
    (∀ _ : ℝ, (1 : Matrix (Fin b) (Fin b) ℝ).PosDef) ∧
    CurveDeriv (fun s => Real.exp s • (1 : Matrix (Fin a) (Fin a) ℝ)) (Real.exp 2 • 1) 2 ∧
    CurveDeriv (fun _ => (1 : Matrix (Fin b) (Fin b) ℝ)) 0 2 :=
  ⟨fun s => PosDef.one.smul (Real.exp_pos s), fun _ => PosDef.one,
    fun i j => (Real.hasDerivAt_exp 2).mul_const _, CurveDeriv.const _ _⟩

/-- The two samples `1/2` and `3`, as rows. -/
noncomputable def kronTwo : Matrix (Fin 2) (Fin (1 * 1)) ℂ :=
  of fun i _ => ((if i = 0 then 1 / 2 else 3 : ℝ) : ℂ)

theorem kron_scalar (c : ℂ) (x : Fin (1 * 1) → ℂ) :
    (kron (c • 1 : Matrix (Fin 1) (Fin 1) ℂ) (1 : Matrix (Fin 1) (Fin 1) ℂ)).det = c ∧
    star x ⬝ᵥ ((kron (c • 1 : Matrix (Fin 1) (Fin 1) ℂ) (1 : Matrix (Fin 1) (Fin 1) ℂ))⁻¹ *ᵥ x) =
      c⁻¹ * Complex.normSq (x 0) := by
  constructor
  · rw [det_kron]
    simp
  · rw [kron_inv]
    refine (quad_kron _ _ _).trans ?_
    rw [unstack_one, Complex.normSq_eq_conj_mul_self, inv_one]
    have : ((c • 1 : Matrix (Fin 1) (Fin 1) ℂ))⁻¹ = c⁻¹ • 1 := by
      ext i j
      fin_cases i; fin_cases j
      simp
    rw [this]
    simp [trace, Matrix.mul_apply]

/-- C92 is false: for the samples `1/2` and `3`, `df = 1` and no location, the cost given to the
solver grows when `A` grows from `A = B = 1` (its derivative along `A = 1 + t` is positive), yet the
gradient given to the solver is negative there. -/
theorem C92_violated :
    ∃ f : ℝ → ℝ,
      (∀ t : ℝ, -1 < t → kronCost (.cplx (.d2 2 (1 * 1) kronTwo)) 1 none
        (((1 + t : ℝ) : ℂ) • (1 : Matrix (Fin 1) (Fin 1) ℂ)) (1 : Matrix (Fin 1) (Fin 1) ℂ) =
          .ok (f t)) ∧
      HasDerivAt f (3 / 38) 0 ∧
      kronEgrad kronTwo 1 1 1 none 1 1 =
        .ok (some (of fun _ _ => ((-1 / 10 : ℝ) : ℂ), of fun _ _ => ((-1 / 10 : ℝ) : ℂ))) := by
  refine ⟨fun t => -∑ i : Fin 2, (Real.log (Real.Gamma (1 / 2 + 1)) - Real.log (Real.Gamma (1 / 2)) -
    Real.log (Real.pi / 2) - Real.log (1 + t) -
    3 / 2 * Real.log (1 + 2 * (if i = 0 then 1 / 4 else 9) / (1 + t))), fun t ht => ?_, ?_, ?_⟩
  · have hc : 0 < 1 + t := by linarith
    have hA : ((((1 + t : ℝ) : ℂ)) • (1 : Matrix (Fin 1) (Fin 1) ℂ)).PosDef :=
      PosDef.one.smul (by exact_mod_cast hc)
    rw [C68_cost (DataIs.cplx2 2 kronTwo) MeanIs.none _ _ hA PosDef.one 1 one_pos]
    congr 2
    refine Finset.sum_congr rfl fun i _ => ?_
    unfold ctLogDensity
    rw [sub_zero, (kron_scalar _ (kronTwo i)).1, (kron_scalar _ (kronTwo i)).2,
      Complex.ofReal_re]
    have hn : (((1 + t : ℝ) : ℂ)⁻¹ * (Complex.normSq (kronTwo i 0) : ℂ)).re =
        (if i = 0 then 1 / 4 else 9) / (1 + t) := by
      rw [← Complex.ofReal_inv, ← Complex.ofReal_mul, Complex.ofReal_re]
      fin_cases i
      · simp [kronTwo]; ring
      · simp [kronTwo]; ring
    rw [hn]
    norm_num
    ring_nf
    split_ifs <;> ring_nf
  · have h0 : HasDerivAt (fun t : ℝ => 1 + t) 1 0 := (hasDerivAt_id 0).const_add 1
    have hl : HasDerivAt (fun t : ℝ => Real.log (1 + t)) 1 0 := by
      have := h0.log (by norm_num)
      simpa using this
    have hq : ∀ k : ℝ, 0 < k → HasDerivAt (fun t : ℝ => Real.log (1 + k / (1 + t))) (-k / (1 + k)) 0 :=
      fun k hk => by
        have h1 : HasDerivAt (fun t : ℝ => 1 + k / (1 + t)) (-k) 0 := by
          have := ((hasDerivAt_const (0 : ℝ) k).div h0 (by norm_num)).const_add 1
          simpa using this
        have := h1.log (by simp; positivity)
        simpa using this
    have h1 := hl.add (((hq (1 / 2) (by norm_num)).const_mul (3 / 2)))
    have h2 := hl.add (((hq 18 (by norm_num)).const_mul (3 / 2)))
    have h3 := (h1.add h2).const_add (-2 * (Real.log (Real.Gamma (1 / 2 + 1)) -
      Real.log (Real.Gamma (1 / 2)) - Real.log (Real.pi / 2)))
    refine (h3.congr_deriv (by norm_num)).congr_of_eventuallyEq (Filter.Eventually.of_forall fun t => ?_)
    simp only [Fin.sum_univ_two, Pi.add_apply]
    norm_num
    ring
  · have e : kronTwo = of fun i (_ : Fin (1 * 1)) =>
        (((if i = 0 then 1 / 2 else 3 : ℝ) : ℝ) : ℂ) := rfl
    rw [e, kronEgrad_scalar (by norm_num) _ _ (by intro i; fin_cases i <;> norm_num)]
    simp only [Fin.sum_univ_two]
    norm_num

/-! ## C69: the scores -/

/-- `KroneckerEllipticalMM.score` takes no notice of what was fitted, and returns 0 whenever it
returns. -/
theorem C69_mm (sqR : Sqrtm ℝ) (sqC : Sqrtm ℂ) (P : KronMMParams) (f f' : Option (KronFit P.a P.b))
    (X : NDArr) :
    kronMMScore sqR sqC P f X = kronMMScore sqR sqC P f' X ∧
    ∀ r, kronMMScore sqR sqC P f X = .ok r → r = 0 := by
  refine ⟨rfl, fun r hr => ?_⟩
  unfold kronMMScore at hr
  cases X with
  | real x =>
    cases x with
    | d2 n p Z =>
      simp only [bind, Except.bind] at hr
      cases h : kroneckerMM sqR Z P.a P.b P.tol P.iterMax with
      | error e => simp [h] at hr
      | ok o => cases o <;> simp [h, pure, Except.pure] at hr; exact hr.symm
    | _ => simp at hr
  | cplx x =>
    cases x with
    | d2 n p Z =>
      simp only [bind, Except.bind] at hr
      cases h : kroneckerMM sqC Z P.a P.b P.tol P.iterMax with
      | error e => simp [h] at hr
      | ok o => cases o <;> simp [h, pure, Except.pure] at hr; exact hr.symm
    | _ => simp at hr

/-- The rows of the identity. -/
theorem kronEye_ok : KronData fun i =>
    (unstack ((1 : Matrix (Fin 2) (Fin (2 * 1)) ℂ) i) : Matrix (Fin 1) (Fin 2) ℂ) := by
  have e : ∀ i, (unstack ((1 : Matrix (Fin 2) (Fin (2 * 1)) ℂ) i) : Matrix (Fin 1) (Fin 2) ℂ) =
      of fun _ j => if i = j then 1 else 0 := fun i => by
    ext r c
    fin_cases i <;> fin_cases r <;> fin_cases c <;> rfl
  refine ⟨fun i h => ?_, fun v hv => ?_, fun u hu => ?_⟩
  · have := congrFun (congrFun ((e i).symm.trans h) 0) i
    simp at this
  · funext i
    have := congrFun (hv i) 0
    simpa [e, mulVec, dotProduct] using this
  · funext r
    have := congrFun (hu 0) 0
    fin_cases r
    simpa [e, mulVec, dotProduct, conjTranspose_apply] using this

/-- C69 is false for `KroneckerEllipticalMM`: two fitted objects of the same parameters whose
covariances have different Tyler costs on a test set get the score 0 on it, both. -/
theorem C69_mm_violated (sqR : Sqrtm ℝ) (sqC : Sqrtm ℂ) (hsq : SqrtmPD sqC) :
    ∃ (P : KronMMParams) (X₁ X₂ : NDArr) (f₁ f₂ : KronFit P.a P.b) (Z : Matrix (Fin 50) (Fin 2) ℂ)
      (C₁ C₂ : Matrix (Fin 2) (Fin 2) ℂ),
      kronMMFit sqC P X₁ = .ok f₁ ∧ kronMMFit sqC P X₂ = .ok f₂ ∧
      f₁.covariance = .cplx (.d2 2 2 C₁) ∧ f₂.covariance = .cplx (.d2 2 2 C₂) ∧
      tylerCost Z C₁ < tylerCost Z C₂ ∧
      kronMMScore sqR sqC P (some f₁) (.cplx (.d2 50 2 Z)) = .ok 0 ∧
      kronMMScore sqR sqC P (some f₂) (.cplx (.d2 50 2 Z)) = .ok 0 := by
  obtain ⟨o₂, h₂, -, hlt⟩ := C91_violated sqC hsq 0
  obtain ⟨o₁, A, B, d, h1, h2, h3, h4, h5⟩ := C67_run sqC hsq (1 : Matrix (Fin 2) (Fin (2 * 1)) ℂ)
    kronEye_ok (by norm_num) (by norm_num) 0 1
  have e : ∀ i, (unstack ((1 : Matrix (Fin 2) (Fin (2 * 1)) ℂ) i) : Matrix (Fin 1) (Fin 2) ℂ) =
      of fun _ j => if i = j then 1 else 0 := fun i => by
    ext r c
    fin_cases i <;> fin_cases r <;> fin_cases c <;> rfl
  have hit : o₁.iteration = 1 := by
    have hb := h4.bound
    by_contra hne
    have : o₁.iteration = 0 := by have : (o₁.iteration : ℤ) ≤ 1 := by simpa using hb
                                  omega
    have hs := h4.stopped (by rw [this]; norm_num)
    rw [this, h4.start.2.2] at hs
    exact hs trivial
  have hu := h4.next 0 (by omega)
  rw [h4.start.1, h4.start.2.1] at hu
  have hA : A 1 = 1 := by
    refine (hu.uniqA 1 PosDef.one ?_).symm
    ext i j
    fin_cases i <;> fin_cases j <;>
      simp [scatterA, e, Fin.sum_univ_two, Matrix.mul_apply, trace, conjTranspose_apply]
  have hB : B 1 = 1 := by
    refine (hu.uniqB 1 PosDef.one ?_).symm
    ext i j
    fin_cases i; fin_cases j
    simp [scatterB, e, hA, Fin.sum_univ_two, Matrix.mul_apply, trace, conjTranspose_apply]
    norm_num
  rw [hit, hA] at h2
  rw [hit, hB] at h3
  let P : KronMMParams := ⟨2, 1, 0, 1⟩
  have hfit : ∀ (n : ℕ) (X : Matrix (Fin n) (Fin (2 * 1)) ℂ) (o : KronOut 2 1 ℂ), 0 < n →
      kroneckerMM sqC X 2 1 0 1 = .ok (some o) →
      kronMMFit sqC P (.cplx (.d2 n (2 * 1) X)) =
        .ok ⟨o.A, o.B, .cplx (.d2 (2 * 1) (2 * 1) (kron o.A o.B))⟩ := fun n X o hn ho => by
    simp only [P, kronMMFit, arraytoreal_check_complex n (2 * 1) hn (by norm_num) X, bind,
      Except.bind, ho, npKron_eq, setCovariance_complex (2 * 1) (by norm_num), pure, Except.pure]
  have hscore : ∀ f, kronMMScore sqR sqC P f (.cplx (.d2 50 (2 * 1) kronWitness)) = .ok 0 := fun f => by
    simp only [P, kronMMScore, bind, Except.bind, h₂, pure, Except.pure]
  refine ⟨P, .cplx (.d2 2 (2 * 1) 1), .cplx (.d2 50 (2 * 1) kronWitness), _, _, kronWitness,
    kron o₁.A o₁.B, kron o₂.A o₂.B, hfit 2 1 o₁ (by norm_num) h1, hfit 50 _ o₂ (by norm_num) h₂,
    rfl, rfl, ?_, hscore _, hscore _⟩
  rw [← h2, ← h3]
  exact hlt

/-- `KroneckerStudent.score` takes no notice of the fitted covariance: two fitted objects of the
same location get the same score, whatever the solver does. -/
theorem C69_student_violated (P : KronStudentParams) (solve : KronSolver P.a P.b)
    (f f' : KronStudentFit P.a P.b) (h : f.location = f'.location) (X : NDArr) :
    kronStudentScore P solve (some f) X = kronStudentScore P solve (some f') X := by
  simp only [kronStudentScore, h]

/-- What it is: minus the log-likelihood of the test set, for the fitted location and for the pair
`A, B` which the solver finds on the test set. Missing for the full claim: the fitted covariance
(never used) and the sign. -/
theorem C69_student_partial (P : KronStudentParams) (solve : KronSolver P.a P.b) (hdf : 0 < P.df)
    (f : KronStudentFit P.a P.b) {m : ℕ} (Z : Matrix (Fin m) (Fin (P.a * P.b)) ℂ)
    {mu : Fin (P.a * P.b) → ℂ} (hm : MeanIs (some f.location) mu) (A : Matrix (Fin P.a) (Fin P.a) ℂ)
    (B : Matrix (Fin P.b) (Fin P.b) ℂ) (hA : A.PosDef) (hB : B.PosDef)
    (h : solve (kronCost (.cplx (.d2 m (P.a * P.b) Z)) P.df (some f.location))
      (kronEgrad Z P.a P.b P.df (some f.location)) (1, 1) = .ok (A, B)) :
    kronStudentScore P solve (some f) (.cplx (.d2 m (P.a * P.b) Z)) =
      .ok (-∑ i, ctLogDensity P.df mu (kron A B) (Z i)) := by
  have e : kronGradientEstimate solve (.cplx (.d2 m (P.a * P.b) Z)) P.df (some f.location) none =
      .ok (A, B) := h
  simp only [kronStudentScore, e, bind, Except.bind]
  exact C68_cost (DataIs.cplx2 m Z) hm A B hA hB P.df hdf

/-- The sign is wrong: for a solver which returns the starting point, of two fitted objects the one
whose law makes the test set more likely has the smaller score. -/
theorem C69_student_violated_sign :
    ∃ (P : KronStudentParams) (solve : KronSolver P.a P.b) (f f' : KronStudentFit P.a P.b)
      (mu mu' : Fin (P.a * P.b) → ℂ) (C : Matrix (Fin (P.a * P.b)) (Fin (P.a * P.b)) ℂ)
      (Z : Matrix (Fin 1) (Fin (P.a * P.b)) ℂ) (s s' : ℝ),
      f.location = .cplx (.d1 _ mu) ∧ f'.location = .cplx (.d1 _ mu') ∧
      f.covariance = .cplx (.d2 _ _ C) ∧ f'.covariance = .cplx (.d2 _ _ C) ∧
      ∑ i, ctLogDensity P.df mu' C (Z i) < ∑ i, ctLogDensity P.df mu C (Z i) ∧
      kronStudentScore P solve (some f) (.cplx (.d2 1 _ Z)) = .ok s ∧
      kronStudentScore P solve (some f') (.cplx (.d2 1 _ Z)) = .ok s' ∧ s < s' := by
  let P : KronStudentParams := ⟨1, 1, 1, true⟩
  let solve : KronSolver P.a P.b := fun _ _ x => .ok x
  let C : Matrix (Fin (1 * 1)) (Fin (1 * 1)) ℂ := kron (1 : Matrix (Fin 1) (Fin 1) ℂ) (1 : Matrix (Fin 1) (Fin 1) ℂ)
  let f : KronStudentFit P.a P.b := ⟨.cplx (.d1 (1 * 1) 0), 1, 1, .cplx (.d2 (1 * 1) (1 * 1) C)⟩
  let f' : KronStudentFit P.a P.b := ⟨.cplx (.d1 (1 * 1) 1), 1, 1, .cplx (.d2 (1 * 1) (1 * 1) C)⟩
  have hl : ∑ i : Fin 1, ctLogDensity P.df (1 : Fin (1 * 1) → ℂ) C ((0 : Matrix (Fin 1) (Fin (1 * 1)) ℂ) i) <
      ∑ i : Fin 1, ctLogDensity P.df (0 : Fin (1 * 1) → ℂ) C ((0 : Matrix (Fin 1) (Fin (1 * 1)) ℂ) i) := by
    have hC : C = kron (((1 : ℝ) : ℂ) • 1) 1 := by simp [C]
    have hx : ∀ x : Fin (1 * 1) → ℂ, C.det = 1 ∧
        star x ⬝ᵥ (C⁻¹ *ᵥ x) = Complex.normSq (x 0) := fun x => by
      have := kron_scalar ((1 : ℝ) : ℂ) x
      rw [← hC] at this
      simpa using this
    simp only [Fin.sum_univ_one]
    unfold ctLogDensity
    rw [(hx 0).1, (hx _).2, (hx _).2]
    have : 0 < Real.log 3 := Real.log_pos (by norm_num)
    simp [P]
    norm_num
    linarith
  refine ⟨P, solve, f, f', 0, 1, C, 0, _, _, rfl, rfl, rfl, rfl, hl,
    C69_student_partial P solve one_pos f 0 (MeanIs.cplx 0) 1 1 PosDef.one PosDef.one rfl,
    C69_student_partial P solve one_pos f' 0 (MeanIs.cplx 1) 1 1 PosDef.one PosDef.one rfl, ?_⟩
  exact neg_lt_neg hl

end RS
