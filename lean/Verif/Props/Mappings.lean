import Verif.Lemmas.Mappings
import Mathlib.Tactic.IntervalCases
import Mathlib.LinearAlgebra.Matrix.Notation

/-
Properties of `robuststats/models/mappings.py`: C01 - C06, C77.
-/
set_option autoImplicit false

namespace RS
open Matrix ComplexOrder

/-! ## C01: array complex/real round trip -/

theorem C01_complex_real_complex_1d (n : ℕ) (v : Fin n → ℂ) :
    (arraytoreal (.cplx (.d1 n v)) >>= arraytocomplex) = .ok (.cplx (.d1 n v)) := by
  have h : (n + n) / 2 = (n + n) - (n + n) / 2 := by omega
  simp only [arraytoreal, bind, Except.bind, arraytocomplex, bcast1]
  rw [dif_pos h]
  simp only [pure, Except.pure]
  congr 2
  apply Arr.d1_congr (by omega)
  intro i
  rw [fst_append, snd_append]
  exact addI_re_im _

theorem C01_complex_real_complex_2d (m n : ℕ) (hm : 0 < m) (a : Matrix (Fin m) (Fin n) ℂ) :
    (arraytoreal (.cplx (.d2 m n a)) >>= arraytocomplex) = .ok (.cplx (.d2 m n a)) := by
  have h : (n + n) / 2 = (n + n) - (n + n) / 2 := by omega
  simp only [arraytoreal, bind, Except.bind, arraytocomplex, bcast2]
  rw [dif_pos h]
  simp only [vstackArr, if_neg hm.ne', pure, Except.pure]
  congr 2
  apply Arr.d2_congr (by omega)
  intro i j
  rw [fst_append, snd_append]
  exact addI_re_im _

theorem C01_real_complex_real_1d (n : ℕ) (hn : n % 2 = 0) (v : Fin n → ℝ) :
    (arraytocomplex (.real (.d1 n v)) >>= arraytoreal) = .ok (.real (.d1 n v)) := by
  have h : n / 2 = n - n / 2 := by omega
  simp only [arraytoreal, bind, Except.bind, arraytocomplex, bcast1]
  rw [dif_pos h]
  simp only [pure, Except.pure]
  congr 2
  apply Arr.d1_congr (by omega)
  intro i
  refine Fin.addCases (fun j => ?_) (fun j => ?_) i
  · rw [Fin.append_left, addI_re]; rfl
  · rw [Fin.append_right, addI_im]
    simp only [secondHalf]
    congr 1; ext; simp; omega

theorem C01_real_complex_real_2d (m n : ℕ) (hm : 0 < m) (hn : n % 2 = 0)
    (a : Matrix (Fin m) (Fin n) ℝ) :
    (arraytocomplex (.real (.d2 m n a)) >>= arraytoreal) = .ok (.real (.d2 m n a)) := by
  have h : n / 2 = n - n / 2 := by omega
  simp only [arraytoreal, bind, Except.bind, arraytocomplex, bcast2]
  rw [dif_pos h]
  simp only [vstackArr, if_neg hm.ne', pure, Except.pure]
  congr 2
  apply Arr.d2_congr (by omega)
  intro i j
  refine Fin.addCases (fun k => ?_) (fun k => ?_) j
  · rw [Fin.append_left, addI_re]; rfl
  · rw [Fin.append_right, addI_im]
    simp only [secondHalf]
    congr 1; ext; simp; omega

/-- The layout of the real form: real parts first, imaginary parts after, so that the
round trip is not achieved by two mappings that agree on a different convention. -/
theorem C01_layout_1d (n : ℕ) (v : Fin n → ℂ) :
    ∃ w : Fin (n + n) → ℝ, arraytoreal (.cplx (.d1 n v)) = .ok (.real (.d1 (n + n) w)) ∧
      ∀ i : Fin n, w (Fin.castAdd n i) = (v i).re ∧ w (Fin.natAdd n i) = (v i).im :=
  ⟨_, rfl, fun i => ⟨by rw [Fin.append_left], by rw [Fin.append_right]⟩⟩

theorem C01_layout_2d (m n : ℕ) (a : Matrix (Fin m) (Fin n) ℂ) :
    ∃ w : Matrix (Fin m) (Fin (n + n)) ℝ,
      arraytoreal (.cplx (.d2 m n a)) = .ok (.real (.d2 m (n + n) w)) ∧
      ∀ i j, w i (Fin.castAdd n j) = (a i j).re ∧ w i (Fin.natAdd n j) = (a i j).im :=
  ⟨_, rfl, fun i j => ⟨by rw [Fin.append_left], by rw [Fin.append_right]⟩⟩

/-- Without rows the 2-D round trip is an error: `np.vstack` has nothing to stack. -/
theorem C01_empty_2d_raises (n : ℕ) (a : Matrix (Fin 0) (Fin n) ℂ) :
    (arraytoreal (.cplx (.d2 0 n a)) >>= arraytocomplex) = .error .valueError := by
  have h : (n + n) / 2 = (n + n) - (n + n) / 2 := by omega
  simp only [arraytoreal, bind, Except.bind, arraytocomplex, bcast2]
  rw [dif_pos h]
  simp [vstackArr]

/-! ## C02: covariance complex/real round trip -/

theorem C02_covariance_round_trip (n : ℕ) (a : Matrix (Fin n) (Fin n) ℂ) :
    (covariancetoreal (.cplx (.d2 n n a)) >>= covariancetocomplex) = .ok (.cplx (.d2 n n a)) := by
  have h : (n + n) % 2 = 0 := by omega
  simp only [covariancetoreal, bind, Except.bind, covariancetocomplex, dif_pos, h]
  congr 2
  apply Arr.d2_congr_sq (by omega)
  intro i j
  rw [complexify_realify]; rfl

theorem C02_covariances_round_trip (k n : ℕ) (a : Fin k → Matrix (Fin n) (Fin n) ℂ) :
    (covariancestoreal (.cplx (.d3 k n n a)) >>= covariancestocomplex)
      = .ok (.cplx (.d3 k n n a)) := by
  have h : (n + n) % 2 = 0 := by omega
  simp only [covariancestoreal, bind, Except.bind, covariancestocomplex, dif_pos, h]
  congr 2
  apply Arr.d3_congr (by omega)
  intro l i j
  rw [complexify_realify]; rfl

/-- The stacked version treats the stack matrix by matrix: matrix `l` of the output is
what `covariancetoreal` returns on matrix `l` of the input. -/
theorem C02_stack_is_matrixwise (k n : ℕ) (a : Fin k → Matrix (Fin n) (Fin n) ℂ) :
    ∃ b : Fin k → Matrix (Fin (n + n)) (Fin (n + n)) ℝ,
      covariancestoreal (.cplx (.d3 k n n a)) = .ok (.real (.d3 k (n + n) (n + n) b)) ∧
      ∀ l, covariancetoreal (.cplx (.d2 n n (a l))) = .ok (.real (.d2 (n + n) (n + n) (b l))) :=
  ⟨fun l => realify (a l), by simp [covariancestoreal], fun l => by simp [covariancetoreal]⟩

/-- The same in the other direction. -/
theorem C02_stack_is_matrixwise' (k n : ℕ) (hn : n % 2 = 0)
    (a : Fin k → Matrix (Fin n) (Fin n) ℝ) :
    ∃ b : Fin k → Matrix (Fin (n / 2)) (Fin (n / 2)) ℂ,
      covariancestocomplex (.real (.d3 k n n a)) = .ok (.cplx (.d3 k (n / 2) (n / 2) b)) ∧
      ∀ l, covariancetocomplex (.real (.d2 n n (a l)))
        = .ok (.cplx (.d2 (n / 2) (n / 2) (b l))) :=
  ⟨fun l => complexify (a l) hn, by simp [covariancestocomplex, hn],
    fun l => by simp [covariancetocomplex, hn]⟩

/-! ## C03: pass-through, idempotence, rejected formats -/

theorem C03_to_real_passes_real (a : Arr ℝ) :
    arraytoreal (.real a) = .ok (.real a) ∧ covariancetoreal (.real a) = .ok (.real a) ∧
    covariancestoreal (.real a) = .ok (.real a) := ⟨rfl, rfl, rfl⟩

theorem C03_to_complex_passes_complex (a : Arr ℂ) :
    arraytocomplex (.cplx a) = .ok (.cplx a) ∧ covariancetocomplex (.cplx a) = .ok (.cplx a) ∧
    covariancestocomplex (.cplx a) = .ok (.cplx a) := ⟨rfl, rfl, rfl⟩

/-- A to-real mapping that succeeds returns a real array; applying it again returns the
same array. -/
theorem C03_to_real_idempotent (f : NDArr → Py NDArr)
    (hf : f = arraytoreal ∨ f = covariancetoreal ∨ f = covariancestoreal) (a b : NDArr)
    (h : f a = .ok b) : b.isComplex = false ∧ f b = .ok b := by
  have key : ∃ r, b = .real r := by
    rcases hf with rfl | rfl | rfl
    · unfold arraytoreal at h; split at h <;> cases h <;> exact ⟨_, rfl⟩
    · unfold covariancetoreal at h; split at h
      · split_ifs at h; cases h; exact ⟨_, rfl⟩
      · cases h
      · cases h; exact ⟨_, rfl⟩
    · unfold covariancestoreal at h; split at h
      · cases h; exact ⟨_, rfl⟩
      · split_ifs at h <;> cases h <;> exact ⟨_, rfl⟩
      · cases h
  obtain ⟨r, rfl⟩ := key
  refine ⟨rfl, ?_⟩
  rcases hf with rfl | rfl | rfl <;> rfl

/-- A to-complex mapping that succeeds returns a complex array; applying it again returns
the same array. -/
theorem C03_to_complex_idempotent (f : NDArr → Py NDArr)
    (hf : f = arraytocomplex ∨ f = covariancetocomplex ∨ f = covariancestocomplex)
    (a b : NDArr) (h : f a = .ok b) : b.isComplex = true ∧ f b = .ok b := by
  have key : ∃ r, b = .cplx r := by
    rcases hf with rfl | rfl | rfl
    · unfold arraytocomplex at h; split at h
      · simp only [bind, Except.bind, pure, Except.pure] at h
        split at h <;> cases h; exact ⟨_, rfl⟩
      · simp only [bind, Except.bind, pure, Except.pure] at h
        split at h
        · cases h
        · split at h <;> cases h; exact ⟨_, rfl⟩
      · cases h
      · cases h; exact ⟨_, rfl⟩
    · unfold covariancetocomplex at h; split at h
      · split_ifs at h; cases h; exact ⟨_, rfl⟩
      · cases h
      · cases h; exact ⟨_, rfl⟩
    · unfold covariancestocomplex at h; split at h
      · cases h; exact ⟨_, rfl⟩
      · split_ifs at h <;> cases h <;> exact ⟨_, rfl⟩
      · cases h
  obtain ⟨r, rfl⟩ := key
  refine ⟨rfl, ?_⟩
  rcases hf with rfl | rfl | rfl <;> rfl

/-- `arraytoreal` on a complex array raises exactly for `ndim` other than 1 and 2, and
then it raises `AttributeError`. -/
theorem C03_arraytoreal_rejects (a : Arr ℂ) :
    arraytoreal (.cplx a) = .error .attributeError ↔ a.ndim ≠ 1 ∧ a.ndim ≠ 2 := by
  cases a with
  | dn s h d => exact ⟨fun _ => ⟨by simp only [Arr.ndim]; omega, by simp only [Arr.ndim]; omega⟩,
      fun _ => rfl⟩
  | _ => simp [arraytoreal, Arr.ndim]

/-- `arraytocomplex` rejects real arrays of `ndim` other than 1 or 2 with `AttributeError`. -/
theorem C03_arraytocomplex_rejects (a : Arr ℝ) (h : a.ndim ≠ 1 ∧ a.ndim ≠ 2) :
    arraytocomplex (.real a) = .error .attributeError := by
  cases a <;> simp_all [arraytocomplex, Arr.ndim]

/-- `covariancetoreal` on a complex array raises exactly when the array is not a square
matrix, and then it raises `AttributeError`. -/
theorem C03_covariancetoreal_rejects (a : Arr ℂ) :
    covariancetoreal (.cplx a) = .error .attributeError ↔
      ¬ ∃ (n : ℕ) (m : Matrix (Fin n) (Fin n) ℂ), a = .d2 n n m := by
  cases a with
  | d2 m n a =>
    simp only [covariancetoreal]
    split_ifs with h
    · subst h; simp
    · refine ⟨fun _ => ?_, fun _ => rfl⟩
      rintro ⟨k, b, hb⟩
      cases hb; exact h rfl
  | _ => simp [covariancetoreal]

/-- `covariancetocomplex` on a real array raises exactly when the array is not a square
matrix of even size. -/
theorem C03_covariancetocomplex_rejects (a : Arr ℝ) :
    covariancetocomplex (.real a) = .error .attributeError ↔
      ¬ ∃ (n : ℕ) (m : Matrix (Fin n) (Fin n) ℝ), a = .d2 n n m ∧ n % 2 = 0 := by
  cases a with
  | d2 m n a =>
    simp only [covariancetocomplex]
    split_ifs with h h2
    · subst h; simpa using h2
    · refine ⟨fun _ => ?_, fun _ => rfl⟩
      rintro ⟨k, b, hb, hk⟩
      cases hb; exact h2 hk
    · refine ⟨fun _ => ?_, fun _ => rfl⟩
      rintro ⟨k, b, hb, -⟩
      cases hb; exact h rfl
  | _ => simp [covariancetocomplex]

/-- `covariancestoreal` on a complex array raises exactly when it is not a stack, or a stack with at
least one matrix that is not square, and then it raises `AttributeError`. -/
theorem C03_covariancestoreal_rejects (a : Arr ℂ) :
    covariancestoreal (.cplx a) = .error .attributeError ↔
      ¬ ∃ (k m n : ℕ) (b : Fin k → Matrix (Fin m) (Fin n) ℂ), a = .d3 k m n b ∧ (m = n ∨ k = 0) := by
  cases a with
  | d3 k m n a =>
    simp only [covariancestoreal]
    split_ifs with h h2
    · subst h; simp
    · subst h2; simp
    · refine ⟨fun _ => ?_, fun _ => rfl⟩
      rintro ⟨k', m', n', b, hb, hk⟩
      cases hb
      exact hk.elim h h2
  | _ => simp [covariancestoreal]

/-- `covariancestocomplex` on a real array raises exactly when it is not a stack of matrices with an
even number of rows, or has at least one matrix that is not square. -/
theorem C03_covariancestocomplex_rejects (a : Arr ℝ) :
    covariancestocomplex (.real a) = .error .attributeError ↔
      ¬ ∃ (k m n : ℕ) (b : Fin k → Matrix (Fin m) (Fin n) ℝ),
        a = .d3 k m n b ∧ m % 2 = 0 ∧ (m = n ∨ k = 0) := by
  cases a with
  | d3 k m n a =>
    simp only [covariancestocomplex]
    split_ifs with h2 h h0
    · subst h; simpa using h2
    · subst h0; simpa using h2
    · refine ⟨fun _ => ?_, fun _ => rfl⟩
      rintro ⟨k', m', n', b, hb, _, hk⟩
      cases hb
      exact hk.elim h h0
    · refine ⟨fun _ => ?_, fun _ => rfl⟩
      rintro ⟨k', m', n', b, hb, hm, _⟩
      cases hb
      exact h2 hm
  | _ => simp [covariancestocomplex]

/-- What is raised is always `AttributeError`, and an empty stack comes back empty with the size of
its rows doubled or halved. -/
theorem C03_stacks_errors_and_empty :
    (∀ (a : Arr ℂ) (e : PyErr), covariancestoreal (.cplx a) = .error e → e = .attributeError) ∧
    (∀ (a : Arr ℝ) (e : PyErr), covariancestocomplex (.real a) = .error e → e = .attributeError) ∧
    (∀ (m n : ℕ) (a : Fin 0 → Matrix (Fin m) (Fin n) ℂ),
      ∃ b, covariancestoreal (.cplx (.d3 0 m n a)) = .ok (.real (.d3 0 (2 * m) (2 * m) b))) ∧
    ∀ (m n : ℕ) (a : Fin 0 → Matrix (Fin m) (Fin n) ℝ), m % 2 = 0 →
      ∃ b, covariancestocomplex (.real (.d3 0 m n a)) = .ok (.cplx (.d3 0 (m / 2) (m / 2) b)) := by
  refine ⟨fun a e h => ?_, fun a e h => ?_, fun m n a => ?_, fun m n a h2 => ?_⟩
  · cases a <;> simp only [covariancestoreal] at h <;> (try split_ifs at h) <;> cases h <;> rfl
  · cases a <;> simp only [covariancestocomplex] at h <;> (try split_ifs at h) <;> cases h <;> rfl
  · rw [two_mul]
    simp only [covariancestoreal]
    split_ifs
    · exact ⟨_, rfl⟩
    · exact ⟨_, rfl⟩
  · simp only [covariancestocomplex, h2, dif_pos]
    split_ifs
    · exact ⟨_, rfl⟩
    · exact ⟨_, rfl⟩

/-! ## C04: covariancetoreal preserves covariance structure -/

/-- `R` is what `covariancetoreal` returns on `A`. -/
abbrev ToReal {n : ℕ} (A : Matrix (Fin n) (Fin n) ℂ) (R : Matrix (Fin (n + n)) (Fin (n + n)) ℝ) :
    Prop := covariancetoreal (.cplx (.d2 n n A)) = .ok (.real (.d2 (n + n) (n + n) R))

theorem toReal_iff {n : ℕ} (A : Matrix (Fin n) (Fin n) ℂ)
    (R : Matrix (Fin (n + n)) (Fin (n + n)) ℝ) : ToReal A R ↔ R = realify A := by
  simp only [ToReal, covariancetoreal, dif_pos]
  constructor
  · intro h; cases h; rfl
  · rintro rfl; rfl

theorem C04_total {n : ℕ} (A : Matrix (Fin n) (Fin n) ℂ) : ∃ R, ToReal A R :=
  ⟨_, (toReal_iff A _).2 rfl⟩

theorem C04_symmetric_iff {n : ℕ} (A : Matrix (Fin n) (Fin n) ℂ) (R) (h : ToReal A R) :
    R.IsSymm ↔ A.IsHermitian := by
  rw [toReal_iff] at h; subst h
  unfold Matrix.IsHermitian Matrix.IsSymm
  rw [realify_transpose, realify_injective.eq_iff]

theorem C04_posDef_iff {n : ℕ} (A : Matrix (Fin n) (Fin n) ℂ) (R) (h : ToReal A R) :
    R.PosDef ↔ A.PosDef := by
  rw [toReal_iff] at h; subst h; exact realify_posDef A

theorem C04_posSemidef_iff {n : ℕ} (A : Matrix (Fin n) (Fin n) ℂ) (R) (h : ToReal A R) :
    R.PosSemidef ↔ A.PosSemidef := by
  rw [toReal_iff] at h; subst h; exact realify_posSemidef A

theorem C04_add {n : ℕ} (A B : Matrix (Fin n) (Fin n) ℂ) (R S) (hA : ToReal A R)
    (hB : ToReal B S) : ToReal (A + B) (R + S) := by
  rw [toReal_iff] at *; subst hA hB; exact (realify_add A B).symm

theorem C04_smul {n : ℕ} (c : ℝ) (A : Matrix (Fin n) (Fin n) ℂ) (R) (hA : ToReal A R) :
    ToReal ((c : ℂ) • A) (c • R) := by
  rw [toReal_iff] at *; subst hA; exact (realify_smul c A).symm

theorem C04_mul {n : ℕ} (A B : Matrix (Fin n) (Fin n) ℂ) (R S) (hA : ToReal A R)
    (hB : ToReal B S) : ToReal (A * B) ((2 : ℝ) • (R * S)) := by
  rw [toReal_iff] at *; subst hA hB; exact (realify_mul A B).symm

theorem C04_det {n : ℕ} (A : Matrix (Fin n) (Fin n) ℂ) (R) (hA : ToReal A R) :
    R.det = (1 / 2) ^ (2 * n) * ‖A.det‖ ^ 2 := by
  rw [toReal_iff] at hA; subst hA
  rw [det_realify, Complex.normSq_eq_norm_sq]

/-- Quadratic forms: for `z = u + i v`, the real form at `[u, v]` is half the complex one. -/
theorem C04_quadratic_form {n : ℕ} (A : Matrix (Fin n) (Fin n) ℂ) (R) (hA : ToReal A R)
    (z : Fin n → ℂ) (x : Fin (n + n) → ℝ)
    (hx : arraytoreal (.cplx (.d1 n z)) = .ok (.real (.d1 (n + n) x))) :
    x ⬝ᵥ (R *ᵥ x) = (1 / 2) * (star z ⬝ᵥ (A *ᵥ z)).re := by
  rw [toReal_iff] at hA; subst hA
  have : x = Fin.append (fun i => (z i).re) (fun i => (z i).im) := by
    simp only [arraytoreal] at hx; cases hx; rfl
  rw [this, quad_realify, zOf_append]

/-! ## C05: odd last axis -/

/-- The spec: a real 1-D array is the real form of some complex array. -/
def IsRealForm (b : Arr ℝ) : Prop := ∃ a : Arr ℂ, arraytoreal (.cplx a) = .ok (.real b)

/-- No array with an odd last axis is the real form of a complex array. -/
theorem C05_odd_is_no_real_form (n : ℕ) (hn : n % 2 = 1) (v : Fin n → ℝ) :
    ¬ IsRealForm (.d1 n v) := by
  rintro ⟨a, ha⟩
  cases a with
  | d1 k w => simp only [arraytoreal] at ha; cases ha; omega
  | _ => simp [arraytoreal] at ha

/-- What the code does on odd lengths: it raises `ValueError` exactly when the length is
neither 1 nor 3. -/
theorem C05_odd_1d_exact (n : ℕ) (hn : n % 2 = 1) (v : Fin n → ℝ) :
    arraytocomplex (.real (.d1 n v)) = .error .valueError ↔ n ≠ 1 ∧ n ≠ 3 := by
  simp only [arraytocomplex, bcast1, bind, Except.bind, pure, Except.pure]
  have h1 : n / 2 ≠ n - n / 2 := by omega
  rw [dif_neg h1]
  by_cases h3 : n / 2 = 1
  · rw [dif_pos h3]
    constructor
    · intro h; cases h
    · intro h; omega
  · rw [dif_neg h3]
    by_cases h4 : n - n / 2 = 1
    · rw [dif_pos h4]
      constructor
      · intro h; cases h
      · intro h; omega
    · rw [dif_neg h4]
      simp only [true_iff]
      omega

/-- Part of the claim that holds: every odd length from 5 on is rejected, 1-D and 2-D.
Missing: lengths 1 and 3, which the code accepts (see the two theorems below). -/
theorem C05_rejects_odd_partial (n : ℕ) (hn : n % 2 = 1) (h5 : 5 ≤ n) :
    (∀ v : Fin n → ℝ, arraytocomplex (.real (.d1 n v)) = .error .valueError) ∧
    (∀ (m : ℕ) (a : Matrix (Fin m) (Fin n) ℝ),
      arraytocomplex (.real (.d2 m n a)) = .error .valueError) := by
  refine ⟨fun v => (C05_odd_1d_exact n hn v).2 ⟨by omega, by omega⟩, fun m a => ?_⟩
  simp only [arraytocomplex, bcast2, bind, Except.bind]
  rw [dif_neg (by omega), dif_neg (by omega), dif_neg (by omega)]

/-- Length 3 is silently accepted: `[a, b, c]` becomes `[a + ib, a + ic]`. -/
theorem C05_length_three_accepted (v : Fin 3 → ℝ) :
    arraytocomplex (.real (.d1 3 v)) =
      .ok (.cplx (.d1 2 ![⟨v 0, v 1⟩, ⟨v 0, v 2⟩])) := by
  have : ∀ w : Fin 2 → ℂ, w = ![⟨v 0, v 1⟩, ⟨v 0, v 2⟩] →
      (Except.ok (NDArr.cplx (Arr.d1 2 w)) : Py NDArr) =
      .ok (.cplx (.d1 2 ![⟨v 0, v 1⟩, ⟨v 0, v 2⟩])) := fun w h => by rw [h]
  refine this (fun i => addI (v ⟨0, by omega⟩) (v ⟨1 + i.1, by omega⟩)) ?_
  funext i
  fin_cases i <;> apply Complex.ext <;> simp [addI]

/-- Length 1 is silently accepted and gives an empty array. -/
theorem C05_length_one_accepted (v : Fin 1 → ℝ) :
    arraytocomplex (.real (.d1 1 v)) = .ok (.cplx (.d1 0 Fin.elim0)) := by
  have : ∀ w : Fin 0 → ℂ, (Except.ok (NDArr.cplx (Arr.d1 0 w)) : Py NDArr) =
      .ok (.cplx (.d1 0 Fin.elim0)) := fun w => by
    rw [show w = Fin.elim0 from funext fun i => i.elim0]
  exact this (fun i => addI (v ⟨i.1, by omega⟩) (v ⟨0, by omega⟩))

/-- The claim C05 fails. -/
theorem C05_violated :
    ¬ ∀ (n : ℕ) (v : Fin n → ℝ), n % 2 = 1 → ∃ e, arraytocomplex (.real (.d1 n v)) = .error e := by
  intro h
  obtain ⟨e, he⟩ := h 3 (fun _ => 0) (by norm_num)
  rw [C05_length_three_accepted] at he
  cases he

/-! ## C06: covariancetocomplex inverts exactly the block-structured matrices -/

/-- Spec: `R` has the form `[[P, -Q], [Q, P]]` with square blocks of half its size. -/
def IsBlockForm {n : ℕ} (R : Matrix (Fin (n + n)) (Fin (n + n)) ℝ) : Prop :=
  ∃ P Q : Matrix (Fin n) (Fin n) ℝ, ∀ i j,
    R (Fin.castAdd n i) (Fin.castAdd n j) = P i j ∧
    R (Fin.castAdd n i) (Fin.natAdd n j) = - Q i j ∧
    R (Fin.natAdd n i) (Fin.castAdd n j) = Q i j ∧
    R (Fin.natAdd n i) (Fin.natAdd n j) = P i j

theorem C06_round_trip_iff {n : ℕ} (R : Matrix (Fin (n + n)) (Fin (n + n)) ℝ) :
    (covariancetocomplex (.real (.d2 (n + n) (n + n) R)) >>= covariancetoreal)
      = .ok (.real (.d2 (n + n) (n + n) R)) ↔ IsBlockForm R := by
  have h : (n + n) % 2 = 0 := by omega
  have hn : (n + n) / 2 = n := by omega
  have e : (Arr.d2 ((n + n) / 2) ((n + n) / 2) (complexify R h)) =
      Arr.d2 n n (fun i j => (⟨2 * R (Fin.castAdd n i) (Fin.castAdd n j),
        2 * R (Fin.natAdd n i) (Fin.castAdd n j)⟩ : ℂ)) := by
    apply Arr.d2_congr_sq hn
    intro i j
    have e2 : (⟨(n + n) / 2 + i.1, by omega⟩ : Fin (n + n)) = Fin.natAdd n (i.cast hn) := by
      ext; simp; omega
    have e1 : ∀ k : Fin ((n + n) / 2), (⟨k.1, by omega⟩ : Fin (n + n))
      = Fin.castAdd n (k.cast hn) := fun k => rfl
    simp only [complexify]
    rw [e2, e1, e1]
    apply Complex.ext <;> simp
  simp only [covariancetocomplex, dif_pos, h, bind, Except.bind]
  rw [e]
  simp only [covariancetoreal, dif_pos]
  set A : Matrix (Fin n) (Fin n) ℂ := fun i j => (⟨2 * R (Fin.castAdd n i) (Fin.castAdd n j),
        2 * R (Fin.natAdd n i) (Fin.castAdd n j)⟩ : ℂ) with hA
  have hreal : (Except.ok (NDArr.real (Arr.d2 (n + n) (n + n) (realify A))) : Py NDArr)
      = .ok (.real (.d2 (n + n) (n + n) R)) ↔ realify A = R := by
    constructor
    · intro h; simpa using h
    · intro h; rw [h]
  rw [hreal]
  constructor
  · intro hR
    refine ⟨fun i j => R (Fin.castAdd n i) (Fin.castAdd n j),
      fun i j => R (Fin.natAdd n i) (Fin.castAdd n j), fun i j => ⟨rfl, ?_, rfl, ?_⟩⟩
    · conv_lhs => rw [← hR]
      rw [realify_castAdd_natAdd]; simp [hA]
    · conv_lhs => rw [← hR]
      rw [realify_natAdd_natAdd]; simp [hA]
  · rintro ⟨P, Q, hPQ⟩
    apply ext_halves <;> intro i j
    · rw [realify_castAdd_castAdd]; simp [hA]
    · rw [realify_castAdd_natAdd, (hPQ i j).2.1, ← (hPQ i j).2.2.1]; simp [hA]
    · rw [realify_natAdd_castAdd]; simp [hA]
    · rw [realify_natAdd_natAdd, (hPQ i j).2.2.2, ← (hPQ i j).1]; simp [hA]

/-- Non-vacuity: a block-structured matrix with non-zero `Q`. -/
example : IsBlockForm (n := 1) !![(3 : ℝ), -2; 2, 3] :=
  ⟨!![3], !![2], fun i j => by fin_cases i; fin_cases j; exact ⟨rfl, rfl, rfl, rfl⟩⟩

/-- A matrix that is not of the block form. -/
example : ¬ IsBlockForm (n := 1) !![(3 : ℝ), 0; 0, 4] := by
  rintro ⟨P, Q, h⟩
  have h1 : (3 : ℝ) = P 0 0 := (h 0 0).1
  have h2 : (4 : ℝ) = P 0 0 := (h 0 0).2.2.2
  linarith

/-! ## C77: Hermitian / symmetric checkers -/

theorem C77_hermitian_accepted {n : ℕ} (a : Matrix (Fin n) (Fin n) ℂ) (ha : a.IsHermitian)
    (rtol atol : ℝ) (hr : 0 ≤ rtol) (hat : 0 ≤ atol) :
    ∃ b, check_Hermitian rtol atol n n a = .ok b ∧ b := by
  simp only [check_Hermitian, dif_pos]
  refine ⟨_, rfl, fun i j => ?_⟩
  have : a i j = star (a j i) := (ha.apply i j).symm
  simp only [Fin.cast_refl, id, isclose]
  rw [this, sub_self, norm_zero]
  positivity

theorem C77_far_rejected {n : ℕ} (a : Matrix (Fin n) (Fin n) ℂ) (rtol atol : ℝ) (i j : Fin n)
    (hij : atol + rtol * ‖a j i‖ < ‖a i j - star (a j i)‖) :
    ∃ b, check_Hermitian rtol atol n n a = .ok b ∧ ¬ b := by
  simp only [check_Hermitian, dif_pos]
  refine ⟨_, rfl, fun h => ?_⟩
  have := h i j
  simp only [Fin.cast_refl, id, isclose, norm_star] at this
  linarith

theorem C77_transpose {n : ℕ} (a : Matrix (Fin n) (Fin n) ℂ) (rtol atol : ℝ) :
    check_Hermitian rtol atol n n aᵀ = check_Hermitian rtol atol n n a := by
  simp only [check_Hermitian, dif_pos, isclose, Fin.cast_refl, id, transpose_apply]
  congr 1
  exact propext ⟨fun h i j => h j i, fun h i j => h j i⟩

theorem C77_zero_tolerance {n : ℕ} (a : Matrix (Fin n) (Fin n) ℂ) :
    ∃ b, check_Hermitian 0 0 n n a = .ok b ∧ (b ↔ a.IsHermitian) := by
  simp only [check_Hermitian, dif_pos]
  refine ⟨_, rfl, ?_⟩
  simp only [isclose, Fin.cast_refl, id, zero_mul, add_zero]
  constructor
  · intro h
    ext i j
    have := norm_le_zero_iff.1 (h i j)
    exact (sub_eq_zero.1 this).symm
  · intro h i j
    have : a i j = star (a j i) := (h.apply i j).symm
    rw [← this]; simp

/-- The symmetric checker with zero tolerances decides symmetry, and accepts every
symmetric matrix with non-negative tolerances. -/
theorem C77_symmetric {n : ℕ} (a : Matrix (Fin n) (Fin n) ℂ) :
    (∃ b, check_Symmetric 0 0 n n a = .ok b ∧ (b ↔ a.IsSymm)) ∧
    (a.IsSymm → ∀ rtol atol : ℝ, 0 ≤ rtol → 0 ≤ atol →
      ∃ b, check_Symmetric rtol atol n n a = .ok b ∧ b) := by
  constructor
  · simp only [check_Symmetric, dif_pos]
    refine ⟨_, rfl, ?_⟩
    simp only [isclose, Fin.cast_refl, id, zero_mul, add_zero]
    constructor
    · intro h
      ext i j
      have := norm_le_zero_iff.1 (h i j)
      exact (sub_eq_zero.1 this).symm
    · intro h i j
      rw [h.apply i j]; simp
  · intro h rtol atol hr hat
    simp only [check_Symmetric, dif_pos]
    refine ⟨_, rfl, fun i j => ?_⟩
    simp only [Fin.cast_refl, id, isclose]
    rw [h.apply i j, sub_self, norm_zero]
    positivity

/-- The symmetric checker rejects a matrix with an entry further than the tolerance from the mirrored
one. -/
theorem C77_symmetric_far {n : ℕ} (a : Matrix (Fin n) (Fin n) ℂ) (rtol atol : ℝ) (i j : Fin n)
    (hij : atol + rtol * ‖a j i‖ < ‖a i j - a j i‖) :
    ∃ b, check_Symmetric rtol atol n n a = .ok b ∧ ¬ b := by
  simp only [check_Symmetric, dif_pos]
  refine ⟨_, rfl, fun h => ?_⟩
  have := h i j
  simp only [Fin.cast_refl, id, isclose] at this
  linarith

/-- Both checkers raise `ValueError` on the arrays that are not square and have no side of length
one, and on no other matrix; they raise nothing else. -/
theorem C77_shapes {m n : ℕ} (a : Matrix (Fin m) (Fin n) ℂ) (rtol atol : ℝ) (e : PyErr) :
    (check_Hermitian rtol atol m n a = .error e ↔ e = .valueError ∧ m ≠ n ∧ m ≠ 1 ∧ n ≠ 1) ∧
    (check_Symmetric rtol atol m n a = .error e ↔ e = .valueError ∧ m ≠ n ∧ m ≠ 1 ∧ n ≠ 1) := by
  constructor
  · unfold check_Hermitian
    split_ifs with h1 h2 h3 <;> simp_all [eq_comm]
  · unfold check_Symmetric
    split_ifs with h1 h2 h3 <;> simp_all [eq_comm]

/-- A row, or a column, of another length than one is not square but is accepted all the same, with
zero tolerances exactly when its entries are all equal (and real, for the Hermitian checker). -/
theorem C77_row {n : ℕ} (hn : n ≠ 1) (x : Fin n → ℂ) :
    (∃ b, check_Hermitian 0 0 1 n (of fun _ j => x j) = .ok b ∧ (b ↔ ∃ r : ℝ, ∀ j, x j = r)) ∧
    (∃ b, check_Hermitian 0 0 n 1 (of fun i _ => x i) = .ok b ∧ (b ↔ ∃ r : ℝ, ∀ j, x j = r)) ∧
    (∃ b, check_Symmetric 0 0 1 n (of fun _ j => x j) = .ok b ∧ (b ↔ ∃ z : ℂ, ∀ j, x j = z)) ∧
    (∃ b, check_Symmetric 0 0 n 1 (of fun i _ => x i) = .ok b ∧ (b ↔ ∃ z : ℂ, ∀ j, x j = z)) := by
  have key : (∀ i j, isclose 0 0 (x j) (star (x i))) ↔ ∃ r : ℝ, ∀ j, x j = r := by
    simp only [isclose, zero_mul, add_zero, norm_le_zero_iff, sub_eq_zero]
    constructor
    · intro h
      rcases n with _ | n
      · exact ⟨0, fun j => j.elim0⟩
      · refine ⟨(x 0).re, fun j => ?_⟩
        have h0 : x 0 = ((x 0).re : ℂ) := by
          have h1 := congrArg Complex.im (h 0 0)
          have h1 : (x 0).im = -(x 0).im := h1
          exact Complex.ext rfl (by simp; linarith)
        rw [h 0 j, h0]
        simp
    · rintro ⟨r, hr⟩ i j
      rw [hr i, hr j]
      simp
  have key' : (∀ i j, isclose 0 0 (x j) (x i)) ↔ ∃ z : ℂ, ∀ j, x j = z := by
    simp only [isclose, zero_mul, add_zero, norm_le_zero_iff, sub_eq_zero]
    constructor
    · intro h
      rcases n with _ | n
      · exact ⟨0, fun j => j.elim0⟩
      · exact ⟨x 0, fun j => h 0 j⟩
    · rintro ⟨r, hr⟩ i j
      rw [hr i, hr j]
  have hn' : 1 ≠ n := Ne.symm hn
  refine ⟨⟨_, by unfold check_Hermitian; rw [dif_neg hn', dif_pos rfl]; rfl, key⟩,
    ⟨_, by unfold check_Hermitian; rw [dif_neg hn, dif_neg hn, dif_pos rfl], ?_⟩,
    ⟨_, by unfold check_Symmetric; rw [dif_neg hn', dif_pos rfl]; rfl, key'⟩,
    ⟨_, by unfold check_Symmetric; rw [dif_neg hn, dif_neg hn, dif_pos rfl], ?_⟩⟩
  · rw [← key]; exact forall_comm
  · rw [← key']; exact forall_comm

/-- Non-vacuity: a Hermitian matrix with complex entries, and one that is rejected with
the default tolerances. -/
example : (!![1, Complex.I; -Complex.I, 2] : Matrix (Fin 2) (Fin 2) ℂ).IsHermitian := by
  ext i j; fin_cases i <;> fin_cases j <;> simp
example : (1e-8 : ℝ) + 1e-5 * ‖(!![0, 1; 0, 0] : Matrix (Fin 2) (Fin 2) ℂ) 1 0‖
    < ‖(!![0, 1; 0, 0] : Matrix (Fin 2) (Fin 2) ℂ) 0 1
      - star ((!![0, 1; 0, 0] : Matrix (Fin 2) (Fin 2) ℂ) 1 0)‖ := by
  simp; norm_num

end RS
