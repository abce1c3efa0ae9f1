import Verif.Lemmas.Linalg
import Verif.Lemmas.Mappings
import Mathlib.Analysis.Matrix.Order
import Mathlib.LinearAlgebra.Matrix.Notation
import Mathlib.Tactic.Positivity

/-
Properties of `robuststats/utils/linalg.py`: C07 - C13.
-/
set_option linter.unusedSectionVars false

set_option autoImplicit false

namespace RS
open Matrix ComplexOrder

section MatrixFunctions
variable {𝕜 : Type*} [RCLike 𝕜] {ι : Type*} [Fintype ι] [DecidableEq ι]

/-! ## C07: matrix functions do not depend on the eigenbasis returned by the solver -/

theorem C07_operator_independent_of_solver (s₁ s₂ : Eigh ι 𝕜) (C : Matrix ι ι 𝕜)
    (h₁ : (s₁ C).Valid C) (h₂ : (s₂ C).Valid C) (op : ℝ → ℝ) :
    matrixOperator s₁ op C = matrixOperator s₂ op C :=
  EigRes.fn_unique h₁ h₂ op

theorem C07_functions_independent_of_solver (s₁ s₂ : Eigh ι 𝕜) (h₁ : s₁.Ok) (h₂ : s₂.Ok)
    (C : Matrix ι ι 𝕜) (hC : C.IsHermitian) (alpha : ℝ) :
    sqrtm s₁ C = sqrtm s₂ C ∧ invsqrtm s₁ C = invsqrtm s₂ C ∧ logm s₁ C = logm s₂ C ∧
    expm s₁ C = expm s₂ C ∧ powm s₁ C alpha = powm s₂ C alpha := by
  refine ⟨?_, ?_, ?_, ?_, ?_⟩ <;>
    exact C07_operator_independent_of_solver s₁ s₂ C (h₁ C hC) (h₂ C hC) _

/-- Non-vacuity: solvers meeting the contract exist, for every size. -/
example : ∃ s : Eigh (Fin 3) ℂ, s.Ok := eigh_exists

/-- Non-vacuity: two different valid answers for the same matrix. -/
example : ∃ e₁ e₂ : EigRes (Fin 2) ℝ, e₁.vecs ≠ e₂.vecs ∧ e₁.Valid !![2, 0; 0, 3] ∧
    e₂.Valid !![2, 0; 0, 3] := by
  refine ⟨⟨![2, 3], !![1, 0; 0, 1]⟩, ⟨![3, 2], !![0, 1; -1, 0]⟩, ?_, ⟨?_, ?_⟩, ⟨?_, ?_⟩⟩
  · intro h; have := congrFun (congrFun h 0) 0; simp at this
  all_goals
    ext i j
    fin_cases i <;> fin_cases j <;>
      simp [Matrix.mul_apply, Fin.sum_univ_two, vecMul, dotProduct, Matrix.diagonal_apply]

/-! ## C08: algebra of the matrix functions -/

theorem C08_sqrtm_mul_self (s : Eigh ι 𝕜) (hs : s.Ok) (C : Matrix ι ι 𝕜) (hC : C.PosSemidef) :
    sqrtm s C * sqrtm s C = C := by
  have h := hs C hC.1
  have : (s C).fn Real.sqrt * (s C).fn Real.sqrt = C := by
    rw [h.fn_mul, h.fn_congr (g := fun x => x), h.fn_id]
    intro i; exact Real.mul_self_sqrt (h.vals_nonneg hC i)
  exact this

theorem C08_sqrtm_posSemidef (s : Eigh ι 𝕜) (hs : s.Ok) (C : Matrix ι ι 𝕜) (hC : C.PosSemidef) :
    (sqrtm s C).PosSemidef := by
  rw [sqrtm_fn]; exact (hs C hC.1).fn_posSemidef fun _ => Real.sqrt_nonneg _

theorem C08_sqrtm_posDef (s : Eigh ι 𝕜) (hs : s.Ok) (C : Matrix ι ι 𝕜) (hC : C.PosDef) :
    (sqrtm s C).PosDef := by
  rw [sqrtm_fn]; exact (hs C hC.1).fn_posDef fun i => Real.sqrt_pos.2 ((hs C hC.1).vals_pos hC i)

/-- Together with the two previous theorems this says that `sqrtm` computes the one and
only positive semi-definite square root. -/
theorem C08_sqrtm_unique (s : Eigh ι 𝕜) (hs : s.Ok) (C S : Matrix ι ι 𝕜) (hC : C.PosSemidef)
    (hS : S.PosSemidef) (hSS : S * S = C) : sqrtm s C = S :=
  psd_sqrt_unique (C08_sqrtm_posSemidef s hs C hC) hS (C08_sqrtm_mul_self s hs C hC) hSS

theorem C08_invsqrtm_posDef (s : Eigh ι 𝕜) (hs : s.Ok) (C : Matrix ι ι 𝕜) (hC : C.PosDef) :
    (invsqrtm s C).PosDef := by
  rw [invsqrtm_fn]; exact (hs C hC.1).fn_posDef fun i =>
    one_div_pos.2 (Real.sqrt_pos.2 ((hs C hC.1).vals_pos hC i))

theorem C08_invsqrtm_mul_sqrtm (s : Eigh ι 𝕜) (hs : s.Ok) (C : Matrix ι ι 𝕜) (hC : C.PosDef) :
    invsqrtm s C * sqrtm s C = 1 ∧ sqrtm s C * invsqrtm s C = 1 := by
  have h := hs C hC.1
  have key : (s C).fn (fun x => 1 / Real.sqrt x) * (s C).fn Real.sqrt = 1 := by
    rw [h.fn_mul, h.fn_congr (g := fun _ => 1), h.fn_one]
    intro i
    have := (Real.sqrt_pos.2 (h.vals_pos hC i)).ne'
    field_simp
  exact ⟨key, mul_eq_one_comm.1 key⟩

theorem C08_invsqrtm_whitens (s : Eigh ι 𝕜) (hs : s.Ok) (C : Matrix ι ι 𝕜) (hC : C.PosDef) :
    invsqrtm s C * C * invsqrtm s C = 1 := by
  have h1 := C08_sqrtm_mul_self s hs C hC.posSemidef
  have h2 := C08_invsqrtm_mul_sqrtm s hs C hC
  calc invsqrtm s C * C * invsqrtm s C
      = invsqrtm s C * (sqrtm s C * sqrtm s C) * invsqrtm s C := by rw [h1]
    _ = (invsqrtm s C * sqrtm s C) * (sqrtm s C * invsqrtm s C) := by simp only [mul_assoc]
    _ = 1 := by rw [h2.1, h2.2, one_mul]

theorem C08_expm_posDef (s : Eigh ι 𝕜) (hs : s.Ok) (C : Matrix ι ι 𝕜) (hC : C.IsHermitian) :
    (expm s C).PosDef := by
  rw [expm_fn]; exact (hs C hC).fn_posDef fun _ => Real.exp_pos _

theorem C08_logm_isHermitian (s : Eigh ι 𝕜) (hs : s.Ok) (C : Matrix ι ι 𝕜)
    (hC : C.IsHermitian) : (logm s C).IsHermitian := by
  rw [logm_fn]; exact (hs C hC).fn_isHermitian _

theorem C08_expm_logm (s : Eigh ι 𝕜) (hs : s.Ok) (C : Matrix ι ι 𝕜) (hC : C.PosDef) :
    expm s (logm s C) = C := by
  have h := hs C hC.1
  have e : expm s (logm s C) = (s C).fn (fun x => Real.exp (Real.log x)) :=
    matrixOperator_comp hs hC.1 Real.log Real.exp
  rw [e, h.fn_congr (g := fun x => x), h.fn_id]
  intro i; exact Real.exp_log (h.vals_pos hC i)

theorem C08_logm_expm (s : Eigh ι 𝕜) (hs : s.Ok) (C : Matrix ι ι 𝕜) (hC : C.IsHermitian) :
    logm s (expm s C) = C := by
  have h := hs C hC
  have e : logm s (expm s C) = (s C).fn (fun x => Real.log (Real.exp x)) :=
    matrixOperator_comp hs hC Real.exp Real.log
  rw [e, h.fn_congr (g := fun x => x), h.fn_id]
  intro i; exact Real.log_exp _

/-- `expm` turns commuting sums of multiples of one matrix into products, so it is the
exponential and not just some inverse of `logm`: `expm((a+b)C) = expm(aC) expm(bC)`. -/
theorem C08_expm_add_smul (s : Eigh ι 𝕜) (hs : s.Ok) (C : Matrix ι ι 𝕜) (hC : C.IsHermitian)
    (a b : ℝ) :
    expm s ((((a + b : ℝ) : 𝕜)) • C) = expm s ((a : 𝕜) • C) * expm s ((b : 𝕜) • C) := by
  have h := hs C hC
  have hv : ∀ c : ℝ, EigRes.Valid ⟨fun i => c * (s C).vals i, (s C).vecs⟩ ((c : 𝕜) • C) := by
    intro c
    have e := h.fn_valid (fun x => c * x)
    have : (s C).fn (fun x => c * x) = (c : 𝕜) • C := by
      rw [← h.fn_mul (fun _ => c) (fun x => x), h.fn_const, h.fn_id]; simp
    rwa [this] at e
  have hexp : ∀ c : ℝ, expm s ((c : 𝕜) • C) = (s C).fn (fun x => Real.exp (c * x)) := fun c =>
    matrixOperator_eq hs (hv c) Real.exp
  rw [hexp, hexp, hexp, h.fn_mul]
  apply h.fn_congr
  intro i; rw [← Real.exp_add]; ring_nf

theorem C08_powm_add (s : Eigh ι 𝕜) (hs : s.Ok) (C : Matrix ι ι 𝕜) (hC : C.PosDef) (a b : ℝ) :
    powm s C a * powm s C b = powm s C (a + b) := by
  have h := hs C hC.1
  have : (s C).fn (fun x => x ^ a) * (s C).fn (fun x => x ^ b) = (s C).fn (fun x => x ^ (a + b)) := by
    rw [h.fn_mul]
    apply h.fn_congr
    intro i; exact (Real.rpow_add (h.vals_pos hC i) a b).symm
  exact this

theorem C08_powm_half (s : Eigh ι 𝕜) (hs : s.Ok) (C : Matrix ι ι 𝕜) (hC : C.PosDef) :
    powm s C (1 / 2) = sqrtm s C := by
  have h := hs C hC.1
  have : (s C).fn (fun x => x ^ (1 / 2 : ℝ)) = (s C).fn Real.sqrt :=
    h.fn_congr fun i => (Real.sqrt_eq_rpow _).symm
  exact this

/-- Normalises `powm`: exponent 1 is the identity, exponent -1 the inverse. -/
theorem C08_powm_one_neg_one (s : Eigh ι 𝕜) (hs : s.Ok) (C : Matrix ι ι 𝕜) (hC : C.PosDef) :
    powm s C 1 = C ∧ powm s C (-1) = C⁻¹ := by
  have h := hs C hC.1
  have h1 : powm s C 1 = C := by
    have : (s C).fn (fun x => x ^ (1 : ℝ)) = C := by
      rw [h.fn_congr (g := fun x => x), h.fn_id]; intro i; exact Real.rpow_one _
    exact this
  have h0 : powm s C 0 = 1 := by
    have : (s C).fn (fun x => x ^ (0 : ℝ)) = 1 := by
      rw [h.fn_congr (g := fun x => 1), h.fn_one]; intro i; exact Real.rpow_zero _
    exact this
  refine ⟨h1, ?_⟩
  have := C08_powm_add s hs C hC (-1) 1
  rw [h1, neg_add_cancel, h0] at this
  exact (Matrix.inv_eq_left_inv this).symm

theorem C08_powm_posDef (s : Eigh ι 𝕜) (hs : s.Ok) (C : Matrix ι ι 𝕜) (hC : C.PosDef) (a : ℝ) :
    (powm s C a).PosDef := by
  rw [powm_fn]; exact (hs C hC.1).fn_posDef fun i => Real.rpow_pos_of_pos ((hs C hC.1).vals_pos hC i) a

/-- Non-vacuity: a positive definite matrix that is not diagonal. -/
example : (!![2, 1; 1, 2] : Matrix (Fin 2) (Fin 2) ℝ).PosDef := by
  apply PosDef.of_dotProduct_mulVec_pos
  · ext i j; fin_cases i <;> fin_cases j <;> simp
  · intro x hx
    have : 0 < x 0 ^ 2 + x 1 ^ 2 := by
      by_contra h
      apply hx
      have h0 : x 0 = 0 := by nlinarith [sq_nonneg (x 0), sq_nonneg (x 1)]
      have h1 : x 1 = 0 := by nlinarith [sq_nonneg (x 0), sq_nonneg (x 1)]
      funext i; fin_cases i <;> simp [h0, h1]
    simp [dotProduct, mulVec, Fin.sum_univ_two]
    nlinarith [sq_nonneg (x 0 + x 1)]

end MatrixFunctions

section Vec
variable {𝕜 : Type*} [RCLike 𝕜]

/-! ## C09: vec/unvec -/

theorem C09_vec_column_order {m n : ℕ} (M : Matrix (Fin m) (Fin n) 𝕜) (i : Fin m) (j : Fin n)
    (k : Fin (n * m)) (hk : k.1 = j.1 * m + i.1) : vec M k = M i j := by
  have hm : 0 < m := i.pos
  have h1 : k.modNat = i := by
    ext; simp only [Fin.modNat, hk]
    rw [mul_comm, Nat.mul_add_mod, Nat.mod_eq_of_lt i.2]
  have h2 : k.divNat = j := by
    ext; simp only [Fin.divNat, hk]
    rw [mul_comm, Nat.mul_add_div hm, Nat.div_eq_of_lt i.2, add_zero]
  rw [vec, h1, h2]

theorem C09_unvec_vec {n : ℕ} (M : Matrix (Fin n) (Fin n) 𝕜) :
    unvec (vec M) = .ok (.d2 n n M) := by
  have hk : ⌊Real.sqrt ((n * n : ℕ) : ℝ)⌋₊ = n := by
    push_cast; rw [Real.sqrt_mul_self (by positivity), Nat.floor_natCast]
  have key : ∀ k : ℕ, ⌊Real.sqrt ((n * n : ℕ) : ℝ)⌋₊ = k → k = n →
      unvec (vec M) = .ok (.d2 n n M) := by
    intro k h1 h2
    subst h2
    simp only [unvec]
    rw [dif_pos (by rw [h1])]
    congr 1
    apply Arr.d2_congr_sq h1
    intro i j
    apply C09_vec_column_order
    simp
  exact key _ hk rfl

theorem C09_vec_unvec {len : ℕ} (v : Fin len → 𝕜) (k : ℕ) (hk : k * k = len) :
    ∃ M : Matrix (Fin k) (Fin k) 𝕜, unvec v = .ok (.d2 k k M) ∧
      ∀ i : Fin (k * k), vec M i = v (i.cast hk) := by
  subst hk
  have h1 : ⌊Real.sqrt ((k * k : ℕ) : ℝ)⌋₊ = k := by
    push_cast; rw [Real.sqrt_mul_self (by positivity), Nat.floor_natCast]
  refine ⟨Matrix.of fun i j => v ⟨j.1 * k + i.1, by nlinarith [i.2, j.2]⟩, ?_, ?_⟩
  · simp only [unvec]
    rw [dif_pos (by rw [h1])]
    congr 1
    apply Arr.d2_congr_sq h1
    intro i j
    simp
  · intro i
    simp only [vec, Matrix.of_apply]
    congr 1
    ext
    simp only [Fin.divNat, Fin.modNat, Fin.val_cast]
    rw [mul_comm]; exact Nat.div_add_mod _ _

theorem C09_unvec_rejects {len : ℕ} (v : Fin len → 𝕜) (h : ¬ ∃ k, k * k = len) :
    unvec v = .error .assertionError := by
  simp only [unvec]
  rw [dif_neg]
  intro h'; exact h ⟨_, h'⟩

example : ¬ ∃ k, k * k = 7 := by
  rintro ⟨k, hk⟩
  have : k ≤ 3 := by nlinarith
  interval_cases k <;> omega

/-! ## C10: vech/unvech -/

/-- What the code computes on a Hermitian matrix: its transpose, i.e. its conjugate. -/
theorem C10_unvech_vech_is_transpose {n : ℕ} (M : Matrix (Fin n) (Fin n) 𝕜)
    (hM : M.IsHermitian) : unvech (vech M) = .ok (.d2 n n Mᵀ) := by
  rw [unvech_of_length n (vech M) (by simp [vech, length_triuIndices])]
  congr 2
  ext r c
  have hlk : ∀ r c : Fin n, ((triuIndices n).zip (vech M)).lookup (r, c)
      = if r ≤ c then some (M c r) else none := by
    intro r c
    unfold vech
    by_cases h : r ≤ c
    · rw [lookup_zip_map_mem _ _ _ ((mem_triuIndices r c).2 h), if_pos h]; rfl
    · rw [lookup_zip_not_mem _ _ _ (fun h' => h ((mem_triuIndices r c).1 h')), if_neg h]
  simp only [Matrix.of_apply, hlk]
  by_cases hrc : r = c
  · subst hrc
    simp only [le_refl, if_true, Option.getD_some, transpose_apply]
    have : star (M r r) = M r r := hM.apply r r
    rw [this]
    field_simp
    ring
  · rw [if_neg hrc]
    by_cases h : r ≤ c
    · have h' : ¬ c ≤ r := fun h' => hrc (le_antisymm h h')
      simp [h, h']
    · have h' : c ≤ r := le_of_not_ge h
      simp only [h, h', if_false, if_true, Option.getD_some, Option.getD_none, zero_add,
        transpose_apply]
      exact hM.apply c r

/-- Part of C10 that holds: real symmetric matrices come back exactly.
Missing: complex Hermitian matrices (see `C10_complex_violated`). -/
theorem C10_real_symmetric_partial {n : ℕ} (M : Matrix (Fin n) (Fin n) ℝ) (hM : M.IsSymm) :
    unvech (vech M) = .ok (.d2 n n M) := by
  have h : M.IsHermitian := by
    unfold Matrix.IsHermitian; rw [conjTranspose_eq_transpose_of_trivial]; exact hM
  rw [C10_unvech_vech_is_transpose M h, hM.eq]

/-- A complex Hermitian matrix comes back exactly if and only if it is real. -/
theorem C10_complex_iff_real {n : ℕ} (M : Matrix (Fin n) (Fin n) ℂ) (hM : M.IsHermitian) :
    unvech (vech M) = .ok (.d2 n n M) ↔ ∀ i j, (M i j).im = 0 := by
  rw [C10_unvech_vech_is_transpose M hM]
  have : (Except.ok (Arr.d2 n n Mᵀ) : Py (Arr ℂ)) = .ok (.d2 n n M) ↔ Mᵀ = M := by
    constructor
    · intro h; simpa using h
    · intro h; rw [h]
  rw [this]
  constructor
  · intro h i j
    have h1 : M j i = M i j := congrFun (congrFun h i) j
    have h2 : star (M j i) = M i j := hM.apply i j
    have := congrArg Complex.im h2
    rw [h1] at this
    simp at this
    linarith
  · intro h
    ext i j
    have h2 : star (M j i) = M i j := hM.apply i j
    rw [transpose_apply, ← h2]
    apply Complex.ext
    · simp
    · simp [h j i]

theorem C10_complex_violated :
    ¬ ∀ (n : ℕ) (M : Matrix (Fin n) (Fin n) ℂ), M.IsHermitian →
      unvech (vech M) = .ok (.d2 n n M) := by
  intro h
  have hM : (!![1, Complex.I; -Complex.I, 1] : Matrix (Fin 2) (Fin 2) ℂ).IsHermitian := by
    ext i j; fin_cases i <;> fin_cases j <;> simp
  have := (C10_complex_iff_real _ hM).1 (h 2 _ hM) 0 1
  simp at this

/-- The other direction: `vech(unvech(v)) = conj(v)` for every `v` of triangular length
with real diagonal entries. -/
theorem C10_vech_unvech_is_conj {n : ℕ} (v : List 𝕜) (hv : v.length = n * (n + 1) / 2)
    (hd : ∀ (r : Fin n), ∀ x, ((r, r), x) ∈ (triuIndices n).zip v → star x = x) :
    ∃ M : Matrix (Fin n) (Fin n) 𝕜, unvech v = .ok (.d2 n n M) ∧ vech M = v.map star := by
  refine ⟨_, unvech_of_length n v hv, ?_⟩
  have hl : v.length = (triuIndices n).length := by rw [hv, length_triuIndices]
  have e := map_lookup_zip (0 : 𝕜) (triuIndices n) (nodup_triuIndices n) v hl
  conv_rhs => rw [← e]
  rw [List.map_map, vech]
  apply List.map_congr_left
  rintro ⟨r, c⟩ hrc
  rw [mem_triuIndices] at hrc
  simp only [transpose_apply, Function.comp, Matrix.of_apply]
  by_cases h : r = c
  · subst h
    simp only [if_true]
    have hx : star (((triuIndices n).zip v).lookup (r, r) |>.getD 0)
        = (((triuIndices n).zip v).lookup (r, r) |>.getD 0) := by
      cases hlk : ((triuIndices n).zip v).lookup (r, r) with
      | none => simp
      | some x =>
        simp only [Option.getD_some]
        apply hd r x
        obtain ⟨l₁, l₂, hl, -⟩ := List.lookup_eq_some_iff.1 hlk
        rw [hl]; simp
    rw [hx]; field_simp; ring
  · rw [if_neg (fun h' => h h'.symm)]
    have : ((triuIndices n).zip v).lookup (c, r) = none := by
      apply lookup_zip_not_mem
      rw [mem_triuIndices]
      intro h1
      exact h (le_antisymm hrc h1)
    rw [this, Option.getD_none, zero_add]

/-- Real vectors of triangular length come back exactly. -/
theorem C10_real_vech_unvech_partial {n : ℕ} (v : List ℝ) (hv : v.length = n * (n + 1) / 2) :
    ∃ M : Matrix (Fin n) (Fin n) ℝ, unvech v = .ok (.d2 n n M) ∧ M.IsSymm ∧ vech M = v := by
  obtain ⟨M, h1, h2⟩ := C10_vech_unvech_is_conj v hv (fun _ _ _ => rfl)
  refine ⟨M, h1, ?_, by rw [h2]; exact List.map_id' v⟩
  rw [unvech_of_length n v hv] at h1
  have h1 := Arr.d2.inj (Except.ok.inj h1)
  have hM := eq_of_heq h1.2.2
  rw [← hM]
  ext i j
  simp only [transpose_apply]
  by_cases h : i = j
  · subst h; rfl
  · have h' : ¬ j = i := fun h' => h h'.symm
    simp [h, h', add_comm]

/-! ## C11: unvech accepts exactly the triangular lengths -/

theorem C11_order_of_triangular_length (n : ℕ) (v : List 𝕜) (hv : v.length = n * (n + 1) / 2) :
    ∃ M : Matrix (Fin n) (Fin n) 𝕜, unvech v = .ok (.d2 n n M) :=
  ⟨_, unvech_of_length n v hv⟩

theorem C11_rejects_non_triangular (v : List 𝕜) (hv : ∀ n : ℕ, v.length ≠ n * (n + 1) / 2) :
    unvech v = .error .valueError := by
  simp only [unvech]
  rw [if_neg]
  rintro (h | h)
  · rw [length_triuIndices] at h; exact hv _ h
  · exact hv 1 h

/-- The rounding in `unvech` never meets a tie, so the rounding mode is irrelevant. -/
theorem C11_no_rounding_tie (len : ℕ) (k : ℤ) :
    (1 / 2 : ℝ) * (-1 + Real.sqrt (1 + 8 * (len : ℝ))) ≠ k + 1 / 2 := by
  intro h
  have h1 : Real.sqrt (1 + 8 * (len : ℝ)) = 2 * k + 2 := by linarith
  have h2 : (1 + 8 * (len : ℝ)) = (2 * k + 2) ^ 2 := by
    rw [← h1, Real.sq_sqrt (by positivity)]
  have h3 : (1 + 8 * (len : ℤ)) = (2 * k + 2) ^ 2 := by exact_mod_cast h2
  have h4 : (1 + 8 * (len : ℤ)) = 2 * (2 * (k + 1) ^ 2) := by rw [h3]; ring
  omega

example : ∀ n : ℕ, (4 : ℕ) ≠ n * (n + 1) / 2 := by
  intro n
  by_cases h : n ≤ 2
  · interval_cases n <;> omega
  · have : 12 ≤ n * (n + 1) := by nlinarith
    omega

end Vec

section Toeplitz
variable {𝕜 : Type*} [RCLike 𝕜]

/-! ## C12: ToeplitzMatrix -/

theorem C12_isHermitian (rho : 𝕜) (p : ℕ) : (ToeplitzMatrix rho p).IsHermitian :=
  toeplitz_isHermitian rho p

/-- Entries: powers of `rho` below the diagonal, ones on it. -/
theorem C12_entries (rho : 𝕜) (p : ℕ) (i j : Fin p) (h : j ≤ i) :
    ToeplitzMatrix rho p i j = rho ^ (i.1 - j.1) := by simp [ToeplitzMatrix, h]

theorem C12_posSemidef (rho : 𝕜) (p : ℕ) (h : ‖rho‖ ≤ 1) :
    (ToeplitzMatrix rho p).PosSemidef := by
  rw [toeplitz_factor]
  apply PosSemidef.mul_mul_conjTranspose_same
  apply posSemidef_diagonal_iff.2
  intro i
  have : 0 ≤ toepD rho p i := by
    simp only [toepD]; split_ifs
    · norm_num
    · nlinarith [norm_nonneg rho]
  exact_mod_cast this

theorem C12_posDef (rho : 𝕜) (p : ℕ) (h : ‖rho‖ < 1) : (ToeplitzMatrix rho p).PosDef := by
  have hd : (ToeplitzMatrix rho p).det ≠ 0 := by
    rw [toeplitz_factor, det_mul, det_mul, det_conjTranspose, toepL_det, det_diagonal]
    simp only [one_mul, star_one, mul_one]
    rw [Finset.prod_ne_zero_iff]
    intro i _
    have : 0 < toepD rho p i := by
      simp only [toepD]; split_ifs
      · norm_num
      · nlinarith [norm_nonneg rho]
    exact_mod_cast this.ne'
  rw [(C12_posSemidef rho p h.le).posDef_iff_isUnit, isUnit_iff_isUnit_det]
  exact hd.isUnit

/-- The docstring's unconditional claim ("a Hermitian semi-positive matrix") fails exactly
outside the unit disc (sizes 0 and 1 excepted). -/
theorem C12_posSemidef_iff (rho : 𝕜) (p : ℕ) (hp : 2 ≤ p) :
    (ToeplitzMatrix rho p).PosSemidef ↔ ‖rho‖ ≤ 1 := by
  refine ⟨fun h => ?_, C12_posSemidef rho p⟩
  set f : Fin 2 → Fin p := fun i => ⟨i.1, by omega⟩
  have h2 := (h.submatrix f).det_nonneg
  rw [det_fin_two] at h2
  simp only [submatrix_apply, ToeplitzMatrix, f, Matrix.of_apply] at h2
  simp at h2
  have : rho * star rho = ((‖rho‖ ^ 2 : ℝ) : 𝕜) := by
    rw [RCLike.star_def, RCLike.mul_conj]; norm_cast
  rw [← RCLike.star_def, mul_comm, this] at h2
  have : ‖rho‖ ^ 2 ≤ 1 := by exact_mod_cast h2
  nlinarith [norm_nonneg rho]

theorem C12_docstring_claim_false :
    ¬ ∀ (rho : ℂ) (p : ℕ), (ToeplitzMatrix rho p).PosSemidef := by
  intro h
  have := (C12_posSemidef_iff (2 : ℂ) 2 le_rfl).1 (h 2 2)
  norm_num at this

end Toeplitz

section Hermitian
variable {𝕜 : Type*} [RCLike 𝕜] {ι : Type*} [Fintype ι] [DecidableEq ι]

/-! ## C13: hermitian is the orthogonal projection onto Hermitian matrices -/

/-- Spec: squared Frobenius distance. -/
noncomputable def frobSq (A : Matrix ι ι 𝕜) : ℝ := ∑ i, ∑ j, ‖A i j‖ ^ 2

theorem C13_isHermitian (X : Matrix ι ι 𝕜) : (hermitian X).IsHermitian := by
  unfold hermitian Matrix.IsHermitian
  rw [conjTranspose_smul, conjTranspose_add, conjTranspose_conjTranspose, add_comm]
  congr 1
  simp

theorem C13_fixes_hermitian (X : Matrix ι ι 𝕜) (h : X.IsHermitian) : hermitian X = X := by
  rw [hermitian, h.eq, ← two_smul 𝕜 X, smul_smul]; simp

theorem C13_idempotent (X : Matrix ι ι 𝕜) : hermitian (hermitian X) = hermitian X :=
  C13_fixes_hermitian _ (C13_isHermitian X)

theorem C13_linear (a b : ℝ) (X Y : Matrix ι ι 𝕜) :
    hermitian ((a : 𝕜) • X + (b : 𝕜) • Y) = (a : 𝕜) • hermitian X + (b : 𝕜) • hermitian Y := by
  simp only [hermitian, conjTranspose_add, conjTranspose_smul, RCLike.star_def,
    RCLike.conj_ofReal]
  module

/-- No Hermitian matrix is closer to `X` than `hermitian X`, and every other one is
strictly farther. -/
theorem C13_closest (X H : Matrix ι ι 𝕜) (hH : H.IsHermitian) :
    frobSq (X - H) = frobSq (X - hermitian X) + frobSq (hermitian X - H) := by
  set K := X - hermitian X with hK
  set L := hermitian X - H with hL
  have hKs : Kᴴ = -K := by
    rw [hK, conjTranspose_sub, (C13_isHermitian X).eq, hermitian]
    have : Xᴴ - (1 / 2 : 𝕜) • (X + Xᴴ) = -(X - (1 / 2 : 𝕜) • (X + Xᴴ)) := by
      rw [sub_eq_iff_eq_add]
      have h2 : (1 / 2 : 𝕜) • (X + Xᴴ) + (1 / 2 : 𝕜) • (X + Xᴴ) = X + Xᴴ := by
        rw [← add_smul]; norm_num
      calc Xᴴ = (X + Xᴴ) - X := by abel
        _ = ((1 / 2 : 𝕜) • (X + Xᴴ) + (1 / 2 : 𝕜) • (X + Xᴴ)) - X := by rw [h2]
        _ = _ := by abel
    exact this
  have hLs : Lᴴ = L := by
    rw [hL, conjTranspose_sub, (C13_isHermitian X).eq, hH.eq]
  have hXH : X - H = K + L := by rw [hK, hL]; abel
  have expand : ∀ i j, ‖K i j + L i j‖ ^ 2
      = ‖K i j‖ ^ 2 + ‖L i j‖ ^ 2 + 2 * RCLike.re (K i j * star (L i j)) := by
    intro i j
    have := RCLike.normSq_add (K i j) (L i j)
    simp only [RCLike.normSq_eq_def'] at this
    rw [this, RCLike.star_def]
  have cross : ∑ i, ∑ j, RCLike.re (K i j * star (L i j)) = 0 := by
    have h1 : ∑ i, ∑ j, RCLike.re (K i j * star (L i j))
        = ∑ i, ∑ j, RCLike.re (K j i * star (L j i)) := Finset.sum_comm
    have h2 : ∀ i j, RCLike.re (K j i * star (L j i)) = - RCLike.re (K i j * star (L i j)) := by
      intro i j
      have a : star (K j i) = - K i j := congrFun (congrFun hKs i) j
      have b : star (L j i) = L i j := congrFun (congrFun hLs i) j
      have a' : K j i = - star (K i j) := by
        rw [← star_star (K j i), a, star_neg]
      rw [b, a', neg_mul, map_neg]
      congr 1
      have := RCLike.conj_re (K i j * star (L i j))
      rw [← this, ← RCLike.star_def, star_mul, star_star, mul_comm]
    have h3 : ∑ i, ∑ j, RCLike.re (K j i * star (L j i))
        = - ∑ i, ∑ j, RCLike.re (K i j * star (L i j)) := by
      rw [← Finset.sum_neg_distrib]
      refine Finset.sum_congr rfl fun i _ => ?_
      rw [← Finset.sum_neg_distrib]
      exact Finset.sum_congr rfl fun j _ => h2 i j
    linarith
  rw [hXH]
  simp only [frobSq, Matrix.add_apply, expand, Finset.sum_add_distrib, ← Finset.mul_sum]
  rw [cross]; ring

theorem C13_closest_le (X H : Matrix ι ι 𝕜) (hH : H.IsHermitian) :
    frobSq (X - hermitian X) ≤ frobSq (X - H) ∧
    (frobSq (X - H) = frobSq (X - hermitian X) → H = hermitian X) := by
  have h := C13_closest X H hH
  have nn : ∀ A : Matrix ι ι 𝕜, 0 ≤ frobSq A := fun A => by unfold frobSq; positivity
  refine ⟨by linarith [nn (hermitian X - H)], fun heq => ?_⟩
  have h0 : frobSq (hermitian X - H) = 0 := by linarith
  ext i j
  have h1 : ∑ j, ‖(hermitian X - H) i j‖ ^ 2 = 0 := by
    refine (Finset.sum_eq_zero_iff_of_nonneg (fun i _ => ?_)).1 h0 i (Finset.mem_univ i)
    positivity
  have h2 := (Finset.sum_eq_zero_iff_of_nonneg (fun j _ => by positivity)).1 h1 j
    (Finset.mem_univ j)
  have h3 : ‖(hermitian X - H) i j‖ = 0 := by simpa using h2
  have h4 := norm_eq_zero.1 h3
  rw [Matrix.sub_apply, sub_eq_zero] at h4
  exact h4.symm

/-- The stacked version acts matrix by matrix. -/
theorem C13_multiherm_matrixwise {κ : Type*} (A : κ → Matrix ι ι 𝕜) (k : κ) :
    multiherm A k = hermitian (A k) := rfl

/-- Non-vacuity: a matrix that is moved by the projection. -/
example : hermitian (!![0, 2; 0, 0] : Matrix (Fin 2) (Fin 2) ℂ) = !![0, 1; 1, 0] := by
  ext i j; fin_cases i <;> fin_cases j <;> simp [hermitian]

end Hermitian
end RS
