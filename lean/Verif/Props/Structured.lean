import Verif.Lemmas.Structured
import Verif.Lemmas.Estimators
import Mathlib.Tactic.FinCases
import Mathlib.Analysis.Complex.ExponentialBounds

/-
Properties of `estimation_cov_kronecker_MM` and `KroneckerEllipticalMM` (C65-C67, C91, C93, C94).
Data have `a * b` columns; sample `i` as a `b × a` matrix is `unstack (X i)`.
-/
set_option autoImplicit false

namespace RS
open Matrix ComplexOrder

section
variable {𝕜 : Type} [RCLike 𝕜] {N a b : ℕ}

/-- The contract on `sqrtm` can be met. -/
theorem exists_sqrtmPD : ∃ sq : Sqrtm 𝕜, SqrtmPD sq := by
  classical
  refine ⟨fun n S => if h : S.PosDef then .ok (exists_pd_root h).choose else .error .valueError,
    fun n S hS => ⟨(exists_pd_root hS).choose, ?_, (exists_pd_root hS).choose_spec⟩⟩
  simp only [dif_pos hS]

theorem kroneckerMM_eq (sq : Sqrtm 𝕜) (X : Matrix (Fin N) (Fin (a * b)) 𝕜) (tol : ℝ)
    (iterMax : ℤ) :
    kroneckerMM sq X a b tol iterMax =
      (kronLoop sq (fun i => unstack (X i)) tol iterMax ⟨1, 1, 1, .inf, 0⟩).map fun s =>
        some ⟨s.A, s.B, tol, s.iteration, (s.iteration : ℤ) == iterMax⟩ := by
  have e : (fun i => reshapeF (a := a) (b := b) rfl (X i)) = fun i => unstack (X i) :=
    funext fun i => reshapeF_eq (X i) rfl
  unfold kroneckerMM
  rw [dif_neg (by simp), e]
  cases kronLoop sq (fun i => unstack (X i)) tol iterMax ⟨1, 1, 1, .inf, 0⟩ <;> rfl

/-! ## C65 -/

/-- `None` is returned exactly for incompatible sizes. -/
theorem C65_none {p : ℕ} (sq : Sqrtm 𝕜) (X : Matrix (Fin N) (Fin p) 𝕜) (a b : ℕ) (tol : ℝ)
    (iterMax : ℤ) : kroneckerMM sq X a b tol iterMax = .ok none ↔ a * b ≠ p := by
  constructor
  · intro h hp
    subst hp
    rw [kroneckerMM_eq] at h
    cases hk : kronLoop sq (fun i => unstack (X i)) tol iterMax ⟨1, 1, 1, .inf, 0⟩ <;>
      rw [hk] at h <;> cases h
  · intro h
    unfold kroneckerMM
    rw [dif_pos h]

/-- Every call that returns is a run of the stopping rule from the identity, of at most `iter_max`
steps; its last pair of matrices and its length are what is returned, and 'did not converge' is
logged exactly when the length is `iter_max`. The third value is the given tolerance, for
every input, where the documentation announces the final error `d o.iteration`. -/
theorem C65_run_partial (sq : Sqrtm 𝕜) (X : Matrix (Fin N) (Fin (a * b)) 𝕜) (tol : ℝ)
    (iterMax : ℤ) (o : KronOut a b 𝕜) (h : kroneckerMM sq X a b tol iterMax = .ok (some o)) :
    ∃ A B d, A o.iteration = o.A ∧ B o.iteration = o.B ∧
      IsKronRun (fun A B A' B' =>
        kronStep sq (fun i => unstack (X i)) A A⁻¹ B = .ok (A', A'⁻¹, B'))
        tol iterMax A B d o.iteration ∧
      (o.warned = true ↔ (o.iteration : ℤ) = iterMax) ∧ o.err = tol := by
  rw [kroneckerMM_eq] at h
  cases hk : kronLoop sq (fun i => unstack (X i)) tol iterMax ⟨1, 1, 1, .inf, 0⟩ with
  | error e => rw [hk] at h; cases h
  | ok s =>
    rw [hk] at h
    simp only [Except.map, Except.ok.injEq, Option.some.injEq] at h
    subst h
    obtain ⟨A, B, d, h1, h2, -, h4⟩ := kronLoop_run sq _ tol iterMax s hk
    exact ⟨A, B, d, h1, h2, h4, by simp, rfl⟩

/-! ## C67 -/

/-- One step from positive definite matrices, for any data without zero sample and rich enough:
the loop body succeeds and its results are the unique positive definite solutions of
`A' A⁻¹ A' = S_A` and `B' B⁻¹ B' = S_B`, for the weighted scatter matrices of the step. -/
theorem C67_step (sq : Sqrtm 𝕜) (hsq : SqrtmPD sq) (M : Fin N → Matrix (Fin b) (Fin a) 𝕜)
    (hM : KronData M) (ha : 0 < a) (hb : 0 < b) (A : Matrix (Fin a) (Fin a) 𝕜)
    (B : Matrix (Fin b) (Fin b) 𝕜) (hA : A.PosDef) (hB : B.PosDef) :
    ∃ A' B', kronStep sq M A A⁻¹ B = .ok (A', A'⁻¹, B') ∧ KronUpdate M A A' B B' :=
  kronStep_ok sq hsq hM ha hb hA hB

/-- Every call returns, and its iterates are all Hermitian positive definite and linked by that
update, however long the run. -/
theorem C67_run (sq : Sqrtm 𝕜) (hsq : SqrtmPD sq) (X : Matrix (Fin N) (Fin (a * b)) 𝕜)
    (hX : KronData fun i => unstack (X i)) (ha : 0 < a) (hb : 0 < b) (tol : ℝ) (iterMax : ℤ) :
    ∃ (o : KronOut a b 𝕜) (A : ℕ → Matrix (Fin a) (Fin a) 𝕜) (B : ℕ → Matrix (Fin b) (Fin b) 𝕜)
      (d : ℕ → Delta), kroneckerMM sq X a b tol iterMax = .ok (some o) ∧
      A o.iteration = o.A ∧ B o.iteration = o.B ∧
      IsKronRun (fun A B A' B' => KronUpdate (fun i => unstack (X i)) A A' B B') tol iterMax A B d o.iteration ∧
      ∀ k ≤ o.iteration, (A k).PosDef ∧ (B k).PosDef := by
  obtain ⟨s, hs⟩ := kronLoop_total sq hsq hX ha hb tol iterMax ⟨1, 1, 1, .inf, 0⟩ PosDef.one
    (by simp) PosDef.one
  obtain ⟨A, B, d, h1, h2, -, h4⟩ := kronLoop_run sq _ tol iterMax s hs
  have hpos : ∀ k ≤ s.iteration, (A k).PosDef ∧ (B k).PosDef := by
    intro k
    induction k with
    | zero => intro _; rw [h4.start.1, h4.start.2.1]; exact ⟨PosDef.one, PosDef.one⟩
    | succ k ih =>
      intro hk
      obtain ⟨hA, hB⟩ := ih (by omega)
      obtain ⟨A', B', e, u⟩ := kronStep_ok sq hsq hX ha hb hA hB
      have := h4.next k (by omega)
      rw [e] at this
      simp only [Except.ok.injEq, Prod.mk.injEq] at this
      rw [← this.1, ← this.2.2]
      exact ⟨u.posA, u.posB⟩
  refine ⟨⟨s.A, s.B, tol, s.iteration, (s.iteration : ℤ) == iterMax⟩, A, B, d,
    by rw [kroneckerMM_eq, hs]; rfl, h1, h2, ⟨h4.start, fun k hk => ?_, h4.err, h4.continued,
      h4.bound, h4.stopped⟩, hpos⟩
  obtain ⟨hA, hB⟩ := hpos k (le_of_lt hk)
  obtain ⟨A', B', e, u⟩ := kronStep_ok sq hsq hX ha hb hA hB
  have := h4.next k hk
  rw [e] at this
  simp only [Except.ok.injEq, Prod.mk.injEq] at this
  rw [← this.1, ← this.2.2]
  exact u

/-- `fit` of `KroneckerEllipticalMM`: the attribute `covariance_` is the Kronecker product of the
attributes `A_` and `B_`, and all three are Hermitian positive definite. -/
theorem C67_fit (sq : Sqrtm ℂ) (hsq : SqrtmPD sq) (P : KronMMParams) (ha : 0 < P.a) (hb : 0 < P.b)
    (X : Matrix (Fin N) (Fin (P.a * P.b)) ℂ) (hX : KronData fun i => unstack (X i)) :
    ∃ f, kronMMFit sq P (.cplx (.d2 N (P.a * P.b) X)) = .ok f ∧
      f.covariance = .cplx (.d2 (P.a * P.b) (P.a * P.b) (kron f.A f.B)) ∧
      f.A.PosDef ∧ f.B.PosDef ∧ (kron f.A f.B).PosDef := by
  obtain ⟨o, A, B, d, h1, h2, h3, -, h5⟩ := C67_run sq hsq X hX ha hb P.tol P.iterMax
  have hpos := h5 o.iteration le_rfl
  rw [h2, h3] at hpos
  refine ⟨⟨o.A, o.B, .cplx (.d2 (P.a * P.b) (P.a * P.b) (kron o.A o.B))⟩, ?_, rfl, hpos.1, hpos.2,
    kron_posDef hpos.1 hpos.2⟩
  have hab : 0 < P.a * P.b := Nat.mul_pos ha hb
  have hN : 0 < N := kronData_pos hX ha
  simp only [kronMMFit, arraytoreal_check_complex N (P.a * P.b) hN hab X, bind, Except.bind, h1,
    npKron_eq, setCovariance_complex (P.a * P.b) hab, pure, Except.pure]

/-! ## C66 -/

/-- What the denominators are: the quadratic form of `Aᵀ ⊗ B`, for every sample. -/
theorem C66_exact (A : Matrix (Fin a) (Fin a) 𝕜) (B : Matrix (Fin b) (Fin b) 𝕜)
    (x : Fin (a * b) → 𝕜) :
    trace (A⁻¹ * ((unstack x)ᴴ * B⁻¹ * unstack x)) = star x ⬝ᵥ ((kron Aᵀ B)⁻¹ *ᵥ x) := by
  rw [kron_inv, quad_kron, ← transpose_nonsing_inv, transpose_transpose]

/-- For real data (the iterates are then real and symmetric) they are those of `A ⊗ B`. Missing
for the full claim: complex data, where it fails. -/
theorem C66_partial (A : Matrix (Fin a) (Fin a) ℝ) (hA : A.PosDef) (B : Matrix (Fin b) (Fin b) ℝ)
    (x : Fin (a * b) → ℝ) :
    trace (A⁻¹ * ((unstack x)ᴴ * B⁻¹ * unstack x)) = star x ⬝ᵥ ((kron A B)⁻¹ *ᵥ x) := by
  have : Aᵀ = A := by have := hA.1.eq; rwa [conjTranspose_eq_transpose_of_trivial] at this
  rw [C66_exact, this]

end

/-! ## Hermitian 2 × 2 matrices with equal diagonal entries and imaginary off-diagonal ones -/

def herm2 (α β : ℝ) : Matrix (Fin 2) (Fin 2) ℂ :=
  !![(α : ℂ), β * Complex.I; -(β * Complex.I), α]

theorem herm2_mul (α β γ δ : ℝ) :
    herm2 α β * herm2 γ δ = herm2 (α * γ + β * δ) (α * δ + β * γ) := by
  ext i j
  fin_cases i <;> fin_cases j <;>
    simp [herm2, Matrix.mul_apply, Fin.sum_univ_two, Complex.ext_iff, add_comm]

theorem herm2_one : herm2 1 0 = 1 := by
  ext i j
  fin_cases i <;> fin_cases j <;> simp [herm2]

theorem herm2_trace (α β : ℝ) : (herm2 α β).trace = ((2 * α : ℝ) : ℂ) := by
  simp [herm2, trace, Fin.sum_univ_two, two_mul]

theorem herm2_transpose (α β : ℝ) : (herm2 α β)ᵀ = herm2 α (-β) := by
  ext i j
  fin_cases i <;> fin_cases j <;> simp [herm2]

theorem herm2_det (α β : ℝ) : (herm2 α β).det = ((α * α - β * β : ℝ) : ℂ) := by
  rw [det_fin_two]
  simp [herm2, Complex.ext_iff, sub_eq_add_neg]

theorem herm2_inv (α β : ℝ) (h : α * α - β * β ≠ 0) :
    (herm2 α β)⁻¹ = herm2 (α / (α * α - β * β)) (-β / (α * α - β * β)) := by
  apply inv_eq_right_inv
  rw [herm2_mul, ← herm2_one]
  congr 1
  · rw [← mul_div_assoc, ← mul_div_assoc, ← add_div, div_eq_one_iff_eq h]; ring
  · rw [← mul_div_assoc, ← mul_div_assoc, ← add_div, div_eq_zero_iff]; left; ring

theorem herm2_posDef (α β : ℝ) (h : |β| < α) : (herm2 α β).PosDef := by
  refine PosDef.of_dotProduct_mulVec_pos ?_ fun x hx => ?_
  · ext i j
    fin_cases i <;> fin_cases j <;> simp [herm2, conjTranspose_apply]
  · have e : star x ⬝ᵥ (herm2 α β *ᵥ x) =
        ((α * ((x 0).re ^ 2 + (x 0).im ^ 2 + (x 1).re ^ 2 + (x 1).im ^ 2) +
          2 * β * ((x 0).im * (x 1).re - (x 0).re * (x 1).im) : ℝ) : ℂ) := by
      simp only [herm2, dotProduct, mulVec, Fin.sum_univ_two, of_apply, cons_val', cons_val_zero,
        cons_val_one, cons_val_fin_one, Pi.star_apply, RCLike.star_def]
      apply Complex.ext
      · rw [Complex.ofReal_re]; simp; ring
      · rw [Complex.ofReal_im]; simp; ring
    rw [e]
    have hne : 0 < (x 0).re ^ 2 + (x 0).im ^ 2 + (x 1).re ^ 2 + (x 1).im ^ 2 := by
      by_contra hcon
      apply hx
      have h0 : (x 0).re = 0 ∧ (x 0).im = 0 ∧ (x 1).re = 0 ∧ (x 1).im = 0 := by
        refine ⟨?_, ?_, ?_, ?_⟩ <;> nlinarith [sq_nonneg (x 0).re, sq_nonneg (x 0).im,
          sq_nonneg (x 1).re, sq_nonneg (x 1).im]
      funext i
      fin_cases i
      · exact Complex.ext h0.1 h0.2.1
      · exact Complex.ext h0.2.2.1 h0.2.2.2
    have key : 0 < α * ((x 0).re ^ 2 + (x 0).im ^ 2 + (x 1).re ^ 2 + (x 1).im ^ 2) +
          2 * β * ((x 0).im * (x 1).re - (x 0).re * (x 1).im) := by
      set s := (x 0).re ^ 2 + (x 0).im ^ 2 + (x 1).re ^ 2 + (x 1).im ^ 2 with hs
      set c := (x 0).im * (x 1).re - (x 0).re * (x 1).im with hc
      have c1 : 2 * c ≤ s := by
        rw [hs, hc]; nlinarith [sq_nonneg ((x 0).im - (x 1).re), sq_nonneg ((x 0).re + (x 1).im)]
      have c2 : -s ≤ 2 * c := by
        rw [hs, hc]; nlinarith [sq_nonneg ((x 0).im + (x 1).re), sq_nonneg ((x 0).re - (x 1).im)]
      have c3 : |2 * c| ≤ s := abs_le.2 ⟨c2, c1⟩
      have c4 : -(|β| * s) ≤ β * (2 * c) := by
        have := neg_abs_le (β * (2 * c))
        rw [abs_mul] at this
        nlinarith [abs_nonneg β, mul_le_mul_of_nonneg_left c3 (abs_nonneg β)]
      nlinarith [mul_pos (sub_pos.2 h) hne]
    exact_mod_cast key

/-- The row `(1, s i)` as a `1 × 2` matrix. -/
theorem unstack_row (s : ℝ) (x : Fin (2 * 1) → ℂ) (h0 : x 0 = 1) (h1 : x 1 = s * Complex.I) :
    (unstack x : Matrix (Fin 1) (Fin 2) ℂ) = !![1, s * Complex.I] := by
  ext i j
  fin_cases i
  fin_cases j
  · simpa [unstack, finProdFinEquiv] using h0
  · simpa [unstack, finProdFinEquiv] using h1

theorem row_gram (s : ℝ) (hs : s * s = 1) :
    (!![1, s * Complex.I] : Matrix (Fin 1) (Fin 2) ℂ)ᴴ * (1 : Matrix (Fin 1) (Fin 1) ℂ)⁻¹ *
      !![1, s * Complex.I] = herm2 1 s := by
  have hs' : (s : ℂ) * s = 1 := by exact_mod_cast hs
  rw [inv_one, Matrix.mul_one]
  ext i j
  fin_cases i <;> fin_cases j <;>
    simp [herm2, Matrix.mul_apply, conjTranspose_apply, Complex.ext_iff, hs]

/-- C66 is false for complex data: `A = [[2, i], [-i, 2]]`, `B = [1]`, `x = (1, i)`. The denominator
is `2/3`, the quadratic form of `A ⊗ B` is `2`. -/
theorem C66_violated : ∃ (A : Matrix (Fin 2) (Fin 2) ℂ) (B : Matrix (Fin 1) (Fin 1) ℂ)
    (x : Fin (2 * 1) → ℂ), A.PosDef ∧ B.PosDef ∧
    trace (A⁻¹ * ((unstack x)ᴴ * B⁻¹ * unstack x)) = ((2 / 3 : ℝ) : ℂ) ∧
    star x ⬝ᵥ ((kron A B)⁻¹ *ᵥ x) = ((2 : ℝ) : ℂ) := by
  refine ⟨herm2 2 1, 1, ![1, Complex.I], herm2_posDef 2 1 (by norm_num), PosDef.one, ?_, ?_⟩
  · rw [unstack_row 1 _ rfl (by simp), row_gram 1 (by norm_num), herm2_inv _ _ (by norm_num),
      herm2_mul, herm2_trace]
    norm_num
  · rw [kron_inv]
    refine (quad_kron _ _ _).trans ?_
    rw [unstack_row 1 _ rfl (by simp), row_gram 1 (by norm_num),
      herm2_inv _ _ (by norm_num), herm2_transpose, herm2_mul, herm2_trace]
    norm_num

/-! ## C91 -/

section
variable {𝕜 : Type} [RCLike 𝕜] {N a b : ℕ}

theorem rows_ne_zero {X : Matrix (Fin N) (Fin (a * b)) 𝕜}
    (hX : KronData fun i => (unstack (X i) : Matrix (Fin b) (Fin a) 𝕜)) : ∀ i, X i ≠ 0 :=
  fun i h => hX.nonzero i (by ext r c; simp [unstack, h])

/-- Along every run, no iteration increases Tyler's cost of `Aᵀ ⊗ B`, and one that does not
decrease it has reached a fixed point. -/
theorem C91_transpose (sq : Sqrtm 𝕜) (hsq : SqrtmPD sq) (X : Matrix (Fin N) (Fin (a * b)) 𝕜)
    (hX : KronData fun i => (unstack (X i) : Matrix (Fin b) (Fin a) 𝕜)) (ha : 0 < a) (hb : 0 < b)
    (tol : ℝ) (iterMax : ℤ) :
    ∃ (o : KronOut a b 𝕜) (A : ℕ → Matrix (Fin a) (Fin a) 𝕜) (B : ℕ → Matrix (Fin b) (Fin b) 𝕜),
      kroneckerMM sq X a b tol iterMax = .ok (some o) ∧ A 0 = 1 ∧ B 0 = 1 ∧
      A o.iteration = o.A ∧ B o.iteration = o.B ∧
      ∀ k < o.iteration,
        tylerCost X (kron (A (k + 1))ᵀ (B (k + 1))) ≤ tylerCost X (kron (A k)ᵀ (B k)) ∧
        (tylerCost X (kron (A (k + 1))ᵀ (B (k + 1))) = tylerCost X (kron (A k)ᵀ (B k)) →
          A (k + 1) = A k ∧ B (k + 1) = B k) := by
  obtain ⟨o, A, B, d, h1, h2, h3, h4, h5⟩ := C67_run sq hsq X hX ha hb tol iterMax
  have hN := kronData_pos hX ha
  refine ⟨o, A, B, h1, h4.start.1, h4.start.2.1, h2, h3, fun k hk => ?_⟩
  have hp := h5 k hk.le
  exact ⟨kron_mm X hN (rows_ne_zero hX) hp.1 hp.2 (h4.next k hk), fun he =>
    kron_mm_eq X hN (rows_ne_zero hX) ha hb hp.1 hp.2 (h4.next k hk) he.ge⟩

end

/-- The claim for real data: no iteration increases Tyler's cost of `A ⊗ B`. Missing for the full
claim: complex data, where it fails. -/
theorem C91_partial {N a b : ℕ} (sq : Sqrtm ℝ) (hsq : SqrtmPD sq)
    (X : Matrix (Fin N) (Fin (a * b)) ℝ)
    (hX : KronData fun i => (unstack (X i) : Matrix (Fin b) (Fin a) ℝ)) (ha : 0 < a) (hb : 0 < b)
    (tol : ℝ) (iterMax : ℤ) :
    ∃ (o : KronOut a b ℝ) (A : ℕ → Matrix (Fin a) (Fin a) ℝ) (B : ℕ → Matrix (Fin b) (Fin b) ℝ),
      kroneckerMM sq X a b tol iterMax = .ok (some o) ∧ A 0 = 1 ∧ B 0 = 1 ∧
      A o.iteration = o.A ∧ B o.iteration = o.B ∧
      ∀ k < o.iteration,
        tylerCost X (kron (A (k + 1)) (B (k + 1))) ≤ tylerCost X (kron (A k) (B k)) ∧
        (tylerCost X (kron (A (k + 1)) (B (k + 1))) = tylerCost X (kron (A k) (B k)) →
          A (k + 1) = A k ∧ B (k + 1) = B k) := by
  obtain ⟨o, A, B, d, h1, h2, h3, h4, h5⟩ := C67_run sq hsq X hX ha hb tol iterMax
  have hN := kronData_pos hX ha
  have ht : ∀ k ≤ o.iteration, (A k)ᵀ = A k := fun k hk => by
    have := (h5 k hk).1.1.eq
    rwa [conjTranspose_eq_transpose_of_trivial] at this
  refine ⟨o, A, B, h1, h4.start.1, h4.start.2.1, h2, h3, fun k hk => ?_⟩
  have hp := h5 k hk.le
  have e1 := kron_mm X hN (rows_ne_zero hX) hp.1 hp.2 (h4.next k hk)
  have e2 := kron_mm_eq X hN (rows_ne_zero hX) ha hb hp.1 hp.2 (h4.next k hk)
  rw [ht k hk.le, ht (k + 1) hk] at e1 e2
  exact ⟨e1, fun he => e2 he.ge⟩

/-- Fifty complex samples: one `(1, -i)` and 49 times `(1, i)`. -/
noncomputable def kronWitness : Matrix (Fin 50) (Fin (2 * 1)) ℂ :=
  of fun i j => if j = 0 then 1 else if i = 0 then -Complex.I else Complex.I

def kronSign (i : Fin 50) : ℝ := if i = 0 then -1 else 1

theorem kronSign_sq (i : Fin 50) : kronSign i * kronSign i = 1 := by
  unfold kronSign; split_ifs <;> norm_num

theorem kronWitness_row (i : Fin 50) :
    (unstack (kronWitness i) : Matrix (Fin 1) (Fin 2) ℂ) = !![1, kronSign i * Complex.I] := by
  apply unstack_row
  · simp [kronWitness]
  · by_cases hi : i = 0 <;> simp [kronWitness, kronSign, hi]

/-- The data meet the hypotheses of C67 and C91. -/
theorem kronWitness_ok : KronData fun i => (unstack (kronWitness i) : Matrix (Fin 1) (Fin 2) ℂ) where
  nonzero i h := by
    rw [kronWitness_row] at h
    have := congrFun (congrFun h 0) 0
    simp at this
  cols v hv := by
    have h0 := congrFun (hv 0) 0
    have h1 := congrFun (hv 1) 0
    simp only [kronWitness_row, kronSign, mulVec, dotProduct, Fin.sum_univ_two] at h0 h1
    simp at h0 h1
    have e0 : v 0 = 0 := by linear_combination (h0 + h1) / 2
    have e1 : v 1 = 0 := by
      have : Complex.I * v 1 = 0 := by linear_combination (h1 - h0) / 2
      simpa using this
    funext i
    fin_cases i
    · exact e0
    · exact e1
  rows u hu := by
    have h0 := congrFun (hu 0) 0
    simp only [kronWitness_row, mulVec, dotProduct, conjTranspose_apply] at h0
    simp at h0
    funext i
    fin_cases i
    exact h0

theorem sum_kronSign {M : Type} [AddCommMonoid M] (f : ℝ → M) :
    ∑ i, f (kronSign i) = f (-1) + 49 • f 1 := by
  rw [Fin.sum_univ_succ]
  have : ∀ i : Fin 49, kronSign i.succ = 1 := fun i => by
    unfold kronSign; rw [if_neg (Fin.succ_ne_zero i)]
  simp only [this, Finset.sum_const, Finset.card_univ, Fintype.card_fin]
  simp [kronSign]

/-- C91 is false for complex data: on these, the first iteration increases Tyler's cost of
`A ⊗ B` (by `48 log 7`). -/
theorem C91_violated (sq : Sqrtm ℂ) (hsq : SqrtmPD sq) (tol : ℝ) :
    ∃ o : KronOut 2 1 ℂ, kroneckerMM sq kronWitness 2 1 tol 1 = .ok (some o) ∧
      o.iteration = 1 ∧
      tylerCost kronWitness (kron 1 1) < tylerCost kronWitness (kron o.A o.B) := by
  obtain ⟨o, A, B, d, h1, h2, h3, h4, h5⟩ := C67_run sq hsq kronWitness kronWitness_ok
    (by norm_num) (by norm_num) tol 1
  have hit : o.iteration = 1 := by
    have hb := h4.bound
    by_contra hne
    have : o.iteration = 0 := by have : (o.iteration : ℤ) ≤ 1 := by simpa using hb
                                 omega
    have hs := h4.stopped (by rw [this]; norm_num)
    rw [this, h4.start.2.2] at hs
    exact hs trivial
  have hu := h4.next 0 (by omega)
  rw [h4.start.1, h4.start.2.1] at hu
  have hp : (herm2 (4 / 5) (3 / 5)).PosDef := herm2_posDef _ _ (by rw [abs_of_pos] <;> norm_num)
  have hA1 : A 1 = herm2 (4 / 5) (3 / 5) := by
    refine (hu.uniqA _ hp ?_).symm
    unfold scatterA
    simp only [kronWitness_row, row_gram _ (kronSign_sq _)]
    simp only [inv_one, Matrix.mul_one, Matrix.one_mul, herm2_trace, herm2_mul]
    rw [sum_kronSign fun s => (((2 * 1 : ℝ)) : ℂ)⁻¹ • herm2 1 s]
    ext i j
    fin_cases i <;> fin_cases j <;> simp [herm2, Complex.ext_iff] <;> norm_num
  have hB1 : B 1 = 1 := by
    refine (hu.uniqB _ PosDef.one ?_).symm
    rw [hA1]
    unfold scatterB
    have t : ∀ s : ℝ, s * s = 1 → (trace ((herm2 (4 / 5) (3 / 5))⁻¹ * herm2 1 s))⁻¹ •
        ((!![1, s * Complex.I] : Matrix (Fin 1) (Fin 2) ℂ) * (herm2 (4 / 5) (3 / 5))⁻¹ *
          (!![1, s * Complex.I] : Matrix (Fin 1) (Fin 2) ℂ)ᴴ) = 1 := fun s hs => by
      have e := trace_swap (herm2 (4 / 5) (3 / 5))⁻¹ (1 : Matrix (Fin 1) (Fin 1) ℂ)⁻¹
        (!![1, s * Complex.I] : Matrix (Fin 1) (Fin 2) ℂ)
      obtain ⟨r, r1, r2, r3⟩ := trace_den hp (PosDef.one (R := ℂ) (n := Fin 1))
        (!![1, s * Complex.I] : Matrix (Fin 1) (Fin 2) ℂ)
      have hne := (r3 fun h => by have := congrFun (congrFun h 0) 0; simp at this).ne'
      rw [row_gram s hs] at e r1
      rw [r1] at e ⊢
      rw [inv_one, Matrix.one_mul] at e
      ext i j
      fin_cases i; fin_cases j
      simp only [trace, Fin.sum_univ_one, diag_apply] at e
      simp only [Matrix.smul_apply, smul_eq_mul, one_apply_eq]
      erw [← e]
      exact inv_mul_cancel₀ (fun h => hne (RCLike.ofReal_eq_zero.1 h))
    simp only [kronWitness_row, row_gram _ (kronSign_sq _)]
    simp only [t _ (kronSign_sq _)]
    ext i j
    fin_cases i; fin_cases j
    simp only [Finset.sum_const, Finset.card_univ, Fintype.card_fin, Matrix.smul_apply, inv_one,
      Matrix.mul_one]
    norm_num
  refine ⟨o, h1, hit, ?_⟩
  rw [← h2, ← h3, hit, hA1, hB1]
  have q : ∀ α β : ℝ, α * α - β * β ≠ 0 → ∀ i, qf (kron (herm2 α β) 1) (sample kronWitness i) =
      2 * (α / (α * α - β * β) + β / (α * α - β * β) * kronSign i) := fun α β h i => by
    unfold qf
    rw [kron_inv]
    have : sample kronWitness i = kronWitness i := rfl
    rw [this, quad_kron, kronWitness_row, row_gram _ (kronSign_sq i), herm2_inv _ _ h,
      herm2_transpose, herm2_mul, herm2_trace]
    have hre : ∀ r : ℝ, RCLike.re (r : ℂ) = r := Complex.ofReal_re
    rw [hre]
    ring
  have dt : ∀ α β : ℝ, RCLike.re (kron (herm2 α β) (1 : Matrix (Fin 1) (Fin 1) ℂ)).det =
      α * α - β * β := fun α β => by
    rw [det_kron, herm2_det, det_one, one_pow, mul_one, pow_one]
    exact Complex.ofReal_re _
  rw [← herm2_one]
  unfold tylerCost
  simp only [q 1 0 (by norm_num), q (4 / 5) (3 / 5) (by norm_num), dt]
  rw [sum_kronSign fun s => Real.log (2 * (1 / (1 * 1 - 0 * 0) + 0 / (1 * 1 - 0 * 0) * s)),
    sum_kronSign fun s => Real.log (2 * (4 / 5 / (4 / 5 * (4 / 5) - 3 / 5 * (3 / 5)) +
      3 / 5 / (4 / 5 * (4 / 5) - 3 / 5 * (3 / 5)) * s))]
  norm_num
  have l10 : Real.log 10 = Real.log 2 + Real.log 5 := by
    rw [← Real.log_mul (by norm_num) (by norm_num)]; norm_num
  have l1 : Real.log (10 / 7) = Real.log 2 + Real.log 5 - Real.log 7 := by
    rw [Real.log_div (by norm_num) (by norm_num), l10]
  have l2 : Real.log (7 / 25) = Real.log 7 - 2 * Real.log 5 := by
    rw [Real.log_div (by norm_num) (by norm_num), show (25 : ℝ) = 5 ^ 2 by norm_num, Real.log_pow]
    norm_num
  have l7 : 0 < Real.log 7 := Real.log_pos (by norm_num)
  rw [l1, l2, l10]
  linarith

/-! ## C65: the third value -/

/-- The data set with the single sample `1`. -/
theorem kronOne_ok : KronData fun i =>
    (unstack ((1 : Matrix (Fin 1) (Fin (1 * 1)) ℝ) i) : Matrix (Fin 1) (Fin 1) ℝ) := by
  have e : ∀ i, (unstack ((1 : Matrix (Fin 1) (Fin (1 * 1)) ℝ) i) : Matrix (Fin 1) (Fin 1) ℝ) = 1 := by
    intro i
    ext r c
    fin_cases i; fin_cases r; fin_cases c
    rfl
  refine ⟨fun i h => ?_, fun v hv => ?_, fun u hu => ?_⟩
  · rw [e] at h
    exact one_ne_zero h
  · have := hv 0
    simpa [e] using this
  · have := hu 0
    simpa [e] using this

/-- C65 is false: on this data set with `tol = 1/2` the call stops after one iteration, which
changed nothing (final error 0), and returns `1/2` as its third value. -/
theorem C65_violated (sq : Sqrtm ℝ) (hsq : SqrtmPD sq) :
    ∃ (o : KronOut 1 1 ℝ) (A B : ℕ → Matrix (Fin 1) (Fin 1) ℝ) (d : ℕ → Delta),
      kroneckerMM sq (1 : Matrix (Fin 1) (Fin (1 * 1)) ℝ) 1 1 (1 / 2) 30 = .ok (some o) ∧
      IsKronRun (fun A B A' B' =>
        KronUpdate (fun i => unstack ((1 : Matrix (Fin 1) (Fin (1 * 1)) ℝ) i)) A A' B B')
        (1 / 2) 30 A B d o.iteration ∧
      d o.iteration = .fin 0 ∧ o.err = 1 / 2 := by
  obtain ⟨o, A, B, d, h1, h2, h3, h4, h5⟩ := C67_run sq hsq (1 : Matrix (Fin 1) (Fin (1 * 1)) ℝ)
    kronOne_ok one_pos one_pos (1 / 2) 30
  have e : ∀ i, (unstack ((1 : Matrix (Fin 1) (Fin (1 * 1)) ℝ) i) : Matrix (Fin 1) (Fin 1) ℝ) = 1 := by
    intro i
    ext r c
    fin_cases i; fin_cases r; fin_cases c
    rfl
  have h0 : 0 < o.iteration := by
    by_contra hne
    have h0 : o.iteration = 0 := by omega
    have := h4.stopped (by rw [h0]; norm_num)
    rw [h0, h4.start.2.2] at this
    exact this trivial
  have hu := h4.next 0 h0
  rw [h4.start.1, h4.start.2.1] at hu
  have hA : A 1 = 1 := (hu.uniqA 1 PosDef.one (by simp [scatterA, e])).symm
  have hB : B 1 = 1 := (hu.uniqB 1 PosDef.one (by rw [hA]; simp [scatterB, e])).symm
  have hd : d 1 = .fin 0 := by
    obtain ⟨dA, dB, r1, r2, r3⟩ := h4.err 0 h0
    have z : ∀ d : Delta, RelChange (.fin (1 : Matrix (Fin 1) (Fin 1) ℝ)) (.fin 1) d → d = .fin 0 :=
      fun d hd => by
        have := hd.1 1 1 rfl rfl one_ne_zero
        simpa using this
    rw [zero_add, hA, h4.start.1] at r1
    rw [zero_add, hB, h4.start.2.1] at r2
    rw [z _ r1, z _ r2] at r3
    generalize hd1 : d (0 + 1) = x at r3
    cases r3
    simp
  have hit : o.iteration = 1 := by
    by_contra hne
    have := h4.continued 1 (by omega)
    rw [hd] at this
    have : (0 : ℝ) > 1 / 2 := this
    norm_num at this
  refine ⟨o, A, B, d, h1, h4, by rw [hit, hd], ?_⟩
  obtain ⟨_, _, _, _, _, _, _, h⟩ := C65_run_partial sq (1 : Matrix (Fin 1) (Fin (1 * 1)) ℝ) (1 / 2)
    30 o h1
  exact h

/-- The hypotheses of C67 and C91 are met by the data of the counterexample. -/
example (sq : Sqrtm ℂ) (hsq : SqrtmPD sq) : ∃ (o : KronOut 2 1 ℂ)
      (A : ℕ → Matrix (Fin 2) (Fin 2) ℂ) (B : ℕ → Matrix (Fin 1) (Fin 1) ℂ),
    kroneckerMM sq kronWitness 2 1 (1 / 1000) 20 = .ok (some o) ∧ A 0 = 1 ∧ B 0 = 1 ∧
    A o.iteration = o.A ∧ B o.iteration = o.B := by
  obtain ⟨o, A, B, h1, h2, h3, h4, h5, -⟩ :=
    C91_transpose sq hsq kronWitness kronWitness_ok two_pos one_pos (1 / 1000) 20
  exact ⟨o, A, B, h1, h2, h3, h4, h5⟩

/-! ## C93 -/

section
variable {𝕜 : Type} [RCLike 𝕜] {N a b : ℕ}

/-- Multiplying every sample by a number other than zero changes nothing: same matrices, same
count, same outcome, for all inputs. -/
theorem C93_scale (sq : Sqrtm 𝕜) {p : ℕ} (X : Matrix (Fin N) (Fin p) 𝕜) (c : Fin N → 𝕜)
    (hc : ∀ i, c i ≠ 0) (a b : ℕ) (tol : ℝ) (iterMax : ℤ) :
    kroneckerMM sq (of fun i j => c i * X i j) a b tol iterMax =
      kroneckerMM sq X a b tol iterMax := by
  by_cases hp : a * b = p
  · subst hp
    have e : (fun i => (unstack ((of fun i j => c i * X i j : Matrix (Fin N) (Fin (a * b)) 𝕜) i) :
        Matrix (Fin b) (Fin a) 𝕜)) = fun i => c i • unstack (X i) := by
      funext i
      ext r k
      rfl
    rw [kroneckerMM_eq, kroneckerMM_eq, e,
      kronLoop_congr sq _ _ (kronStep_scale sq (fun i => unstack (X i)) c hc)]
  · rw [(C65_none sq _ a b tol iterMax).2 hp, (C65_none sq _ a b tol iterMax).2 hp]

/-- The order of the samples is irrelevant. -/
theorem C93_order (sq : Sqrtm 𝕜) {p : ℕ} (X : Matrix (Fin N) (Fin p) 𝕜) (s : Equiv.Perm (Fin N))
    (a b : ℕ) (tol : ℝ) (iterMax : ℤ) :
    kroneckerMM sq (of fun i j => X (s i) j) a b tol iterMax =
      kroneckerMM sq X a b tol iterMax := by
  by_cases hp : a * b = p
  · subst hp
    rw [kroneckerMM_eq, kroneckerMM_eq]
    exact congrArg _ (kronLoop_congr sq _ _ (kronStep_perm sq (fun i => unstack (X i)) s) _ _ _)
  · rw [(C65_none sq _ a b tol iterMax).2 hp, (C65_none sq _ a b tol iterMax).2 hp]

/-! ## C94 -/

/-- A pair of positive definite matrices is left unchanged by an iteration exactly when it solves
the two fixed-point equations. -/
theorem C94_fixed_iff (sq : Sqrtm 𝕜) (hsq : SqrtmPD sq) (M : Fin N → Matrix (Fin b) (Fin a) 𝕜)
    (hM : KronData M) (ha : 0 < a) (hb : 0 < b) (A : Matrix (Fin a) (Fin a) 𝕜)
    (B : Matrix (Fin b) (Fin b) 𝕜) (hA : A.PosDef) (hB : B.PosDef) :
    kronStep sq M A A⁻¹ B = .ok (A, A⁻¹, B) ↔ scatterA M A B = A ∧ scatterB M A B = B := by
  obtain ⟨A', B', h, u⟩ := kronStep_ok sq hsq hM ha hb hA hB
  have cA : A * A⁻¹ * A = A := by
    rw [mul_nonsing_inv _ ((isUnit_iff_isUnit_det A).1 hA.isUnit), Matrix.one_mul]
  have cB : B * B⁻¹ * B = B := by
    rw [mul_nonsing_inv _ ((isUnit_iff_isUnit_det B).1 hB.isUnit), Matrix.one_mul]
  rw [h]
  constructor
  · intro e
    simp only [Except.ok.injEq, Prod.mk.injEq] at e
    obtain ⟨e1, -, e2⟩ := e
    subst e1 e2
    exact ⟨u.eqA.symm.trans cA, u.eqB.symm.trans cB⟩
  · rintro ⟨e1, e2⟩
    have k1 : A = A' := u.uniqA A hA (cA.trans e1.symm)
    subst k1
    have k2 : B = B' := u.uniqB B hB (cB.trans e2.symm)
    subst k2
    rfl

/-- Such a pair minimises Tyler's cost of `Aᵀ ⊗ B` over all pairs of positive definite matrices,
and conversely every minimiser is left unchanged. -/
theorem C94_transpose (sq : Sqrtm 𝕜) (hsq : SqrtmPD sq) (X : Matrix (Fin N) (Fin (a * b)) 𝕜)
    (hX : KronData fun i => (unstack (X i) : Matrix (Fin b) (Fin a) 𝕜)) (ha : 0 < a) (hb : 0 < b)
    (A : Matrix (Fin a) (Fin a) 𝕜) (B : Matrix (Fin b) (Fin b) 𝕜) (hA : A.PosDef)
    (hB : B.PosDef) :
    kronStep sq (fun i => unstack (X i)) A A⁻¹ B = .ok (A, A⁻¹, B) ↔
      ∀ (A' : Matrix (Fin a) (Fin a) 𝕜) (B' : Matrix (Fin b) (Fin b) 𝕜), A'.PosDef → B'.PosDef →
        tylerCost X (kron Aᵀ B) ≤ tylerCost X (kron A'ᵀ B') := by
  have hN := kronData_pos hX ha
  constructor
  · intro h A' B' hA' hB'
    obtain ⟨e1, e2⟩ := (C94_fixed_iff sq hsq _ hX ha hb A B hA hB).1 h
    exact kron_fixed_minimises X hN (rows_ne_zero hX) hA hB e1 e2 hA' hB'
  · intro h
    obtain ⟨A', B', e, u⟩ := kronStep_ok sq hsq hX ha hb hA hB
    obtain ⟨k1, k2⟩ := kron_mm_eq X hN (rows_ne_zero hX) ha hb hA hB u (h A' B' u.posA u.posB)
    rw [e, k1, k2]

end

/-- The claim for real data. Missing for the full claim: complex data, where `Aᵀ` takes the place
of `A`. -/
theorem C94_partial {N a b : ℕ} (sq : Sqrtm ℝ) (hsq : SqrtmPD sq)
    (X : Matrix (Fin N) (Fin (a * b)) ℝ)
    (hX : KronData fun i => (unstack (X i) : Matrix (Fin b) (Fin a) ℝ)) (ha : 0 < a) (hb : 0 < b)
    (A : Matrix (Fin a) (Fin a) ℝ) (B : Matrix (Fin b) (Fin b) ℝ) (hA : A.PosDef)
    (hB : B.PosDef) :
    kronStep sq (fun i => unstack (X i)) A A⁻¹ B = .ok (A, A⁻¹, B) ↔
      ∀ (A' : Matrix (Fin a) (Fin a) ℝ) (B' : Matrix (Fin b) (Fin b) ℝ), A'.PosDef → B'.PosDef →
        tylerCost X (kron A B) ≤ tylerCost X (kron A' B') := by
  have ht : ∀ A : Matrix (Fin a) (Fin a) ℝ, A.PosDef → Aᵀ = A := fun A hA => by
    have := hA.1.eq
    rwa [conjTranspose_eq_transpose_of_trivial] at this
  rw [C94_transpose sq hsq X hX ha hb A B hA hB, ht A hA]
  exact ⟨fun h A' B' hA' hB' => ht A' hA' ▸ h A' B' hA' hB',
    fun h A' B' hA' hB' => (ht A' hA').symm ▸ h A' B' hA' hB'⟩

/-- Two complex samples, `(2, i)` and `(-i, 2)`. -/
noncomputable def kronPair : Matrix (Fin 2) (Fin (2 * 1)) ℂ := !![2, Complex.I; -Complex.I, 2]

theorem kronPair_rows : (unstack (kronPair 0) : Matrix (Fin 1) (Fin 2) ℂ) = !![2, Complex.I] ∧
    (unstack (kronPair 1) : Matrix (Fin 1) (Fin 2) ℂ) = !![-Complex.I, 2] := by
  constructor <;>
  · ext i j
    fin_cases i
    fin_cases j <;> simp [unstack, kronPair, finProdFinEquiv]

/-- The two samples meet the hypotheses of C94. -/
theorem kronPair_ok : KronData fun i => (unstack (kronPair i) : Matrix (Fin 1) (Fin 2) ℂ) := by
  obtain ⟨r0, r1⟩ := kronPair_rows
  refine ⟨fun i h => ?_, fun v hv => ?_, fun u hu => ?_⟩
  · fin_cases i
    · have := congrFun (congrFun (r0.symm.trans h) 0) 0
      simp at this
    · have := congrFun (congrFun (r1.symm.trans h) 0) 0
      simp at this
  · have h0 := congrFun (hv 0) 0
    have h1 := congrFun (hv 1) 0
    simp only [r0, r1, mulVec, dotProduct, Fin.sum_univ_two] at h0 h1
    simp at h0 h1
    have hI := Complex.I_mul_I
    have e0 : v 0 = 0 := by
      linear_combination (2 * h0 - Complex.I * h1) / 3 - (v 0) * hI / 3
    have e1 : v 1 = 0 := by
      linear_combination (2 * h1 + Complex.I * h0) / 3 - (v 1) * hI / 3
    funext i
    fin_cases i
    · exact e0
    · exact e1
  · have h0 := congrFun (hu 0) 0
    simp only [r0, mulVec, dotProduct, conjTranspose_apply] at h0
    simp at h0
    funext i
    fin_cases i
    exact h0

/-- C94 is false for complex data: two samples for which `A = [[5, 4i], [-4i, 5]]`, `B = [1]` is left
unchanged although Tyler's cost of `A ⊗ B` is larger than that of the identity. -/
theorem C94_violated (sq : Sqrtm ℂ) (hsq : SqrtmPD sq) :
    ∃ A : Matrix (Fin 2) (Fin 2) ℂ, A.PosDef ∧
      kronStep sq (fun i => unstack (kronPair i)) A A⁻¹ (1 : Matrix (Fin 1) (Fin 1) ℂ) =
        .ok (A, A⁻¹, 1) ∧
      tylerCost kronPair (kron 1 1) < tylerCost kronPair (kron A 1) := by
  obtain ⟨r0, r1⟩ := kronPair_rows
  have hp : (herm2 5 4).PosDef := herm2_posDef _ _ (by rw [abs_of_pos] <;> norm_num)
  have hi : (herm2 5 4)⁻¹ = herm2 (5 / 9) (-4 / 9) := by
    rw [herm2_inv _ _ (by norm_num)]; norm_num
  have g0 : (!![2, Complex.I] : Matrix (Fin 1) (Fin 2) ℂ)ᴴ * !![2, Complex.I] =
      !![4, 2 * Complex.I; -(2 * Complex.I), 1] := by
    ext i j
    fin_cases i <;> fin_cases j <;>
      simp [Matrix.mul_apply, conjTranspose_apply, Complex.ext_iff] <;> norm_num
  have g1 : (!![-Complex.I, 2] : Matrix (Fin 1) (Fin 2) ℂ)ᴴ * !![-Complex.I, 2] =
      !![1, 2 * Complex.I; -(2 * Complex.I), 4] := by
    ext i j
    fin_cases i <;> fin_cases j <;>
      simp [Matrix.mul_apply, conjTranspose_apply, Complex.ext_iff] <;> norm_num
  have t0 : ∀ α β : ℝ, trace (herm2 α β * !![4, 2 * Complex.I; -(2 * Complex.I), 1]) =
      ((5 * α + 4 * β : ℝ) : ℂ) := fun α β => by
    simp only [trace, diag_apply, Fin.sum_univ_two, Matrix.mul_apply, herm2]
    apply Complex.ext
    · rw [Complex.ofReal_re]; simp; ring
    · rw [Complex.ofReal_im]; simp
  have t1 : ∀ α β : ℝ, trace (herm2 α β * !![1, 2 * Complex.I; -(2 * Complex.I), 4]) =
      ((5 * α + 4 * β : ℝ) : ℂ) := fun α β => by
    simp only [trace, diag_apply, Fin.sum_univ_two, Matrix.mul_apply, herm2]
    apply Complex.ext
    · rw [Complex.ofReal_re]; simp; ring
    · rw [Complex.ofReal_im]; simp
  refine ⟨herm2 5 4, hp, ?_, ?_⟩
  · rw [C94_fixed_iff sq hsq _ kronPair_ok (by norm_num) (by norm_num) _ _ hp PosDef.one]
    constructor
    · unfold scatterA
      rw [Fin.sum_univ_two]
      beta_reduce
      rw [r0, r1, inv_one, Matrix.mul_one, Matrix.mul_one, g0, g1, hi, t0, t1]
      ext i j
      fin_cases i <;> fin_cases j <;> simp [herm2, Complex.ext_iff] <;> norm_num
    · unfold scatterB
      rw [Fin.sum_univ_two]
      beta_reduce
      rw [r0, r1, inv_one, Matrix.mul_one, Matrix.mul_one, g0, g1, hi, t0, t1]
      ext i j
      fin_cases i
      fin_cases j
      simp only [Matrix.smul_apply, Matrix.add_apply, Matrix.mul_apply, Fin.sum_univ_two,
        conjTranspose_apply, herm2]
      simp [Complex.ext_iff]
      norm_num
  · have q : ∀ α β : ℝ, α * α - β * β ≠ 0 → ∀ i, qf (kron (herm2 α β) 1) (sample kronPair i) =
        5 * (α / (α * α - β * β)) + 4 * (β / (α * α - β * β)) := fun α β h i => by
      unfold qf
      rw [kron_inv]
      have : sample kronPair i = kronPair i := rfl
      have hre : ∀ r : ℝ, RCLike.re (r : ℂ) = r := Complex.ofReal_re
      rw [this, quad_kron, herm2_inv _ _ h, herm2_transpose, inv_one, Matrix.mul_one]
      match i with
      | 0 => rw [r0, g0, t0, hre]; ring
      | 1 => rw [r1, g1, t1, hre]; ring
    have dt : ∀ α β : ℝ, RCLike.re (kron (herm2 α β) (1 : Matrix (Fin 1) (Fin 1) ℂ)).det =
        α * α - β * β := fun α β => by
      rw [det_kron, herm2_det, det_one, one_pow, mul_one, pow_one]
      exact Complex.ofReal_re _
    rw [← herm2_one]
    unfold tylerCost
    simp only [q 1 0 (by norm_num), q 5 4 (by norm_num), dt]
    norm_num
    have l1 : Real.log 5 < Real.log (41 / 9) + Real.log 9 / 2 := by
      have : Real.log 9 / 2 = Real.log 3 := by
        rw [show (9 : ℝ) = 3 ^ 2 by norm_num, Real.log_pow]; norm_num
      rw [this, ← Real.log_mul (by norm_num) (by norm_num)]
      exact Real.log_lt_log (by norm_num) (by norm_num)
    linarith

end RS
