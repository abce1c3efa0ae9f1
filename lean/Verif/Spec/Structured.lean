import Verif.Model.Structured
import Verif.Spec.Cost
import Mathlib.LinearAlgebra.Matrix.Kronecker

/-
Specifications for the Kronecker-structured estimators.
-/
set_option autoImplicit false

namespace RS
open Matrix ComplexOrder
open scoped Kronecker

variable {𝕜 : Type} [RCLike 𝕜] {N a b : ℕ}

/-- The Kronecker product as a matrix with one index. -/
def kron (A : Matrix (Fin a) (Fin a) 𝕜) (B : Matrix (Fin b) (Fin b) 𝕜) :
    Matrix (Fin (a * b)) (Fin (a * b)) 𝕜 :=
  (A ⊗ₖ B).submatrix finProdFinEquiv.symm finProdFinEquiv.symm

/-- The matrix divided by its trace. -/
noncomputable def unitTrace {n : ℕ} (S : Matrix (Fin n) (Fin n) 𝕜) : Matrix (Fin n) (Fin n) 𝕜 :=
  (trace S)⁻¹ • S

/-- The `b × a` matrix whose columns, one below the other, make up `x`. -/
def unstack (x : Fin (a * b) → 𝕜) : Matrix (Fin b) (Fin a) 𝕜 :=
  of fun r c => x (finProdFinEquiv (c, r))

/-- The array has `n` entries. -/
inductive Entries : NDArr → ℕ → Prop
  | scalarR (x : ℝ) : Entries (.real (.d0 x)) 1
  | scalarC (x : ℂ) : Entries (.cplx (.d0 x)) 1
  | vecR {n : ℕ} (v : Fin n → ℝ) : Entries (.real (.d1 n v)) n
  | vecC {n : ℕ} (v : Fin n → ℂ) : Entries (.cplx (.d1 n v)) n
  | matR {m n : ℕ} (M : Matrix (Fin m) (Fin n) ℝ) : Entries (.real (.d2 m n M)) (m * n)
  | matC {m n : ℕ} (M : Matrix (Fin m) (Fin n) ℂ) : Entries (.cplx (.d2 m n M)) (m * n)
  | stackR {k m n : ℕ} (T : Fin k → Matrix (Fin m) (Fin n) ℝ) :
      Entries (.real (.d3 k m n T)) (k * (m * n))
  | stackC {k m n : ℕ} (T : Fin k → Matrix (Fin m) (Fin n) ℂ) :
      Entries (.cplx (.d3 k m n T)) (k * (m * n))
  | manyR {s : List ℕ} (h : 4 ≤ s.length) (d : List ℝ) : Entries (.real (.dn s h d)) s.prod
  | manyC {s : List ℕ} (h : 4 ≤ s.length) (d : List ℂ) : Entries (.cplx (.dn s h d)) s.prod

/-- The contract on scipy's `sqrtm`: the positive definite square root of a positive definite
matrix. -/
def SqrtmPD (sq : Sqrtm 𝕜) : Prop :=
  ∀ (n : ℕ) (S : Matrix (Fin n) (Fin n) 𝕜), S.PosDef →
    ∃ R : Matrix (Fin n) (Fin n) 𝕜, sq n S = .ok R ∧ R.PosDef ∧ R * R = S

/-- The contract on scipy's `sqrtm` for singular matrices as well: the positive semidefinite square
root of a positive semidefinite matrix. -/
def SqrtmPSD (sq : Sqrtm 𝕜) : Prop :=
  ∀ (n : ℕ) (S : Matrix (Fin n) (Fin n) 𝕜), S.PosSemidef →
    ∃ R : Matrix (Fin n) (Fin n) 𝕜, sq n S = .ok R ∧ R.PosSemidef ∧ R * R = S

/-- No sample is zero, and the samples are rich enough in rows and in columns. -/
structure KronData (M : Fin N → Matrix (Fin b) (Fin a) 𝕜) : Prop where
  nonzero : ∀ i, M i ≠ 0
  cols : ∀ v : Fin a → 𝕜, (∀ i, M i *ᵥ v = 0) → v = 0
  rows : ∀ u : Fin b → 𝕜, (∀ i, (M i)ᴴ *ᵥ u = 0) → u = 0

/-- The weighted scatter matrices of the two half-steps. -/
noncomputable def scatterA (M : Fin N → Matrix (Fin b) (Fin a) 𝕜) (A : Matrix (Fin a) (Fin a) 𝕜)
    (B : Matrix (Fin b) (Fin b) 𝕜) : Matrix (Fin a) (Fin a) 𝕜 :=
  ((a : 𝕜) / N) • ∑ i, (trace (A⁻¹ * ((M i)ᴴ * B⁻¹ * M i)))⁻¹ • ((M i)ᴴ * B⁻¹ * M i)
@[inherit_doc scatterA]
noncomputable def scatterB (M : Fin N → Matrix (Fin b) (Fin a) 𝕜) (A : Matrix (Fin a) (Fin a) 𝕜)
    (B : Matrix (Fin b) (Fin b) 𝕜) : Matrix (Fin b) (Fin b) 𝕜 :=
  ((b : 𝕜) / N) • ∑ i, (trace (A⁻¹ * ((M i)ᴴ * B⁻¹ * M i)))⁻¹ • (M i * A⁻¹ * (M i)ᴴ)

/-- One step of the algorithm: `A'` and `B'` are the positive definite solutions of the two
quadratic equations. -/
structure KronUpdate (M : Fin N → Matrix (Fin b) (Fin a) 𝕜) (A A' : Matrix (Fin a) (Fin a) 𝕜)
    (B B' : Matrix (Fin b) (Fin b) 𝕜) : Prop where
  posA : A'.PosDef
  eqA : A' * A⁻¹ * A' = scatterA M A B
  uniqA : ∀ Y : Matrix (Fin a) (Fin a) 𝕜, Y.PosDef → Y * A⁻¹ * Y = scatterA M A B → Y = A'
  posB : B'.PosDef
  eqB : B' * B⁻¹ * B' = scatterB M A' B
  uniqB : ∀ Y : Matrix (Fin b) (Fin b) 𝕜, Y.PosDef → Y * B⁻¹ * Y = scatterB M A' B → Y = B'

/-- A positive definite solution of the two fixed-point equations of the algorithm. -/
structure KronFixed (M : Fin N → Matrix (Fin b) (Fin a) 𝕜) (A : Matrix (Fin a) (Fin a) 𝕜)
    (B : Matrix (Fin b) (Fin b) 𝕜) : Prop where
  posA : A.PosDef
  posB : B.PosDef
  eqA : ((a : 𝕜) / N) • ∑ i, (trace (A⁻¹ * ((M i)ᴴ * B⁻¹ * M i)))⁻¹ • ((M i)ᴴ * B⁻¹ * M i) = A
  eqB : ((b : 𝕜) / N) • ∑ i, (trace (A⁻¹ * ((M i)ᴴ * B⁻¹ * M i)))⁻¹ • (M i * A⁻¹ * (M i)ᴴ) = B

/-- The samples have no common two-sided symmetry: the only matrices `S`, `T` for which every sample
is an eigenvector of `M ↦ T M + M S` are the multiples of the identity. -/
def KronIrreducible (M : Fin N → Matrix (Fin b) (Fin a) 𝕜) : Prop :=
  ∀ (S : Matrix (Fin a) (Fin a) 𝕜) (T : Matrix (Fin b) (Fin b) 𝕜),
    (∀ i, ∃ c : 𝕜, T * M i + M i * S = c • M i) → (∃ s : 𝕜, S = s • 1) ∧ ∃ t : 𝕜, T = t • 1

/-- The samples are spread out: give the columns of the samples weights `x` and the rows weights `y`,
in any bases `P`, `Q`, not all weights equal. Then the largest weight `x c + y r` at which a sample is
nonzero, averaged over the samples, exceeds the average of all `x c + y r`. -/
def KronSpread (M : Fin N → Matrix (Fin b) (Fin a) 𝕜) : Prop :=
  ∀ (P : Matrix (Fin a) (Fin a) 𝕜) (Q : Matrix (Fin b) (Fin b) 𝕜) (x : Fin a → ℝ) (y : Fin b → ℝ)
    (m : Fin N → ℝ), IsUnit P → IsUnit Q → ((∃ c d, x c ≠ x d) ∨ ∃ r s, y r ≠ y s) →
    (∀ i r c, (Q * M i * P) r c ≠ 0 → x c + y r ≤ m i) →
    (∑ c, ∑ r, (x c + y r)) / (a * b) < (∑ i, m i) / N

/-- The larger of two errors. -/
inductive IsMax : Delta → Delta → Delta → Prop
  | fin (r s : ℝ) : IsMax (.fin r) (.fin s) (.fin (max r s))
  | left (s : ℝ) : IsMax .inf (.fin s) .inf
  | right (r : ℝ) : IsMax (.fin r) .inf .inf
  | both : IsMax .inf .inf .inf
  /-- comparisons with NaN are false, so that the first error is kept -/
  | nanLeft (d : Delta) : IsMax .nan d .nan
  | nanRight (d : Delta) : IsMax d .nan d

/-- A run of a stopping-rule loop over pairs of matrices: `A k`, `B k` are the `k`-th iterates, from
the identity, `d k` is the larger of the two relative changes made by step `k`, and iteration goes
on while it is above `tol` and there are fewer than `iterMax` steps. -/
structure IsKronRun (step : Matrix (Fin a) (Fin a) 𝕜 → Matrix (Fin b) (Fin b) 𝕜 →
      Matrix (Fin a) (Fin a) 𝕜 → Matrix (Fin b) (Fin b) 𝕜 → Prop) (tol : ℝ) (iterMax : ℤ)
    (A : ℕ → Matrix (Fin a) (Fin a) 𝕜) (B : ℕ → Matrix (Fin b) (Fin b) 𝕜)
    (d : ℕ → Delta) (iteration : ℕ) : Prop where
  start : A 0 = 1 ∧ B 0 = 1 ∧ d 0 = .inf
  next : ∀ k < iteration, step (A k) (B k) (A (k + 1)) (B (k + 1))
  err : ∀ k < iteration, ∃ dA dB, RelChange (.fin (A (k + 1))) (.fin (A k)) dA ∧
    RelChange (.fin (B (k + 1))) (.fin (B k)) dB ∧ IsMax dA dB (d (k + 1))
  continued : ∀ k < iteration, (d k).gt tol
  bound : (iteration : ℤ) ≤ max iterMax 0
  stopped : (iteration : ℤ) < iterMax → ¬ (d iteration).gt tol

end RS
