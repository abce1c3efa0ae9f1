import Verif.Model.Structured

/-
`estimation_cov_kronecker_MM` and the `fit` of `KroneckerEllipticalMM` (structured.py) evaluated with
rounding errors: the two matrices and the error that a pass of the loop stores are replaced by what a
floating-point evaluation may have stored instead. What happens inside a pass is not modelled: the
errors of the inverse of `A`, of the square roots, and of a `B` computed from the stored `A` rather
than from the exact one count as errors of the stored `A` and `B`.
-/
set_option autoImplicit false

namespace RS
open Matrix

section
variable {a b : ℕ} {𝕜 : Type} [RCLike 𝕜]

/-- What pass `n` stores instead of the exact `A`, `B` and error. -/
structure KronRounding (a b : ℕ) (𝕜 : Type) where
  matA : ℕ → Matrix (Fin a) (Fin a) 𝕜 → Matrix (Fin a) (Fin a) 𝕜
  matB : ℕ → Matrix (Fin b) (Fin b) 𝕜 → Matrix (Fin b) (Fin b) 𝕜
  err : ℕ → ℝ → ℝ

/-- NaN and infinity stay what they are. -/
def KronRounding.delta (fl : KronRounding a b 𝕜) (n : ℕ) : Delta → Delta
  | .fin d => .fin (fl.err n d)
  | .inf => .inf
  | .nan => .nan

open Classical in
/-- structured.py:88-127 the loop `kronLoop` with rounding errors; `iA` is the inverse of the stored
matrix. -/
noncomputable def kronLoopFl (fl : KronRounding a b 𝕜) (sq : Sqrtm 𝕜) {N : ℕ}
    (M : Fin N → Matrix (Fin b) (Fin a) 𝕜) (tol : ℝ) (iterMax : ℤ) (s : KronState a b 𝕜) :
    Py (KronState a b 𝕜) :=
  if s.delta.gt tol ∧ (s.iteration : ℤ) < iterMax then
    match kronStep sq M s.A s.iA s.B with
    | .error e => .error e
    | .ok (A, _, B) =>
      match pyInv (fl.matA s.iteration A) with
      | .error e => .error e
      | .ok iA => kronLoopFl fl sq M tol iterMax
          ⟨fl.matA s.iteration A, iA, fl.matB s.iteration B,
            fl.delta s.iteration ((relErr (.fin (fl.matA s.iteration A)) (.fin s.A)).pyMax
              (relErr (.fin (fl.matB s.iteration B)) (.fin s.B))), s.iteration + 1⟩
  else .ok s
termination_by (iterMax - s.iteration).toNat
decreasing_by omega

/-- structured.py:29-132 `estimation_cov_kronecker_MM` with rounding errors. -/
noncomputable def kroneckerMMFl (fl : KronRounding a b 𝕜) (sq : Sqrtm 𝕜) {N p : ℕ}
    (X : Matrix (Fin N) (Fin p) 𝕜) (tol : ℝ) (iterMax : ℤ) : Py (Option (KronOut a b 𝕜)) :=
  if h : a * b ≠ p then .ok none
  else do
    let s ← kronLoopFl fl sq (fun i => reshapeF (not_not.1 h) (X i)) tol iterMax ⟨1, 1, 1, .inf, 0⟩
    return some ⟨s.A, s.B, tol, s.iteration, (s.iteration : ℤ) == iterMax⟩

end

/-- structured.py:146-180 `KroneckerEllipticalMM.fit` with rounding errors in the iterations (the
product `np.kron` is exact). -/
noncomputable def kronMMFitFl (P : KronMMParams) (fl : KronRounding P.a P.b ℂ) (sq : Sqrtm ℂ)
    (X : NDArr) : Py (KronFit P.a P.b) := do
  match ← validateData X with
  | .cplx (.d2 _ _ Z) =>
    match ← kroneckerMMFl fl sq Z P.tol P.iterMax with
    | none => .error .typeError
    | some o =>
      let C ← setCovariance (.cplx (.d2 (P.a * P.b) (P.a * P.b) (npKron o.A o.B)))
      return ⟨o.A, o.B, C⟩
  | _ => .error .valueError

end RS
