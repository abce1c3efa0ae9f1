import Mathlib.Logic.Equiv.Fin.Basic
import Verif.Model.Linalg

/-
Model of `robuststats/utils/generation_data.py`.

Randomness. `numpy.random.randn` reads standard normal variates, in C order, from one stream
`w : ℕ → ℝ` of which `pos` variates have been used; a function returns its value and the new
position. The other draws (`random.rand`, `random.gamma`, `lognorm.rvs`, `ortho_group.rvs`,
`unitary_group.rvs`) are parameters. Simplifications: arrays are of dtype `float64` or `complex128`;
textures are real and one or two dimensional, and covariances have at most two dimensions (other
arrays give `valueError` here, which is no claim about the code).
-/
set_option autoImplicit false

namespace RS
open Matrix

/-! ## Matrices -/

/-- `Q[:, :k]` for an integer `k`: negative numbers count from the end. -/
def sliceCols {α : Type*} {p : ℕ} (Q : Matrix (Fin p) (Fin p) α) (k : ℤ) :
    Σ m : ℕ, Matrix (Fin p) (Fin m) α :=
  let m : ℕ := if 0 ≤ k then min k.toNat p else (p + k).toNat
  have h : m ≤ p := by
    change (if 0 ≤ k then min k.toNat p else (p + k).toNat) ≤ p
    split_ifs <;> omega
  ⟨m, Q.submatrix id (Fin.castLE h)⟩

/-- generation_data.py:68-81 `generate_stiefel` and `generate_complex_stiefel`; `rvs` is the outcome
of `ortho_group.rvs(p)` or `unitary_group.rvs(p)` (which reject `p <= 1` in most versions). -/
def generateStiefel {α : Type*} (p : ℕ) (rvs : Py (Matrix (Fin p) (Fin p) α)) (k : ℤ) :
    Py (Σ m : ℕ, Matrix (Fin p) (Fin m) α) := do
  if k < p then
    let Q ← rvs
    return sliceCols Q k
  else
    let Q ← rvs
    return ⟨p, Q⟩

/-- generation_data.py:33-36 and 49-52 the end of both functions: division by the `p`-th root of the
determinant. Simplification: for a zero determinant numpy yields NaN and infinity. -/
noncomputable def unitDet {𝕜 : Type*} [RCLike 𝕜] {p : ℕ} (unit_det : Bool)
    (sigma : Matrix (Fin p) (Fin p) 𝕜) : Matrix (Fin p) (Fin p) 𝕜 :=
  if unit_det then Matrix.of fun i j => sigma i j / ((RCLike.re sigma.det ^ (1 / p : ℝ) : ℝ) : 𝕜)
  else sigma

/-- generation_data.py:23-36 `generate_covariance`; `u` is `random.rand(p)`. -/
noncomputable def generateCovariance (p : ℕ) (u : Fin p → ℝ)
    (rvs : Py (Matrix (Fin p) (Fin p) ℝ)) (unit_det : Bool) : Py (Matrix (Fin p) (Fin p) ℝ) := do
  let D := diagonal fun i => u i ^ 2
  let ⟨m, Q⟩ ← generateStiefel p rvs p
  if h : m = p then
    let Q := Q.submatrix id (Fin.cast h.symm)
    return unitDet unit_det (Q * D * Qᵀ)
  else .error .valueError

/-- generation_data.py:39-52 `generate_complex_covariance`; `u` is `random.rand(p)`. -/
noncomputable def generateComplexCovariance (p : ℕ) (u : Fin p → ℝ)
    (rvs : Py (Matrix (Fin p) (Fin p) ℂ)) (unit_det : Bool) : Py (Matrix (Fin p) (Fin p) ℂ) := do
  let D := diagonal fun i => ((1 + u i : ℝ) : ℂ)
  let ⟨m, Q⟩ ← generateStiefel p rvs p
  if h : m = p then
    let Q := Q.submatrix id (Fin.cast h.symm)
    return unitDet unit_det (Q * D * Qᴴ)
  else .error .valueError

/-! ## Textures -/

/-- generation_data.py:55-57 `generate_textures_gamma_dist`; `gamma k θ` stands for
`random.gamma(k, θ, size=(N, 1))`, which raises for negative parameters; `1/nu` raises for 0
(here as `valueError`). -/
noncomputable def generateTexturesGamma {N : ℕ} (gamma : ℝ → ℝ → Matrix (Fin N) (Fin 1) ℝ) (nu : ℝ) :
    Py (Matrix (Fin N) (Fin 1) ℝ) :=
  if nu ≤ 0 then .error .valueError else .ok (gamma nu (1 / nu))

/-- generation_data.py:60-65 `generate_textures_lognormal_dist`; `lognorm scale s` stands for
`lognorm.rvs(scale=scale, s=s, size=(N, 1))`, which raises unless `s > 0`. -/
noncomputable def generateTexturesLognormal {N : ℕ}
    (lognorm : ℝ → ℝ → Matrix (Fin N) (Fin 1) ℝ) (variance : ℝ) : Py (Matrix (Fin N) (Fin 1) ℝ) :=
  if variance ≤ 0 then .error .valueError
  else
    let s := Real.sqrt variance
    let mu := -(s ^ 2) / 2
    .ok (lognorm (Real.exp mu) s)

/-! ## Samples -/

/-- `random.randn(p, N)`, generation_data.py:84-85. -/
def randn (w : ℕ → ℝ) (pos p N : ℕ) : Matrix (Fin p) (Fin N) ℝ × ℕ :=
  (Matrix.of fun i j => w (pos + (i * N + j)), pos + p * N)

/-- generation_data.py:88-91 `sample_complex_standard_normal_distribution`. -/
noncomputable def crandn (w : ℕ → ℝ) (pos p N : ℕ) : Matrix (Fin p) (Fin N) ℂ × ℕ :=
  let (A, pos) := randn w pos p N
  let (B, pos) := randn w pos p N
  (Matrix.of fun i j => ((1 / Real.sqrt 2 : ℝ) : ℂ) * ((A i j : ℂ) + Complex.I * (B i j : ℂ)), pos)

/-- generation_data.py:94-99 `sample_normal_distribution`. -/
noncomputable def sampleNormal (eigh : (n : ℕ) → Eigh (Fin n) ℝ) (w : ℕ → ℝ) (pos N : ℕ) :
    NDArr → Py (NDArr × ℕ)
  | .cplx _ => .error .assertionError
  | .real (.d0 _) => .error .indexError
  | .real (.d1 _ _) => .error .linAlgError
  | .real (.d2 m n cov) =>
    if h : m = n then
      let (X, pos) := randn w pos m N
      .ok (.real (.d2 m N (sqrtm (eigh m) (cov.submatrix id (Fin.cast h)) * X)), pos)
    else .error .linAlgError
  | .real _ => .error .valueError

/-- generation_data.py:102-107 `sample_complex_normal_distribution`. -/
noncomputable def sampleCNormal (eigh : (n : ℕ) → Eigh (Fin n) ℂ) (w : ℕ → ℝ) (pos N : ℕ) :
    NDArr → Py (NDArr × ℕ)
  | .real _ => .error .assertionError
  | .cplx (.d0 _) => .error .indexError
  | .cplx (.d1 _ _) => .error .linAlgError
  | .cplx (.d2 m n cov) =>
    if h : m = n then
      let (X, pos) := crandn w pos m N
      .ok (.cplx (.d2 m N (sqrtm (eigh m) (cov.submatrix id (Fin.cast h)) * X)), pos)
    else .error .linAlgError
  | .cplx _ => .error .valueError

/-- `tau.shape[0]` and the entries of `np.sqrt(tau).reshape((1, -1))`. Simplification: for a
negative texture numpy yields NaN. -/
noncomputable def textureRow : Arr ℝ → Py (ℕ × Σ L : ℕ, Fin L → ℝ)
  | .d0 _ => .error .indexError
  | .d1 n v => .ok (n, ⟨n, fun i => Real.sqrt (v i)⟩)
  | .d2 m n a => .ok (m, ⟨m * n, fun i =>
      Real.sqrt (a (finProdFinEquiv.symm i).1 (finProdFinEquiv.symm i).2)⟩)
  | _ => .error .valueError

/-- `temp*X` for `temp` of shape `(1, L)` and `X` of shape `(p, N)`. -/
def rowTimes {𝕜 : Type} [SMul ℝ 𝕜] {L p N : ℕ} (t : Fin L → ℝ) (X : Matrix (Fin p) (Fin N) 𝕜) :
    Py (Arr 𝕜) :=
  bcast2 (fun a x => a • x) p L N (Matrix.of fun _ j => t j) X

/-- generation_data.py:110-115 `sample_compound_distribution`. -/
noncomputable def sampleCompound (eigh : (n : ℕ) → Eigh (Fin n) ℝ) (w : ℕ → ℝ) (pos : ℕ)
    (tau : Arr ℝ) (cov : NDArr) : Py (NDArr × ℕ) := do
  if cov.isComplex then .error .assertionError
  let (N, ⟨_, temp⟩) ← textureRow tau
  match ← sampleNormal eigh w pos N cov with
  | (.real (.d2 _ _ X), pos) => return (.real (← rowTimes temp X), pos)
  | _ => .error .valueError

/-- generation_data.py:118-123 `sample_complex_compound_distribution`. -/
noncomputable def sampleCCompound (eigh : (n : ℕ) → Eigh (Fin n) ℂ) (w : ℕ → ℝ) (pos : ℕ)
    (tau : Arr ℝ) (cov : NDArr) : Py (NDArr × ℕ) := do
  if cov.isComplex = false then .error .assertionError
  let (N, ⟨_, temp⟩) ← textureRow tau
  match ← sampleCNormal eigh w pos N cov with
  | (.cplx (.d2 _ _ X), pos) => return (.cplx (← rowTimes temp X), pos)
  | _ => .error .valueError

/-- `A + X` for a 2-D `A` with as many rows as `X`. -/
def arrAdd {𝕜 : Type} [Add 𝕜] {p N : ℕ} (A : Arr 𝕜) (X : Matrix (Fin p) (Fin N) 𝕜) : Py (Arr 𝕜) :=
  match A with
  | .d2 q M A => if h : p = q then bcast2 (· + ·) p M N (A.submatrix (Fin.cast h) id) X
      else .error .valueError
  | _ => .error .valueError

/-- generation_data.py:126-133 `sample_tau_UUH_distribution`. -/
noncomputable def sampleTauUUH (eigh : (n : ℕ) → Eigh (Fin n) ℝ) (w : ℕ → ℝ) (pos : ℕ)
    (tau : Arr ℝ) (U : NDArr) : Py (NDArr × ℕ) := do
  if U.isComplex then .error .assertionError
  let (N, ⟨_, temp⟩) ← textureRow tau
  match U with
  | .real (.d2 p k U) =>
    match ← sampleNormal eigh w pos N (.real (.d2 k k 1)) with
    | (.real (.d2 k' _ cnk), pos) =>
      match ← sampleNormal eigh w pos N (.real (.d2 p p 1)) with
      | (.real (.d2 p' _ cnp), pos) =>
        if h : k = k' then
          if h' : p = p' then
            let Y ← rowTimes temp (U * cnk.submatrix (Fin.cast h) id)
            return (.real (← arrAdd Y (cnp.submatrix (Fin.cast h') id)), pos)
          else .error .valueError
        else .error .valueError
      | _ => .error .valueError
    | _ => .error .valueError
  | _ => .error .valueError

/-- generation_data.py:136-145 `sample_complex_tau_UUH_distribution`. -/
noncomputable def sampleCTauUUH (eigh : (n : ℕ) → Eigh (Fin n) ℂ) (w : ℕ → ℝ) (pos : ℕ)
    (tau : Arr ℝ) (U : NDArr) : Py (NDArr × ℕ) := do
  if U.isComplex = false then .error .assertionError
  let (N, ⟨_, temp⟩) ← textureRow tau
  match U with
  | .cplx (.d2 p k U) =>
    match ← sampleCNormal eigh w pos N (.cplx (.d2 k k 1)) with
    | (.cplx (.d2 k' _ cnk), pos) =>
      match ← sampleCNormal eigh w pos N (.cplx (.d2 p p 1)) with
      | (.cplx (.d2 p' _ cnp), pos) =>
        if h : k = k' then
          if h' : p = p' then
            let Y ← rowTimes temp (U * cnk.submatrix (Fin.cast h) id)
            return (.cplx (← arrAdd Y (cnp.submatrix (Fin.cast h') id)), pos)
          else .error .valueError
        else .error .valueError
      | _ => .error .valueError
    | _ => .error .valueError
  | _ => .error .valueError

end RS
