import Mathlib.Analysis.SpecialFunctions.Gamma.Basic
import Mathlib.Analysis.SpecialFunctions.Complex.Log
import Mathlib.LinearAlgebra.Matrix.NonsingularInverse
import Mathlib.LinearAlgebra.Matrix.PosDef
import Mathlib.Data.EReal.Basic
import Verif.Model.Mappings

/-
Model of `robuststats/models/probability.py`.

scipy's part (parameter processing, densities) is modelled from its published behaviour:
`np.asarray(·, dtype=float)` drops imaginary parts; mean and covariance must have matching sizes;
data rows are compared with the mean by broadcasting. Simplifications: covariances given as scalars
other than the default 1, or as 1-D arrays, are not modelled; a covariance that is not positive
definite is an error (scipy looks at one triangle only); results are kept before the final
`squeeze`; the routine with which scipy computes the integrals of `cdf` and `logcdf` is a parameter.
-/
set_option autoImplicit false

namespace RS
open Matrix

/-! ## numpy helpers -/

/-- Entrywise map of an array. -/
def Arr.map {α β : Type*} (f : α → β) : Arr α → Arr β
  | .d0 x => .d0 (f x)
  | .d1 n v => .d1 n fun i => f (v i)
  | .d2 m n a => .d2 m n (Matrix.of fun i j => f (a i j))
  | .d3 k m n a => .d3 k m n fun l => Matrix.of fun i j => f (a l i j)
  | .dn s h d => .dn s h (d.map f)

/-- `a.astype(complex)` -/
def NDArr.asComplex : NDArr → NDArr
  | .real a => .cplx (a.map Complex.ofReal)
  | .cplx a => .cplx a

/-- `np.real(a)`, also `np.asarray(a, dtype=float)`. -/
def NDArr.realPart : NDArr → Arr ℝ
  | .real a => a
  | .cplx a => a.map Complex.re

/-- `len(a)` -/
def Arr.len {α : Type*} : Arr α → Py ℕ
  | .d0 _ => .error .typeError
  | .d1 n _ => .ok n
  | .d2 m _ _ => .ok m
  | .d3 k _ _ _ => .ok k
  | .dn s _ _ => .ok (s.headD 0)

/-- The argument `cov`/`shape`: its default, the integer 1, or an array. -/
inductive CovArg where
  | one
  | arr (a : NDArr)

/-- `np.iscomplexobj(cov)` -/
def CovArg.isComplex : CovArg → Bool
  | .one => false
  | .arr a => a.isComplex

/-- probability.py:40-41 `np.zeros((len(cov),), dtype=cov.dtype)`. -/
def zerosFor : CovArg → Py NDArr
  | .one => .error .typeError
  | .arr (.real a) => do let n ← a.len; return .real (.d1 n fun _ => 0)
  | .arr (.cplx a) => do let n ← a.len; return .cplx (.d1 n fun _ => 0)

/-! ## Parameter checks -/

/-- probability.py:22-47 `_check_parameters_complex_normal`. Simplification: a mean or covariance
that is given is a numpy array (or the integer 1 for the covariance, which has no `astype`). -/
noncomputable def checkParams (mean : Option NDArr) (cov : CovArg) : Py (NDArr × CovArg) := do
  let mean ← match mean with
    | some m => .ok m
    | none => zerosFor cov
  if mean.isComplex = false ∧ cov.isComplex = false then return (mean, cov)
  else
    let m ← arraytoreal mean.asComplex
    match cov with
    | .one => .error .attributeError
    | .arr a => do
      let c ← covariancetoreal a.asComplex
      return (m, .arr c)

/-- What `_check_parameters_array_complex_normal` returns, and which warning it logs. -/
structure Checked where
  x : NDArr
  mean : Option NDArr
  cov : CovArg
  /-- "Considering data as complex with null imaginary part." -/
  warnReal : Bool
  /-- "Discarding imaginary part of data" -/
  warnDiscard : Bool

/-- probability.py:50-86 `_check_parameters_array_complex_normal`. -/
noncomputable def checkParamsArray (X : NDArr) (mean : Option NDArr) (cov : CovArg) : Py Checked := do
  let (meanMap, covMap) ← checkParams mean cov
  if cov.isComplex then
    let x ← arraytoreal X.asComplex
    return ⟨x, some meanMap, covMap, !X.isComplex, false⟩
  else if X.isComplex then return ⟨.real X.realPart, mean, cov, false, true⟩
  else return ⟨X, mean, cov, false, false⟩

/-! ## scipy -/

/-- Dimension, mean and covariance after scipy's `_process_parameters`. -/
structure MvParams where
  dim : ℕ
  mean : Fin dim → ℝ
  cov : Matrix (Fin dim) (Fin dim) ℝ

open Classical in
/-- scipy `multivariate_normal_gen._process_parameters`, `multivariate_t_gen._process_parameters`
and `_PSD`. -/
noncomputable def scipyParams (mean : Option NDArr) (cov : CovArg) : Py MvParams := do
  let P : MvParams ← match mean, cov with
    | none, .one => (.ok ⟨1, fun _ => 0, 1⟩ : Py MvParams)
    | none, .arr a => match a.realPart with
      | .d2 m n c => if h : m = n then .ok ⟨n, fun _ => 0, h ▸ c⟩ else .error .valueError
      | _ => .error .valueError
    | some m, .one => match m.realPart with
      | .d1 n v => .ok ⟨n, v, 1⟩
      | _ => .error .valueError
    | some m, .arr a => match m.realPart, a.realPart with
      | .d1 n v, .d2 p q c =>
        if h : p = n then
          if h' : q = n then .ok ⟨n, v, of fun i j => c (i.cast h.symm) (j.cast h'.symm)⟩
          else .error .valueError
        else .error .valueError
      | _, _ => .error .valueError
  if P.cov.PosDef then return P else .error .valueError

/-- scipy `_process_quantiles`, also probability.py:142-160 and 356-374: the rows of the data. -/
def scipyRows {α : Type*} (dim : ℕ) : Arr α → Py (Σ r k : ℕ, Matrix (Fin r) (Fin k) α)
  | .d0 x => .ok ⟨1, 1, fun _ _ => x⟩
  | .d1 n v => if dim = 1 then .ok ⟨n, 1, fun i _ => v i⟩ else .ok ⟨1, n, fun _ j => v j⟩
  | .d2 m n a => .ok ⟨m, n, a⟩
  | _ => .error .valueError

/-- `dev = x - mean` followed by `np.dot(dev, U)`: rows of another length than the mean raise,
except that rows of length one are broadcast. -/
def scipyDev {α : Type*} [Sub α] {d : ℕ} (mean : Fin d → α) (r k : ℕ) (x : Matrix (Fin r) (Fin k) α) :
    Py (Matrix (Fin r) (Fin d) α) :=
  if h : k = d then .ok (of fun i j => x i (j.cast h.symm) - mean j)
  else if h1 : k = 1 then .ok (of fun i j => x i ⟨0, by omega⟩ - mean j)
  else .error .valueError

/-- scipy `multivariate_normal_gen._logpdf` at a deviation from the mean. -/
noncomputable def scipyNormal {d : ℕ} (cov : Matrix (Fin d) (Fin d) ℝ) (dev : Fin d → ℝ) : ℝ :=
  -(1 / 2) * (d * Real.log (2 * Real.pi) + Real.log cov.det + dev ⬝ᵥ cov⁻¹ *ᵥ dev)

/-- scipy `multivariate_t_gen._logpdf` (finite `df`) at a deviation from the location. -/
noncomputable def scipyT (df : ℝ) {d : ℕ} (shape : Matrix (Fin d) (Fin d) ℝ) (dev : Fin d → ℝ) : ℝ :=
  let maha := dev ⬝ᵥ shape⁻¹ *ᵥ dev
  let t := (1 / 2) * (df + d)
  let A := Real.log (Real.Gamma t)
  let B := Real.log (Real.Gamma ((1 / 2) * df))
  let C := (d : ℝ) / 2 * Real.log (df * Real.pi)
  let D := (1 / 2) * Real.log shape.det
  let E := -t * Real.log (1 + 1 / df * maha)
  A - B - C - D + E

/-- The values of a log-density on the rows of the data, for processed parameters. -/
def scipyEval (P : MvParams) (dens : (Fin P.dim → ℝ) → ℝ) (x : NDArr) : Py (Σ r : ℕ, Fin r → ℝ) := do
  let ⟨r, k, rows⟩ ← scipyRows P.dim x.realPart
  let dev ← scipyDev P.mean r k rows
  return ⟨r, fun i => dens (dev i)⟩

/-- scipy's `mvn.mvnun` with lower limits `-inf`: for processed parameters and upper limits, the
value of the integral. -/
abbrev MvnIntegral := (P : MvParams) → (Fin P.dim → ℝ) → ℝ

/-- scipy `multivariate_normal_gen._cdf`: the rows of the data are given one after the other to the
integration routine, which refuses rows of another length than the mean. -/
def scipyCdf (mvn : MvnIntegral) (P : MvParams) (x : NDArr) : Py (Σ r : ℕ, Fin r → ℝ) := do
  let ⟨r, k, rows⟩ ← scipyRows P.dim x.realPart
  if h : k = P.dim then return ⟨r, fun i => mvn P fun j => rows i (j.cast h.symm)⟩
  else .error .valueError

open Classical in
/-- `np.log` of a number which is not negative. -/
noncomputable def npLog (v : ℝ) : EReal := if v ≤ 0 then ⊥ else (Real.log v : EReal)

/-! ## The normal law -/
namespace CNormal

/-- probability.py:162-180 `complex_multivariate_normal.logpdf`. -/
noncomputable def logpdf (x : NDArr) (mean : Option NDArr) (cov : CovArg) : Py (Σ r : ℕ, Fin r → ℝ) := do
  let c ← checkParamsArray x mean cov
  let P ← scipyParams c.mean c.cov
  scipyEval P (scipyNormal P.cov) c.x

/-- probability.py:182-200 `complex_multivariate_normal.pdf`. -/
noncomputable def pdf (x : NDArr) (mean : Option NDArr) (cov : CovArg) : Py (Σ r : ℕ, Fin r → ℝ) := do
  let ⟨r, l⟩ ← logpdf x mean cov
  return ⟨r, fun i => Real.exp (l i)⟩

/-- probability.py:92-105 `complex_multivariate_normal(mean, cov).logpdf(x)`. -/
noncomputable def frozenLogpdf (mean : Option NDArr) (cov : CovArg) (x : NDArr) :
    Py (Σ r : ℕ, Fin r → ℝ) := do
  let (m', c') ← checkParams mean cov
  let P ← scipyParams (some m') c'
  let c ← checkParamsArray x mean cov
  scipyEval P (scipyNormal P.cov) c.x

/-- `complex_multivariate_normal(mean, cov).pdf(x)`, inherited from scipy: the exponential of
`self.logpdf(x)`. -/
noncomputable def frozenPdf (mean : Option NDArr) (cov : CovArg) (x : NDArr) :
    Py (Σ r : ℕ, Fin r → ℝ) := do
  let ⟨r, l⟩ ← frozenLogpdf mean cov x
  return ⟨r, fun i => Real.exp (l i)⟩

/-- probability.py:287-302 `entropy`: scipy's `0.5 * logdet(2 pi e cov)`. -/
noncomputable def entropy (mean : Option NDArr) (cov : CovArg) : Py ℝ := do
  let (m', c') ← checkParams mean cov
  let P ← scipyParams (some m') c'
  return (1 / 2) * Real.log ((2 * Real.pi * Real.exp 1) • P.cov).det

/-- `complex_multivariate_normal(mean, cov).entropy()`, inherited from scipy. -/
noncomputable def frozenEntropy (mean : Option NDArr) (cov : CovArg) : Py ℝ := do
  let (m', c') ← checkParams mean cov
  let P ← scipyParams (some m') c'
  return (1 / 2) * (P.dim * (Real.log (2 * Real.pi) + 1) + Real.log P.cov.det)

/-- probability.py:232-260 `complex_multivariate_normal.cdf`. `mvn` is scipy's integration routine
(`maxpts`, `abseps` and `releps` are handed on to it). -/
noncomputable def cdf (mvn : MvnIntegral) (x : NDArr) (mean : Option NDArr) (cov : CovArg) :
    Py (Σ r : ℕ, Fin r → ℝ) := do
  let c ← checkParamsArray x mean cov
  let P ← scipyParams c.mean c.cov
  scipyCdf mvn P c.x

/-- probability.py:202-230 `complex_multivariate_normal.logcdf`: scipy's `np.log(self._cdf(...))`. -/
noncomputable def logcdf (mvn : MvnIntegral) (x : NDArr) (mean : Option NDArr) (cov : CovArg) :
    Py (Σ r : ℕ, Fin r → EReal) := do
  let ⟨r, v⟩ ← cdf mvn x mean cov
  return ⟨r, fun i => npLog (v i)⟩

/-- probability.py:107-111 `complex_multivariate_normal(mean, cov).cdf(x)`. -/
noncomputable def frozenCdf (mvn : MvnIntegral) (mean : Option NDArr) (cov : CovArg) (x : NDArr) :
    Py (Σ r : ℕ, Fin r → ℝ) := do
  let (m', c') ← checkParams mean cov
  let P ← scipyParams (some m') c'
  let c ← checkParamsArray x mean cov
  scipyCdf mvn P c.x

/-- `complex_multivariate_normal(mean, cov).logcdf(x)`, inherited from scipy: the logarithm of
`self.cdf(x)`. -/
noncomputable def frozenLogcdf (mvn : MvnIntegral) (mean : Option NDArr) (cov : CovArg)
    (x : NDArr) : Py (Σ r : ℕ, Fin r → EReal) := do
  let ⟨r, v⟩ ← frozenCdf mvn mean cov x
  return ⟨r, fun i => npLog (v i)⟩

end CNormal

/-- numpy's `squeeze` of an array with one row per draw. -/
def squeezeDraws {size d : ℕ} (a : Matrix (Fin size) (Fin d) ℝ) : Arr ℝ :=
  if h : size = 1 then
    if hd : d = 1 then .d0 (a ⟨0, by omega⟩ ⟨0, by omega⟩) else .d1 d fun j => a ⟨0, by omega⟩ j
  else if hd : d = 1 then .d1 size fun i => a i ⟨0, by omega⟩
  else .d2 size d a

/-- probability.py:113-121, 262-285 (normal) and 325-334, 376-402 (t) `rvs`. `sample P` stands for
the rows drawn by scipy for the processed parameters. -/
noncomputable def rvs (size : ℕ) (sample : (P : MvParams) → Matrix (Fin size) (Fin P.dim) ℝ)
    (mean : Option NDArr) (cov : CovArg) : Py NDArr := do
  let isComplex := (match mean with | some m => m.isComplex | none => false) || cov.isComplex
  let (m', c') ← checkParams mean cov
  let P ← scipyParams (some m') c'
  let out := NDArr.real (squeezeDraws (sample P))
  if isComplex then arraytocomplex out else return out

/-! ## The t law -/
namespace CT

/-- probability.py:311-323 `complex_multivariate_t(loc, shape, df).logpdf(x)`. -/
noncomputable def frozenLogpdf (loc : Option NDArr) (shape : CovArg) (df : ℝ) (x : NDArr) :
    Py (Σ r : ℕ, Fin r → ℝ) := do
  let (m', c') ← checkParams loc shape
  if df ≤ 0 then .error .valueError
  let P ← scipyParams (some m') c'
  let c ← checkParamsArray x loc shape
  scipyEval P (scipyT df P.cov) c.x

/-- `complex_multivariate_t(loc, shape, df).pdf(x)`, inherited from scipy: the exponential of
`self.logpdf(x)`. -/
noncomputable def frozenPdf (loc : Option NDArr) (shape : CovArg) (df : ℝ) (x : NDArr) :
    Py (Σ r : ℕ, Fin r → ℝ) := do
  let ⟨r, l⟩ ← frozenLogpdf loc shape df x
  return ⟨r, fun i => Real.exp (l i)⟩

/-- `complex_multivariate_t.logpdf`, inherited from scipy (the class at probability.py:337-402 does
not override it) with the class's own `_process_quantiles`, which keeps complex data complex:
location and shape lose their imaginary parts and the quadratic form is not conjugated. -/
noncomputable def logpdf (x : NDArr) (loc : Option NDArr) (shape : CovArg) (df : ℝ) :
    Py (Σ r : ℕ, Fin r → ℂ) := do
  if df ≤ 0 then .error .valueError
  let P ← scipyParams loc shape
  let xc := match x.asComplex with
    | .cplx a => a
    | .real a => a.map Complex.ofReal
  let ⟨r, k, rows⟩ ← scipyRows P.dim xc
  let dev ← scipyDev (fun j => (P.mean j : ℂ)) r k rows
  let t := (1 / 2) * (df + P.dim)
  let A := Real.log (Real.Gamma t)
  let B := Real.log (Real.Gamma ((1 / 2) * df))
  let C := (P.dim : ℝ) / 2 * Real.log (df * Real.pi)
  let D := (1 / 2) * Real.log P.cov.det
  return ⟨r, fun i => ((A - B - C - D : ℝ) : ℂ) -
    (t : ℂ) * Complex.log (1 + 1 / (df : ℂ) * (dev i ⬝ᵥ (P.cov⁻¹.map Complex.ofReal) *ᵥ dev i))⟩

end CT
end RS
