import Mathlib.Analysis.SpecialFunctions.Log.Basic
import Mathlib.Data.Complex.Basic
import Mathlib.LinearAlgebra.Matrix.NonsingularInverse
import Mathlib.LinearAlgebra.Matrix.Trace
import Mathlib.LinearAlgebra.Matrix.PosDef
import Mathlib.Analysis.Complex.Basic
import Verif.Model.Linalg

/-
Model of `robuststats/models/manifolds.py`.

* A point of a manifold of `k` matrices is a stack `Fin k → Matrix`. For `k = 1` the code uses a
  2-D array instead of a stack of one matrix and the branches `if k == 1` do on that array what
  the other branches do on every matrix of the stack: both are the model at `k`.
* `la.solve(x, u)` is `x⁻¹ u`. A singular `x` raises in numpy; the properties are about positive
  definite `x`.
* `la.cholesky`, `la.qr`, `la.eigh` and scipy's `sqrtm` are parameters with a contract.
* Random draws are parameters.
-/
set_option autoImplicit false

namespace RS
open Matrix ComplexOrder

/-! ## Strictly positive vectors -/

namespace SPV
variable {n k : ℕ}

/-- manifolds.py:37-48 the dimension handed to pymanopt. -/
noncomputable def dim (n k : ℕ) : ℤ := ⌊((k * n : ℕ) : ℝ)⌋

/-- manifolds.py:54-56 `inner`: one number per column. -/
noncomputable def inner (x u v : Matrix (Fin n) (Fin k) ℝ) : Fin k → ℝ :=
  fun j => ∑ i, 1 / x i j * u i j * (1 / x i j) * v i j

/-- manifolds.py:58-59 `proj`. -/
def proj (_x u : Matrix (Fin n) (Fin k) ℝ) : Matrix (Fin n) (Fin k) ℝ := u

/-- manifolds.py:61-62 `norm`. -/
noncomputable def norm (x u : Matrix (Fin n) (Fin k) ℝ) : Fin k → ℝ :=
  fun j => Real.sqrt (inner x u u j)

/-- manifolds.py:64-65 `rand`: the draws themselves, each in `[1e-6, 1)`. -/
def rand (draw : Matrix (Fin n) (Fin k) ℝ) : Matrix (Fin n) (Fin k) ℝ := draw

/-- manifolds.py:67-69 `randvec`, columns divided by their norm. -/
noncomputable def randvec (x draw : Matrix (Fin n) (Fin k) ℝ) : Matrix (Fin n) (Fin k) ℝ :=
  of fun i j => draw i j / norm x draw j

/-- manifolds.py:71-72 `zerovec`. -/
def zerovec (_x : Matrix (Fin n) (Fin k) ℝ) : Matrix (Fin n) (Fin k) ℝ := 0

/-- manifolds.py:74-75 `dist`: one number per column. -/
noncomputable def dist (x y : Matrix (Fin n) (Fin k) ℝ) : Fin k → ℝ :=
  fun j => Real.sqrt (∑ i, (Real.log (x i j) - Real.log (y i j)) ^ 2)

/-- manifolds.py:77-78 `egrad2rgrad`. -/
def egrad2rgrad (x u : Matrix (Fin n) (Fin k) ℝ) : Matrix (Fin n) (Fin k) ℝ :=
  of fun i j => u i j * x i j ^ 2

/-- manifolds.py:80-81 `ehess2rhess`. -/
def ehess2rhess (x egrad ehess u : Matrix (Fin n) (Fin k) ℝ) : Matrix (Fin n) (Fin k) ℝ :=
  of fun i j => ehess i j * x i j ^ 2 + egrad i j * u i j * x i j

/-- manifolds.py:83-84 `exp`. -/
noncomputable def exp (x u : Matrix (Fin n) (Fin k) ℝ) : Matrix (Fin n) (Fin k) ℝ :=
  of fun i j => x i j * Real.exp (1 / x i j * u i j)

/-- manifolds.py:86-87 `retr`. -/
noncomputable def retr (x u : Matrix (Fin n) (Fin k) ℝ) : Matrix (Fin n) (Fin k) ℝ :=
  of fun i j => x i j + u i j + (1 / 2) * (x i j)⁻¹ * u i j ^ 2

/-- manifolds.py:89-90 `log`. -/
noncomputable def log (x y : Matrix (Fin n) (Fin k) ℝ) : Matrix (Fin n) (Fin k) ℝ :=
  of fun i j => x i j * Real.log (1 / x i j * y i j)

/-- manifolds.py:92-94 `transp`. -/
noncomputable def transp (x1 x2 d : Matrix (Fin n) (Fin k) ℝ) : Matrix (Fin n) (Fin k) ℝ :=
  proj x2 (of fun i j => x2 i j * ((x1 i j)⁻¹ * d i j))

end SPV

/-! ## Hermitian positive definite matrices -/

/-- `k` complex `n × n` matrices. -/
abbrev Stack (n k : ℕ) := Fin k → Matrix (Fin n) (Fin n) ℂ

/-- The contract of `la.cholesky`: on a positive definite matrix a lower triangular factor.
Only `c cᴴ = x` matters below. -/
def CholOk {n : ℕ} (chol : Matrix (Fin n) (Fin n) ℂ → Matrix (Fin n) (Fin n) ℂ) : Prop :=
  ∀ x : Matrix (Fin n) (Fin n) ℂ, x.PosDef → chol x * (chol x)ᴴ = x

/-- `R` is a principal square root of `M`: its eigenvalues have positive real part. -/
structure IsPrincipalSqrt {n : ℕ} (M R : Matrix (Fin n) (Fin n) ℂ) : Prop where
  sq : R * R = M
  right : ∀ (c : ℂ) (v : Fin n → ℂ), v ≠ 0 → R *ᵥ v = c • v → 0 < c.re

/-- The contract of `scipy.linalg.sqrtm`: the principal square root whenever there is one. -/
def SqrtmOk {n : ℕ} (sq : Matrix (Fin n) (Fin n) ℂ → Matrix (Fin n) (Fin n) ℂ) : Prop :=
  ∀ M, (∃ R, IsPrincipalSqrt M R) → IsPrincipalSqrt M (sq M)

/-- The contract on pymanopt's `multilog`: both of its variants meet it. -/
def BackOk {n : ℕ} (back : Matrix (Fin n) (Fin n) ℂ → Matrix (Fin n) (Fin n) ℂ) : Prop :=
  ∀ V : Matrix (Fin n) (Fin n) ℂ, Vᴴ * V = 1 → back V * (back V)ᴴ = 1

namespace HPD
variable {n k : ℕ}

/-- manifolds.py:102-112 the dimension handed to pymanopt. -/
noncomputable def dim (n k : ℕ) : ℤ := 2 * ⌊((k * n * (n + 1) : ℕ) : ℝ) / 2⌋

/-- manifolds.py:114-129 `rand`: `u (d * uᴴ)` for draws `r` in `[0, 1)` and the unitary factor `u`
of a QR decomposition, `d = 1 + r` scaling the rows. -/
noncomputable def rand (r : Fin k → Fin n → ℝ) (u : Stack n k) : Stack n k :=
  fun i => u i * of fun a b => ((1 + r i a : ℝ) : ℂ) * (u i)ᴴ a b

/-- manifolds.py:152-159 `norm` for a Cholesky routine: the Frobenius norm of the whole stack. -/
noncomputable def norm (chol : Matrix (Fin n) (Fin n) ℂ → Matrix (Fin n) (Fin n) ℂ)
    (x u : Stack n k) : ℝ :=
  Real.sqrt (∑ i, ∑ a, ∑ b,
    ‖((chol (x i))⁻¹ * u i * ((chol (x i))⁻¹)ᴴ) a b‖ ^ 2)

/-- manifolds.py:131-138 `randvec`. -/
noncomputable def randvec (chol : Matrix (Fin n) (Fin n) ℂ → Matrix (Fin n) (Fin n) ℂ)
    (x draw : Stack n k) : Stack n k :=
  fun i => ((norm chol x (multiherm draw) : ℝ) : ℂ)⁻¹ • multiherm draw i

/-- manifolds.py:140-145 `zerovec`. -/
def zerovec (_x : Stack n k) : Stack n k := 0

/-- manifolds.py:147-150 `inner`: `tensordot(a, multitransp(b), axes=x.ndim)` sums
`a[i,p,q] * b[i,q,p]` over everything. -/
noncomputable def inner (x u v : Stack n k) : ℝ :=
  (∑ i, ∑ a, ∑ b, ((x i)⁻¹ * u i) a b * ((x i)⁻¹ * v i)ᵀ a b).re

/-- manifolds.py:161-162 `proj`. -/
noncomputable def proj (_x u : Stack n k) : Stack n k := multiherm u

/-- manifolds.py:164-165 `egrad2rgrad`. -/
noncomputable def egrad2rgrad (x u : Stack n k) : Stack n k :=
  fun i => x i * multiherm u i * x i

/-- manifolds.py:167-171 `ehess2rhess`. -/
noncomputable def ehess2rhess (x egrad ehess u : Stack n k) : Stack n k :=
  let egrad := multiherm egrad
  (fun i => x i * multiherm ehess i * x i) + multiherm fun i => u i * egrad i * x i

/-- manifolds.py:173-203 `exp`. -/
noncomputable def exp (eigh : Eigh (Fin n) ℂ) (x u : Stack n k) : Stack n k :=
  let x_sqrt : Stack n k := fun i => matrixOperator eigh Real.sqrt (x i)
  let x_isqrt : Stack n k := fun i => matrixOperator eigh (fun d => 1 / Real.sqrt d) (x i)
  let e : Stack n k := fun i => matrixOperator eigh Real.exp (x_isqrt i * u i * x_isqrt i)
  multiherm fun i => x_sqrt i * e i * x_sqrt i

/-- manifolds.py:205-207 `retr`. -/
noncomputable def retr (x u : Stack n k) : Stack n k :=
  fun i => x i + u i + ((1 / 2 : ℂ) • u i) * ((x i)⁻¹ * u i)

/-- manifolds.py:209-239 `log`. -/
noncomputable def log (eigh : Eigh (Fin n) ℂ) (x y : Stack n k) : Stack n k :=
  let x_sqrt : Stack n k := fun i => matrixOperator eigh Real.sqrt (x i)
  let x_isqrt : Stack n k := fun i => matrixOperator eigh (fun d => 1 / Real.sqrt d) (x i)
  let l : Stack n k := fun i => matrixOperator eigh Real.log (x_isqrt i * y i * x_isqrt i)
  multiherm fun i => x_sqrt i * l i * x_sqrt i

/-- manifolds.py:241-249 `transp` for a matrix square root routine. -/
noncomputable def transp (sq : Matrix (Fin n) (Fin n) ℂ → Matrix (Fin n) (Fin n) ℂ)
    (x1 x2 d : Stack n k) : Stack n k :=
  let E : Stack n k := fun i => (((x1 i)ᴴ)⁻¹ * (x2 i)ᴴ)ᴴ
  let E : Stack n k := fun i => sq (E i)
  fun i => E i * d i * (E i)ᴴ

/-- manifolds.py:251-256 `dist`. pymanopt's `multilog(·, pos_def=True)` is `v (log(l) * v')`;
`v'` is `multitransp(v)` in some versions and `multihconj(v)` in others, see `back`. -/
noncomputable def dist (eigh : Eigh (Fin n) ℂ)
    (chol : Matrix (Fin n) (Fin n) ℂ → Matrix (Fin n) (Fin n) ℂ)
    (back : Matrix (Fin n) (Fin n) ℂ → Matrix (Fin n) (Fin n) ℂ) (x y : Stack n k) : ℝ :=
  let e (i : Fin k) := eigh ((chol (x i))⁻¹ * y i * ((chol (x i))⁻¹)ᴴ)
  Real.sqrt (∑ i, ∑ a, ∑ b,
    ‖((e i).vecs * diagonal (fun j => (Real.log ((e i).vals j) : ℂ)) * back (e i).vecs) a b‖ ^ 2)

end HPD

/-! ## Unit determinant -/

namespace SHPD
variable {n k : ℕ}

/-- manifolds.py:266-279 the dimension handed to pymanopt. -/
noncomputable def dim (n k : ℕ) : ℤ := ⌊((k * (n * (n + 1) - 1 : ℤ) : ℤ) : ℝ)⌋

/-- `x / np.real(la.det(x))**(1/n)` of manifolds.py:285-289, 343-347, 353-357. -/
noncomputable def normalise (x : Stack n k) : Stack n k :=
  fun i => ((((x i).det.re ^ (1 / (n : ℝ)) : ℝ) : ℂ))⁻¹ • x i

/-- manifolds.py:281-291 `rand`. -/
noncomputable def rand (r : Fin k → Fin n → ℝ) (u : Stack n k) : Stack n k :=
  normalise (HPD.rand r u)

/-- manifolds.py:319-333 `proj`. -/
noncomputable def proj (x u : Stack n k) : Stack n k :=
  let u := multiherm u
  let t : Fin k → ℂ := fun i => ((x i)⁻¹ * u i).trace
  fun i => u i - ((1 / (n : ℂ)) * ((t i).re : ℂ)) • x i

/-- manifolds.py:293-308 `randvec`. -/
noncomputable def randvec (chol : Matrix (Fin n) (Fin n) ℂ → Matrix (Fin n) (Fin n) ℂ)
    (x draw : Stack n k) : Stack n k :=
  fun i => ((HPD.norm chol x (proj x draw) : ℝ) : ℂ)⁻¹ • proj x draw i

/-- manifolds.py:335-338 `egrad2rgrad`. -/
noncomputable def egrad2rgrad (x u : Stack n k) : Stack n k :=
  proj x fun i => x i * u i * x i

/-- manifolds.py:340-348 `exp`. -/
noncomputable def exp (eigh : Eigh (Fin n) ℂ) (x u : Stack n k) : Stack n k :=
  normalise (HPD.exp eigh x u)

/-- manifolds.py:350-358 `retr`. -/
noncomputable def retr (x u : Stack n k) : Stack n k := normalise (HPD.retr x u)

/-- manifolds.py:360-361 `log`. -/
noncomputable def log (eigh : Eigh (Fin n) ℂ) (x y : Stack n k) : Stack n k := HPD.log eigh x y

/-- manifolds.py:363-364 `transp`. -/
noncomputable def transp (sq : Matrix (Fin n) (Fin n) ℂ → Matrix (Fin n) (Fin n) ℂ)
    (x1 x2 d : Stack n k) : Stack n k :=
  proj x2 (HPD.transp sq x1 x2 d)

end SHPD

/-! ## Products -/

/-- The methods of a manifold used by a product; `inner` and `dist` are the scalars left after
`np.squeeze` (so `k = 1` for strictly positive vectors); `ehess2rhess` may raise. -/
structure Mfd where
  Pt : Type
  Vec : Type
  smul : ℝ → Vec → Vec
  inner : Pt → Vec → Vec → ℝ
  dist : Pt → Pt → ℝ
  egrad2rgrad : Pt → Vec → Vec
  ehess2rhess : Pt → Vec → Vec → Vec → Py Vec

/-- Strictly positive vectors as a component (`k = 1`). -/
noncomputable def Mfd.spv (n : ℕ) : Mfd where
  Pt := Matrix (Fin n) (Fin 1) ℝ
  Vec := Matrix (Fin n) (Fin 1) ℝ
  smul c u := c • u
  inner x u v := SPV.inner x u v 0
  dist x y := SPV.dist x y 0
  egrad2rgrad := SPV.egrad2rgrad
  ehess2rhess x g h u := .ok (SPV.ehess2rhess x g h u)

/-- Hermitian positive definite matrices as a component. -/
noncomputable def Mfd.hpd (n k : ℕ) (eigh : Eigh (Fin n) ℂ)
    (chol back : Matrix (Fin n) (Fin n) ℂ → Matrix (Fin n) (Fin n) ℂ) : Mfd where
  Pt := Stack n k
  Vec := Stack n k
  smul c u := (c : ℂ) • u
  inner := HPD.inner
  dist := HPD.dist eigh chol back
  egrad2rgrad := HPD.egrad2rgrad
  ehess2rhess x g h u := .ok (HPD.ehess2rhess x g h u)

/-- Unit-determinant matrices as a component; the class has no `ehess2rhess` of its own
(manifolds.py:259-367) and no `weingarten`, without which pymanopt's `EuclideanEmbeddedSubmanifold`
raises. -/
noncomputable def Mfd.shpd (n k : ℕ) (eigh : Eigh (Fin n) ℂ)
    (chol back : Matrix (Fin n) (Fin n) ℂ → Matrix (Fin n) (Fin n) ℂ) : Mfd where
  Pt := Stack n k
  Vec := Stack n k
  smul c u := (c : ℂ) • u
  inner := HPD.inner
  dist := HPD.dist eigh chol back
  egrad2rgrad := SHPD.egrad2rgrad
  ehess2rhess _ _ _ _ := .error .notImplementedError

namespace WeightedProduct
variable {m : ℕ} (M : Fin m → Mfd)

/-- manifolds.py:376-380 the weights of the constructor. Simplification: as many weights as
manifolds. -/
def weights (w : Option (Fin m → ℝ)) : Fin m → ℝ := w.getD fun _ => 1

/-- manifolds.py:386-389 `inner`. -/
noncomputable def inner (w : Fin m → ℝ) (X : ∀ i, (M i).Pt) (G H : ∀ i, (M i).Vec) : ℝ :=
  ∑ i, w i * (M i).inner (X i) (G i) (H i)

/-- manifolds.py:391-394 `dist`. -/
noncomputable def dist (w : Fin m → ℝ) (X Y : ∀ i, (M i).Pt) : ℝ :=
  Real.sqrt (∑ i, w i * (M i).dist (X i) (Y i) ^ 2)

/-- pymanopt's `Product.norm`. -/
noncomputable def norm (w : Fin m → ℝ) (X : ∀ i, (M i).Pt) (G : ∀ i, (M i).Vec) : ℝ :=
  Real.sqrt (inner M w X G G)

/-- manifolds.py:396-400 `egrad2rgrad`. -/
noncomputable def egrad2rgrad (w : Fin m → ℝ) (X : ∀ i, (M i).Pt) (U : ∀ i, (M i).Vec) :
    ∀ i, (M i).Vec :=
  fun i => (M i).smul (1 / w i) ((M i).egrad2rgrad (X i) (U i))

/-- A list comprehension over the components: the first one that raises stops it. -/
def comprehension : {m : ℕ} → {V : Fin m → Type} → (∀ i, Py (V i)) → Py (∀ i, V i)
  | 0, _, _ => .ok fun i => i.elim0
  | _ + 1, _, f => do
      let a ← f 0
      let r ← comprehension fun i => f i.succ
      return Fin.cons a r

/-- manifolds.py:402-411 `ehess2rhess`. -/
noncomputable def ehess2rhess (w : Fin m → ℝ) (X : ∀ i, (M i).Pt)
    (egrad ehess H : ∀ i, (M i).Vec) : Py (∀ i, (M i).Vec) :=
  comprehension fun i => do
    let r ← (M i).ehess2rhess (X i) (egrad i) (ehess i) (H i)
    return (M i).smul (1 / w i) r

/-- manifolds.py:413-418 `randvec`; `u i` is what `randvec` of component `i` returns. -/
noncomputable def randvec (w : Fin m → ℝ) (u : ∀ i, (M i).Vec) : ∀ i, (M i).Vec :=
  let scale : ℝ := (m : ℝ) ^ (-1 / 2 : ℝ)
  fun i => (M i).smul (scale * (1 / w i ^ (-1 / 2 : ℝ))) (u i)

end WeightedProduct

/-- The Kronecker manifold of manifolds.py:421-479 with `k = 1`: points and tangent vectors are
pairs of matrices. (For `k > 1` `np.trace` in `inner` would run over the wrong axes.) -/
structure KronM where
  a : ℕ
  b : ℕ
  alpha : ℝ

namespace KronM
variable (K : KronM)

/-- A pair of matrices of sizes `a` and `b`. -/
abbrev Pair := Matrix (Fin K.a) (Fin K.a) ℂ × Matrix (Fin K.b) (Fin K.b) ℂ

/-- manifolds.py:446 the weights. -/
def weight0 : ℝ := K.alpha * K.b
/-- manifolds.py:446 the weights. -/
def weight1 : ℝ := K.alpha * K.a

/-- manifolds.py:447-449 the manifolds given to the constructor of `WeightedProduct`. -/
noncomputable def manifolds (eigha : Eigh (Fin K.a) ℂ)
    (chola backa : Matrix (Fin K.a) (Fin K.a) ℂ → Matrix (Fin K.a) (Fin K.a) ℂ)
    (eighb : Eigh (Fin K.b) ℂ)
    (cholb backb : Matrix (Fin K.b) (Fin K.b) ℂ → Matrix (Fin K.b) (Fin K.b) ℂ) : Fin 2 → Mfd
  | 0 => Mfd.shpd K.a 1 eigha chola backa
  | 1 => Mfd.hpd K.b 1 eighb cholb backb

/-- manifolds.py:446-449 the weights given to the constructor of `WeightedProduct`. -/
def weights : Fin 2 → ℝ
  | 0 => K.weight0
  | 1 => K.weight1

/-- manifolds.py:451-479 `inner`. -/
noncomputable def inner (theta xi eta : K.Pair) : ℝ :=
  let partA := K.weight0 * HPD.inner (fun _ : Fin 1 => theta.1) (fun _ => xi.1) (fun _ => eta.1)
  let Bxi := theta.2⁻¹ * xi.2
  let Beta := theta.2⁻¹ * eta.2
  let partB := K.weight1 * (∑ p, ∑ q, Bxi p q * Betaᵀ p q).re
    + (K.alpha - 1) * (K.a : ℝ) ^ 2 * (Bxi.trace * Beta.trace).re
  partA + partB

/-- manifolds.py:396-400 `egrad2rgrad`, inherited from `WeightedProduct`. -/
noncomputable def egrad2rgrad (theta u : K.Pair) : K.Pair :=
  (((1 / K.weight0 : ℝ) : ℂ) • SHPD.egrad2rgrad (fun _ : Fin 1 => theta.1) (fun _ => u.1) 0,
   ((1 / K.weight1 : ℝ) : ℂ) • HPD.egrad2rgrad (fun _ : Fin 1 => theta.2) (fun _ => u.2) 0)

end KronM
end RS
