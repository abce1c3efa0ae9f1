import Verif.Spec.Manifolds
import Verif.Model.Manifolds

/-
Functions of several manifold-valued variables: gradients and Hessians through differentiable
curves of tuples, for the components with a second-order geometry.
-/
set_option autoImplicit false

namespace RS
open Matrix ComplexOrder

/-- A component with an `ehess2rhess`: strictly positive vectors or stacks of Hermitian positive
definite matrices (with the eigensolver, the Cholesky factorisation and the solver of numpy). -/
inductive SecondOrder where
  | spv (n : ℕ)
  | hpd (n k : ℕ) (eigh : Eigh (Fin n) ℂ)
      (chol back : Matrix (Fin n) (Fin n) ℂ → Matrix (Fin n) (Fin n) ℂ)

namespace SecondOrder

/-- The manifold object. -/
noncomputable def mfd : SecondOrder → Mfd
  | spv n => Mfd.spv n
  | hpd n k eigh chol back => Mfd.hpd n k eigh chol back

/-- The eigensolver returns an eigendecomposition. -/
def SolverOk : SecondOrder → Prop
  | spv _ => True
  | hpd _ _ eigh _ _ => eigh.Ok

/-- The points of the manifold. -/
def IsPoint : (c : SecondOrder) → c.mfd.Pt → Prop
  | spv n => fun x : Matrix (Fin n) (Fin 1) ℝ => Positive x
  | hpd n k _ _ _ => fun x : Stack n k => ∀ i, (x i).PosDef

/-- The tangent vectors. -/
def IsTangent : (c : SecondOrder) → c.mfd.Vec → Prop
  | spv _ => fun _ => True
  | hpd n k _ _ _ => fun u : Stack n k => ∀ i, (u i).IsHermitian

/-- The Euclidean inner product of the surrounding space. -/
noncomputable def pairing : (c : SecondOrder) → c.mfd.Vec → c.mfd.Vec → ℝ
  | spv n => fun g v : Matrix (Fin n) (Fin 1) ℝ => ∑ i, ∑ j, g i j * v i j
  | hpd n k _ _ _ => fun g v : Stack n k => euclid g v

/-- `v` is the derivative of the curve of points `p` at `t`. -/
def Velocity : (c : SecondOrder) → (ℝ → c.mfd.Pt) → c.mfd.Vec → ℝ → Prop
  | spv n => fun (p : ℝ → Matrix (Fin n) (Fin 1) ℝ) v t => CurveDeriv p v t
  | hpd n k _ _ _ => fun (p : ℝ → Stack n k) v t => StackDeriv p v t

/-- `a` is the derivative of the curve of vectors `v` at `t`. -/
def VecDeriv : (c : SecondOrder) → (ℝ → c.mfd.Vec) → c.mfd.Vec → ℝ → Prop
  | spv n => fun (p : ℝ → Matrix (Fin n) (Fin 1) ℝ) v t => CurveDeriv p v t
  | hpd n k _ _ _ => fun (p : ℝ → Stack n k) v t => StackDeriv p v t

/-- The geodesic `t ↦ exp(x, t u)`. -/
noncomputable def geodesic : (c : SecondOrder) → c.mfd.Pt → c.mfd.Vec → ℝ → c.mfd.Pt
  | spv n => fun (x u : Matrix (Fin n) (Fin 1) ℝ) t => SPV.exp x (t • u)
  | hpd n k eigh _ _ => fun (x u : Stack n k) t => HPD.exp eigh x (t • u)

variable {m : ℕ} (κ : Fin m → SecondOrder)

/-- `g` is the Euclidean gradient field of the function `f` of all the components together. -/
def IsEGrad (f : (∀ i, (κ i).mfd.Pt) → ℝ)
    (g : (∀ i, (κ i).mfd.Pt) → ∀ i, (κ i).mfd.Vec) : Prop :=
  ∀ (p : ℝ → ∀ i, (κ i).mfd.Pt) (v : ∀ i, (κ i).mfd.Vec) (t : ℝ),
    (∀ s i, (κ i).IsPoint (p s i)) → (∀ i, (κ i).Velocity (fun s => p s i) (v i) t) →
    HasDerivAt (fun s => f (p s)) (∑ i, (κ i).pairing (g (p t) i) (v i)) t

/-- `h` is the derivative of the gradient field `g` at `X` in direction `H`, every component of the
gradient being differentiated with respect to all the components of the point. -/
def IsEHess (g : (∀ i, (κ i).mfd.Pt) → ∀ i, (κ i).mfd.Vec) (X : ∀ i, (κ i).mfd.Pt)
    (H h : ∀ i, (κ i).mfd.Vec) : Prop :=
  ∀ p : ℝ → ∀ i, (κ i).mfd.Pt, (∀ s i, (κ i).IsPoint (p s i)) → p 0 = X →
    (∀ i, (κ i).Velocity (fun s => p s i) (H i) 0) →
    ∀ i, (κ i).VecDeriv (fun s => g (p s) i) (h i) 0

/-- Any of the three manifolds of the package: a component with second-order geometry or the stacks
of `k` unit-determinant matrices of size `n`. -/
noncomputable def packageMfd (eigh : ∀ n, Eigh (Fin n) ℂ)
    (chol back : ∀ n, Matrix (Fin n) (Fin n) ℂ → Matrix (Fin n) (Fin n) ℂ) :
    SecondOrder ⊕ (ℕ × ℕ) → Mfd
  | .inl c => c.mfd
  | .inr (n, k) => Mfd.shpd n k (eigh n) (chol n) (back n)

end SecondOrder
end RS
