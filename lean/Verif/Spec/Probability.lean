import Verif.Model.Probability

/-
Specification of the densities and of the arrays that describe the same data.
-/
set_option autoImplicit false

namespace RS
open Matrix

/-- Log-density of the circular complex normal law at `z`. -/
noncomputable def cnormalLogDensity {p : ℕ} (mu : Fin p → ℂ) (S : Matrix (Fin p) (Fin p) ℂ)
    (z : Fin p → ℂ) : ℝ :=
  -p * Real.log Real.pi - Real.log S.det.re - (star (z - mu) ⬝ᵥ S⁻¹ *ᵥ (z - mu)).re

/-- Log-density of the circular complex t law at `z`. -/
noncomputable def ctLogDensity (df : ℝ) {p : ℕ} (mu : Fin p → ℂ) (S : Matrix (Fin p) (Fin p) ℂ)
    (z : Fin p → ℂ) : ℝ :=
  Real.log (Real.Gamma (df / 2 + p)) - Real.log (Real.Gamma (df / 2)) -
    p * Real.log (Real.pi * df / 2) - Real.log S.det.re -
    (df / 2 + p) * Real.log (1 + 2 * (star (z - mu) ⬝ᵥ S⁻¹ *ᵥ (z - mu)).re / df)

/-- Log-density of the real normal law at `x`. -/
noncomputable def normalLogDensity {p : ℕ} (mu : Fin p → ℝ) (S : Matrix (Fin p) (Fin p) ℝ)
    (x : Fin p → ℝ) : ℝ :=
  -(p / 2) * Real.log (2 * Real.pi) - Real.log S.det / 2 - ((x - mu) ⬝ᵥ S⁻¹ *ᵥ (x - mu)) / 2

/-- Log-density of the real t law at `x`. -/
noncomputable def tLogDensity (df : ℝ) {p : ℕ} (mu : Fin p → ℝ) (S : Matrix (Fin p) (Fin p) ℝ)
    (x : Fin p → ℝ) : ℝ :=
  Real.log (Real.Gamma ((df + p) / 2)) - Real.log (Real.Gamma (df / 2)) -
    (p : ℝ) / 2 * Real.log (Real.pi * df) - Real.log S.det / 2 -
    (df + p) / 2 * Real.log (1 + ((x - mu) ⬝ᵥ S⁻¹ *ᵥ (x - mu)) / df)

/-- The argument `mean` denotes the complex vector `mu`: left out, complex, or real. -/
inductive MeanIs {p : ℕ} : Option NDArr → (Fin p → ℂ) → Prop
  | none : MeanIs none 0
  | cplx (mu : Fin p → ℂ) : MeanIs (some (.cplx (.d1 p mu))) mu
  | real (v : Fin p → ℝ) : MeanIs (some (.real (.d1 p v))) fun i => (v i : ℂ)

/-- The argument `mean` denotes the real vector `mu`. -/
inductive RealMeanIs {p : ℕ} : Option NDArr → (Fin p → ℝ) → Prop
  | none : RealMeanIs none 0
  | real (v : Fin p → ℝ) : RealMeanIs (some (.real (.d1 p v))) v

/-- The data array denotes these complex points (one per row). A 1-D array is one point. -/
inductive DataIs {p : ℕ} : NDArr → (m : ℕ) → Matrix (Fin m) (Fin p) ℂ → Prop
  | cplx2 (m : ℕ) (Z : Matrix (Fin m) (Fin p) ℂ) : DataIs (.cplx (.d2 m p Z)) m Z
  | cplx1 (z : Fin p → ℂ) : DataIs (.cplx (.d1 p z)) 1 (of fun _ => z)
  | real2 (m : ℕ) (Y : Matrix (Fin m) (Fin p) ℝ) :
      DataIs (.real (.d2 m p Y)) m (of fun i j => (Y i j : ℂ))
  | real1 (y : Fin p → ℝ) : DataIs (.real (.d1 p y)) 1 (of fun _ j => (y j : ℂ))

/-- The data array, read as real data by dropping imaginary parts, has these rows. In dimension 1 a
1-D array is a list of points, otherwise it is one point. -/
inductive RealDataIs {p : ℕ} : NDArr → (m : ℕ) → Matrix (Fin m) (Fin p) ℝ → Prop
  | real2 (m : ℕ) (Y : Matrix (Fin m) (Fin p) ℝ) : RealDataIs (.real (.d2 m p Y)) m Y
  | cplx2 (m : ℕ) (Z : Matrix (Fin m) (Fin p) ℂ) :
      RealDataIs (.cplx (.d2 m p Z)) m (of fun i j => (Z i j).re)
  | real1 (hp : p ≠ 1) (y : Fin p → ℝ) : RealDataIs (.real (.d1 p y)) 1 (of fun _ => y)
  | cplx1 (hp : p ≠ 1) (z : Fin p → ℂ) :
      RealDataIs (.cplx (.d1 p z)) 1 (of fun _ j => (z j).re)
  | reals (hp : p = 1) (m : ℕ) (y : Fin m → ℝ) : RealDataIs (.real (.d1 m y)) m (of fun i _ => y i)
  | cplxs (hp : p = 1) (m : ℕ) (z : Fin m → ℂ) :
      RealDataIs (.cplx (.d1 m z)) m (of fun i _ => (z i).re)

end RS
