import Verif.Model.Mappings
import Mathlib.Data.Complex.BigOperators
import Mathlib.LinearAlgebra.Matrix.ConjTranspose
import Mathlib.LinearAlgebra.Matrix.SchurComplement
import Mathlib.Analysis.Matrix.PosDef
import Mathlib.Tactic.Module
import Mathlib.Tactic.Ring
import Mathlib.Tactic.FieldSimp
import Mathlib.Tactic.Linarith

set_option autoImplicit false

namespace RS
open Matrix ComplexOrder

theorem Arr.d1_congr {α : Type*} {n m : ℕ} (h : n = m) (v : Fin n → α) (w : Fin m → α)
    (hv : ∀ i : Fin n, v i = w (i.cast h)) : Arr.d1 n v = Arr.d1 m w := by
  subst h; congr 1; funext i; exact hv i

theorem Arr.d2_congr {α : Type*} {r n m : ℕ} (h : n = m) (v : Matrix (Fin r) (Fin n) α)
    (w : Matrix (Fin r) (Fin m) α)
    (hv : ∀ i (j : Fin n), v i j = w i (j.cast h)) : Arr.d2 r n v = Arr.d2 r m w := by
  subst h; congr 1; funext i j; exact hv i j

theorem Arr.d2_congr_sq {α : Type*} {n m : ℕ} (h : n = m) (v : Matrix (Fin n) (Fin n) α)
    (w : Matrix (Fin m) (Fin m) α)
    (hv : ∀ i j : Fin n, v i j = w (i.cast h) (j.cast h)) : Arr.d2 n n v = Arr.d2 m m w := by
  subst h; congr 1; funext i j; exact hv i j

theorem Arr.d3_congr {α : Type*} {k n m : ℕ} (h : n = m) (v : Fin k → Matrix (Fin n) (Fin n) α)
    (w : Fin k → Matrix (Fin m) (Fin m) α)
    (hv : ∀ l, ∀ i j : Fin n, v l i j = w l (i.cast h) (j.cast h)) :
    Arr.d3 k n n v = Arr.d3 k m m w := by
  subst h; congr 1; funext l i j; exact hv l i j

theorem fst_append {α : Type*} {n : ℕ} (v w : Fin n → α) (i : Fin ((n + n) / 2)) :
    firstHalf (Fin.append v w) i = v ⟨i.1, by omega⟩ := by
  have : (⟨i.1, by omega⟩ : Fin (n + n)) = Fin.castAdd n ⟨i.1, by omega⟩ := rfl
  simp only [firstHalf, this, Fin.append_left]

theorem snd_append {α : Type*} {n : ℕ} (v w : Fin n → α) (i : Fin ((n + n) - (n + n) / 2)) :
    secondHalf (Fin.append v w) i = w ⟨i.1, by omega⟩ := by
  have : (⟨(n + n) / 2 + i.1, by omega⟩ : Fin (n + n)) = Fin.natAdd n ⟨i.1, by omega⟩ := by
    ext; simp; omega
  simp only [secondHalf, this, Fin.append_right]

theorem addI_re_im (z : ℂ) : addI z.re z.im = z := by
  simp [addI, mul_comm Complex.I, Complex.re_add_im]

@[simp] theorem addI_re (x y : ℝ) : (addI x y).re = x := by simp [addI]
@[simp] theorem addI_im (x y : ℝ) : (addI x y).im = y := by simp [addI]

theorem realify_castAdd_castAdd {n : ℕ} (a : Matrix (Fin n) (Fin n) ℂ) (i j : Fin n) :
    realify a (Fin.castAdd n i) (Fin.castAdd n j) = (1 / 2) * (a i j).re := by
  simp [realify, -Fin.natAdd_eq_addNat]
theorem realify_natAdd_castAdd {n : ℕ} (a : Matrix (Fin n) (Fin n) ℂ) (i j : Fin n) :
    realify a (Fin.natAdd n i) (Fin.castAdd n j) = (1 / 2) * (a i j).im := by
  simp [realify, -Fin.natAdd_eq_addNat]
theorem realify_castAdd_natAdd {n : ℕ} (a : Matrix (Fin n) (Fin n) ℂ) (i j : Fin n) :
    realify a (Fin.castAdd n i) (Fin.natAdd n j) = -((1 / 2) * (a i j).im) := by
  simp [realify, -Fin.natAdd_eq_addNat]
theorem realify_natAdd_natAdd {n : ℕ} (a : Matrix (Fin n) (Fin n) ℂ) (i j : Fin n) :
    realify a (Fin.natAdd n i) (Fin.natAdd n j) = (1 / 2) * (a i j).re := by
  simp [realify, -Fin.natAdd_eq_addNat]

theorem complexify_realify {n : ℕ} (a : Matrix (Fin n) (Fin n) ℂ) (h : (n + n) % 2 = 0)
    (i j : Fin ((n + n) / 2)) :
    complexify (realify a) h i j = a ⟨i.1, by omega⟩ ⟨j.1, by omega⟩ := by
  have e1 : ∀ (k : Fin ((n + n) / 2)) , (⟨k.1, by omega⟩ : Fin (n + n)) =
      Fin.castAdd n ⟨k.1, by omega⟩ := fun k => rfl
  have e2 : ∀ (k : Fin ((n + n) / 2)) , (⟨(n + n) / 2 + k.1, by omega⟩ : Fin (n + n)) =
      Fin.natAdd n ⟨k.1, by omega⟩ := fun k => by ext; simp; omega
  simp only [complexify]
  rw [e1, e1, e2, realify_castAdd_castAdd, realify_natAdd_castAdd]
  apply Complex.ext <;> simp

/-- The complex vector read from the two halves of a real vector. -/
def zOf {n : ℕ} (x : Fin (n + n) → ℝ) : Fin n → ℂ :=
  fun i => ⟨x (Fin.castAdd n i), x (Fin.natAdd n i)⟩

theorem zOf_eq_zero {n : ℕ} (x : Fin (n + n) → ℝ) : zOf x = 0 ↔ x = 0 := by
  constructor
  · intro h
    funext i
    refine Fin.addCases (fun j => ?_) (fun j => ?_) i
    · exact congrArg Complex.re (congrFun h j)
    · exact congrArg Complex.im (congrFun h j)
  · rintro rfl; rfl

theorem zOf_append {n : ℕ} (z : Fin n → ℂ) :
    zOf (Fin.append (fun i => (z i).re) (fun i => (z i).im)) = z := by
  funext i
  apply Complex.ext
  · simp only [zOf, Fin.append_left]
  · simp only [zOf, Fin.append_right]

theorem zOf_surjective {n : ℕ} : Function.Surjective (zOf (n := n)) :=
  fun z => ⟨_, zOf_append z⟩

theorem zOf_realify_mulVec {n : ℕ} (a : Matrix (Fin n) (Fin n) ℂ) (x : Fin (n + n) → ℝ) :
    zOf (realify a *ᵥ x) = (1 / 2 : ℂ) • (a *ᵥ zOf x) := by
  funext i
  apply Complex.ext
  · simp only [zOf, mulVec, dotProduct, Fin.sum_univ_add, realify_castAdd_castAdd,
      realify_castAdd_natAdd, Pi.smul_apply, smul_eq_mul, Finset.mul_sum, Complex.re_sum,
      ← Finset.sum_add_distrib]
    refine Finset.sum_congr rfl fun j _ => ?_
    simp; ring
  · simp only [zOf, mulVec, dotProduct, Fin.sum_univ_add, realify_natAdd_castAdd,
      realify_natAdd_natAdd, Pi.smul_apply, smul_eq_mul, Finset.mul_sum, Complex.im_sum,
      ← Finset.sum_add_distrib]
    refine Finset.sum_congr rfl fun j _ => ?_
    simp; ring

theorem dotProduct_zOf {n : ℕ} (x y : Fin (n + n) → ℝ) :
    x ⬝ᵥ y = (star (zOf x) ⬝ᵥ zOf y).re := by
  simp only [zOf, dotProduct, Fin.sum_univ_add, Complex.re_sum, ← Finset.sum_add_distrib]
  refine Finset.sum_congr rfl fun j _ => ?_
  simp [Pi.star_apply, zOf]

theorem quad_realify {n : ℕ} (a : Matrix (Fin n) (Fin n) ℂ) (x : Fin (n + n) → ℝ) :
    x ⬝ᵥ (realify a *ᵥ x) = (1 / 2) * (star (zOf x) ⬝ᵥ (a *ᵥ zOf x)).re := by
  rw [dotProduct_zOf, zOf_realify_mulVec, dotProduct_smul]
  simp

theorem realify_injective {n : ℕ} : Function.Injective (realify (n := n)) := by
  intro a b h
  ext i j
  have h1 := congrFun (congrFun h (Fin.castAdd n i)) (Fin.castAdd n j)
  have h2 := congrFun (congrFun h (Fin.natAdd n i)) (Fin.castAdd n j)
  rw [realify_castAdd_castAdd, realify_castAdd_castAdd] at h1
  rw [realify_natAdd_castAdd, realify_natAdd_castAdd] at h2
  apply Complex.ext <;> linarith

theorem ext_halves {n : ℕ} {α : Type*} {a b : Matrix (Fin (n + n)) (Fin (n + n)) α}
    (h1 : ∀ i j, a (Fin.castAdd n i) (Fin.castAdd n j) = b (Fin.castAdd n i) (Fin.castAdd n j))
    (h2 : ∀ i j, a (Fin.castAdd n i) (Fin.natAdd n j) = b (Fin.castAdd n i) (Fin.natAdd n j))
    (h3 : ∀ i j, a (Fin.natAdd n i) (Fin.castAdd n j) = b (Fin.natAdd n i) (Fin.castAdd n j))
    (h4 : ∀ i j, a (Fin.natAdd n i) (Fin.natAdd n j) = b (Fin.natAdd n i) (Fin.natAdd n j)) :
    a = b := by
  ext i j
  refine Fin.addCases (fun i' => ?_) (fun i' => ?_) i <;>
    refine Fin.addCases (fun j' => ?_) (fun j' => ?_) j
  · exact h1 _ _
  · exact h2 _ _
  · exact h3 _ _
  · exact h4 _ _

theorem realify_transpose {n : ℕ} (a : Matrix (Fin n) (Fin n) ℂ) :
    (realify a)ᵀ = realify aᴴ := by
  apply ext_halves <;> intro i j <;>
    simp only [transpose_apply, realify_castAdd_castAdd, realify_castAdd_natAdd,
      realify_natAdd_castAdd, realify_natAdd_natAdd, conjTranspose_apply] <;> simp

theorem realify_add {n : ℕ} (a b : Matrix (Fin n) (Fin n) ℂ) :
    realify (a + b) = realify a + realify b := by
  apply ext_halves <;> intro i j <;>
    simp only [Matrix.add_apply, realify_castAdd_castAdd, realify_castAdd_natAdd,
      realify_natAdd_castAdd, realify_natAdd_natAdd, Complex.add_re, Complex.add_im] <;> ring

theorem realify_smul {n : ℕ} (c : ℝ) (a : Matrix (Fin n) (Fin n) ℂ) :
    realify ((c : ℂ) • a) = c • realify a := by
  apply ext_halves <;> intro i j <;>
    simp only [Matrix.smul_apply, realify_castAdd_castAdd, realify_castAdd_natAdd,
      realify_natAdd_castAdd, realify_natAdd_natAdd, smul_eq_mul, Complex.mul_re,
      Complex.mul_im, Complex.ofReal_re, Complex.ofReal_im] <;> ring

theorem realify_one {n : ℕ} :
    realify (1 : Matrix (Fin n) (Fin n) ℂ) = (1 / 2 : ℝ) • 1 := by
  have hne : ∀ i j : Fin n, Fin.castAdd n i ≠ Fin.natAdd n j := fun i j h => by
    have := congrArg Fin.val h; simp at this; omega
  apply ext_halves <;> intro i j <;>
    simp only [Matrix.smul_apply, realify_castAdd_castAdd, realify_castAdd_natAdd,
      realify_natAdd_castAdd, realify_natAdd_natAdd, smul_eq_mul, Matrix.one_apply,
      Fin.castAdd_inj, Fin.natAdd_inj, hne, (hne _ _).symm] <;>
    split_ifs <;> simp_all

theorem realify_mul {n : ℕ} (a b : Matrix (Fin n) (Fin n) ℂ) :
    realify (a * b) = (2 : ℝ) • (realify a * realify b) := by
  apply ext_halves <;> intro i j <;>
    simp only [Matrix.smul_apply, Matrix.mul_apply, Fin.sum_univ_add, realify_castAdd_castAdd,
      realify_castAdd_natAdd, realify_natAdd_castAdd, realify_natAdd_natAdd, smul_eq_mul,
      Complex.re_sum, Complex.im_sum, Complex.mul_re, Complex.mul_im, Finset.mul_sum,
      ← Finset.sum_add_distrib, ← Finset.sum_neg_distrib] <;>
    refine Finset.sum_congr rfl fun k _ => ?_ <;> ring

theorem realify_posDef {n : ℕ} (a : Matrix (Fin n) (Fin n) ℂ) :
    (realify a).PosDef ↔ a.PosDef := by
  have herm : (realify a).IsHermitian ↔ a.IsHermitian := by
    unfold Matrix.IsHermitian
    rw [conjTranspose_eq_transpose_of_trivial, realify_transpose, realify_injective.eq_iff]
  rw [posDef_iff_dotProduct_mulVec, posDef_iff_dotProduct_mulVec, herm]
  refine and_congr_right fun ha => ?_
  have him : ∀ z : Fin n → ℂ, (star z ⬝ᵥ (a *ᵥ z)).im = 0 := fun z => by
    have := ha.im_star_dotProduct_mulVec_self z
    simpa using this
  constructor
  · intro h z hz
    obtain ⟨x, rfl⟩ := zOf_surjective z
    have := h (x := x) (fun h0 => hz ((zOf_eq_zero x).2 h0))
    rw [star_trivial, quad_realify] at this
    rw [Complex.lt_def]
    refine ⟨by simpa using this, by simpa using (him (zOf x)).symm⟩
  · intro h x hx
    have := h (x := zOf x) (fun h0 => hx ((zOf_eq_zero x).1 h0))
    rw [Complex.lt_def] at this
    rw [star_trivial, quad_realify]
    have h1 : 0 < (star (zOf x) ⬝ᵥ a *ᵥ zOf x).re := by simpa using this.1
    linarith

theorem realify_posSemidef {n : ℕ} (a : Matrix (Fin n) (Fin n) ℂ) :
    (realify a).PosSemidef ↔ a.PosSemidef := by
  have herm : (realify a).IsHermitian ↔ a.IsHermitian := by
    unfold Matrix.IsHermitian
    rw [conjTranspose_eq_transpose_of_trivial, realify_transpose, realify_injective.eq_iff]
  rw [posSemidef_iff_dotProduct_mulVec, posSemidef_iff_dotProduct_mulVec, herm]
  refine and_congr_right fun ha => ?_
  have him : ∀ z : Fin n → ℂ, (star z ⬝ᵥ (a *ᵥ z)).im = 0 := fun z => by
    have := ha.im_star_dotProduct_mulVec_self z
    simpa using this
  constructor
  · intro h z
    obtain ⟨x, rfl⟩ := zOf_surjective z
    have := h x
    rw [star_trivial, quad_realify] at this
    rw [Complex.le_def]
    refine ⟨by simpa using this, by simpa using (him (zOf x)).symm⟩
  · intro h x
    have := h (zOf x)
    rw [Complex.le_def] at this
    rw [star_trivial, quad_realify]
    have h1 : 0 ≤ (star (zOf x) ⬝ᵥ a *ᵥ zOf x).re := by simpa using this.1
    linarith

theorem det_realify {n : ℕ} (a : Matrix (Fin n) (Fin n) ℂ) :
    (realify a).det = (1 / 2) ^ (2 * n) * Complex.normSq a.det := by
  have key : ((fromBlocks (a.map Complex.re) (-(a.map Complex.im))
      (a.map Complex.im) (a.map Complex.re)).map (algebraMap ℝ ℂ)).det
        = a.det * star a.det := by
    set P : Matrix (Fin n) (Fin n) ℂ := (a.map Complex.re).map (algebraMap ℝ ℂ)
    set Q : Matrix (Fin n) (Fin n) ℂ := (a.map Complex.im).map (algebraMap ℝ ℂ)
    have hA : P + Complex.I • Q = a := by
      ext i j; simp [P, Q, mul_comm Complex.I, Complex.re_add_im]
    have hB : P - Complex.I • Q = a.map star := by
      ext i j
      apply Complex.ext <;> simp [P, Q]
    have hM : (fromBlocks (a.map Complex.re) (-(a.map Complex.im))
      (a.map Complex.im) (a.map Complex.re)).map (algebraMap ℝ ℂ) = fromBlocks P (-Q) Q P := by
      rw [fromBlocks_map]; congr 1; ext i j; simp [Q]
    have hfac : fromBlocks (1 : Matrix (Fin n) (Fin n) ℂ) (Complex.I • 1) 0 1 *
        fromBlocks P (-Q) Q P * fromBlocks 1 (-(Complex.I • 1)) 0 1
        = fromBlocks a 0 Q (a.map star) := by
      rw [fromBlocks_multiply, fromBlocks_multiply]
      congr 1
      · simp [hA]
      · simp [smul_smul, smul_add]
        abel
      · simp
      · rw [← hB]; simp [sub_eq_add_neg, add_comm]
    have hd := congrArg Matrix.det hfac
    rw [det_mul, det_mul, det_fromBlocks_zero₂₁, det_fromBlocks_zero₂₁,
      det_fromBlocks_zero₁₂] at hd
    rw [hM]
    simp only [det_one, one_mul, mul_one] at hd
    rw [hd]
    congr 1
    rw [← det_conjTranspose, ← det_transpose]; rfl
  have h1 : (realify a).det = (1 / 2) ^ (2 * n) *
      (fromBlocks (a.map Complex.re) (-(a.map Complex.im))
      (a.map Complex.im) (a.map Complex.re)).det := by
    rw [realify, det_smul, Fintype.card_fin]
    congr 1
    · rw [two_mul]
    · exact det_submatrix_equiv_self _ _
  rw [h1]
  congr 1
  have h2 : (((fromBlocks (a.map Complex.re) (-(a.map Complex.im))
      (a.map Complex.im) (a.map Complex.re)).det : ℝ) : ℂ) = a.det * star a.det := by
    rw [← key]; exact (RingHom.map_det (algebraMap ℝ ℂ) _)
  have h3 : a.det * star a.det = ((Complex.normSq a.det : ℝ) : ℂ) := Complex.mul_conj _
  rw [h3] at h2
  exact_mod_cast h2

end RS
