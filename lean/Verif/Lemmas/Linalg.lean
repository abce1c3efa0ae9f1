import Verif.Lemmas.MatFun
import Mathlib.Data.List.Basic
import Mathlib.Analysis.Real.Sqrt
import Mathlib.Algebra.BigOperators.Fin
import Mathlib.Algebra.Order.Floor.Ring
import Mathlib.LinearAlgebra.Matrix.Block
import Mathlib.Tactic.Ring

set_option autoImplicit false

namespace RS
open Matrix ComplexOrder

/-! ### lists of index pairs -/

theorem lookup_zip_map_mem {α β : Type*} [BEq α] [LawfulBEq α] (l : List α) (f : α → β) (x : α)
    (hx : x ∈ l) : (l.zip (l.map f)).lookup x = some (f x) := by
  induction l with
  | nil => simp at hx
  | cons a l ih =>
    simp only [List.map_cons, List.zip_cons_cons, List.lookup_cons]
    by_cases h : x = a
    · subst h; simp
    · have h1 : (x == a) = false := by simpa using h
      have h2 : x ∈ l := by simpa [h] using hx
      simp [h1, ih h2]

theorem lookup_zip_not_mem {α β : Type*} [BEq α] [LawfulBEq α] (l : List α) (v : List β) (x : α)
    (hx : x ∉ l) : (l.zip v).lookup x = none := by
  rw [List.lookup_eq_none_iff]
  rintro ⟨a, b⟩ hab
  have := (List.of_mem_zip hab).1
  simp only [bne_iff_ne, ne_eq]
  rintro rfl; exact hx this

theorem map_lookup_zip {α β : Type*} [BEq α] [LawfulBEq α] (d : β) (l : List α) (hl : l.Nodup) :
    ∀ v : List β, v.length = l.length → l.map (fun x => ((l.zip v).lookup x).getD d) = v := by
  induction l with
  | nil => intro v hv; simpa using (List.length_eq_zero_iff.1 hv).symm
  | cons a l ih =>
    intro v hv
    cases v with
    | nil => simp at hv
    | cons b v =>
      rw [List.nodup_cons] at hl
      simp only [List.zip_cons_cons, List.map_cons, List.lookup_cons, beq_self_eq_true,
        Option.getD_some, List.cons.injEq, true_and]
      rw [← ih hl.2 v (by simpa using hv)]
      apply List.map_congr_left
      intro x hx
      have : (x == a) = false := by
        simp only [beq_eq_false_iff_ne]; rintro rfl; exact hl.1 hx
      simp only [this]
      rw [ih hl.2 v (by simpa using hv)]

theorem mem_triuIndices {n : ℕ} (r c : Fin n) : (r, c) ∈ triuIndices n ↔ r ≤ c := by
  simp [triuIndices]

theorem nodup_triuIndices (n : ℕ) : (triuIndices n).Nodup := by
  unfold triuIndices
  rw [List.nodup_flatMap]
  refine ⟨fun r _ => ((List.nodup_finRange n).filter _).map (fun a b h => by simpa using h), ?_⟩
  refine List.Pairwise.imp ?_ (List.nodup_finRange n)
  intro a b hab
  simp only [Function.onFun, List.disjoint_iff_ne]
  intro x hx y hy hxy
  simp only [List.mem_map] at hx hy
  obtain ⟨_, _, rfl⟩ := hx
  obtain ⟨_, _, rfl⟩ := hy
  exact hab (congrArg Prod.fst hxy)

theorem length_triuIndices (n : ℕ) : (triuIndices n).length = n * (n + 1) / 2 := by
  have h1 : (triuIndices n).length = ((triuIndices n).toFinset).card :=
    (List.toFinset_card_of_nodup (nodup_triuIndices n)).symm
  have h2 : (triuIndices n).toFinset
      = (Finset.univ : Finset (Fin n)).biUnion (fun r => (Finset.Ici r).map
        ⟨fun c => (r, c), fun a b h => by simpa using h⟩) := by
    ext ⟨r, c⟩
    simp only [List.mem_toFinset, mem_triuIndices, Finset.mem_biUnion, Finset.mem_univ, true_and,
      Finset.mem_map, Finset.mem_Ici]
    constructor
    · intro h; exact ⟨r, c, h, rfl⟩
    · rintro ⟨_, _, h, heq⟩; cases heq; exact h
  rw [h1, h2, Finset.card_biUnion]
  · simp only [Finset.card_map, Fin.card_Ici]
    rw [Finset.sum_fin_eq_sum_range]
    have : ∀ m, ∑ i ∈ Finset.range m, (if h : i < m then m - i else 0) = m * (m + 1) / 2 := by
      intro m
      rw [← Finset.sum_range_reflect]
      rw [show m * (m + 1) = (m + 1) * (m + 1 - 1) by simp [mul_comm],
        ← Finset.sum_range_id, Finset.sum_range_succ']
      rw [add_zero]
      refine Finset.sum_congr rfl fun i hi => ?_
      rw [Finset.mem_range] at hi
      rw [dif_pos (by omega)]; omega
    exact this n
  · intro a _ b _ hab
    simp only [Function.onFun, Finset.disjoint_left]
    rintro ⟨x, y⟩ hx hy
    simp only [Finset.mem_map, Finset.mem_Ici] at hx hy
    obtain ⟨_, _, h1⟩ := hx
    obtain ⟨_, _, h2⟩ := hy
    cases h1; cases h2
    exact hab rfl

theorem rows_of_triangular (n : ℕ) :
    (round ((1 / 2 : ℝ) * (-1 + Real.sqrt (1 + 8 * ((n * (n + 1) / 2 : ℕ) : ℝ))))).toNat = n := by
  have he : (n * (n + 1)) % 2 = 0 := Nat.even_iff.1 (Nat.even_mul_succ_self n)
  have h2 : ((n * (n + 1) / 2 : ℕ) : ℝ) * 2 = n * (n + 1) := by
    have : (n * (n + 1) / 2) * 2 = n * (n + 1) := by omega
    exact_mod_cast this
  have h3 : (1 + 8 * ((n * (n + 1) / 2 : ℕ) : ℝ)) = (2 * n + 1) ^ 2 := by nlinarith
  rw [h3, Real.sqrt_sq (by positivity)]
  have : (1 / 2 : ℝ) * (-1 + (2 * n + 1)) = (n : ℕ) := by ring
  rw [this, round_natCast]
  simp

section
variable {𝕜 : Type*} [RCLike 𝕜]

/-- unvech on a list of triangular length. -/
theorem unvech_of_length (n : ℕ) (v : List 𝕜) (hv : v.length = n * (n + 1) / 2) :
    unvech v = .ok (.d2 n n (Matrix.of fun r c =>
      let u : Matrix (Fin n) (Fin n) 𝕜 :=
        Matrix.of fun r c => (((triuIndices n).zip v).lookup (r, c)).getD 0
      if r = c then (u r c + star (u c r)) / 2 else u r c + star (u c r))) := by
  have key : ∀ m : ℕ,
      (round ((1 / 2 : ℝ) * (-1 + Real.sqrt (1 + 8 * (v.length : ℝ))))).toNat = m →
      v.length = (triuIndices m).length →
      unvech v = .ok (.d2 m m (Matrix.of fun r c =>
      let u : Matrix (Fin m) (Fin m) 𝕜 :=
        Matrix.of fun r c => (((triuIndices m).zip v).lookup (r, c)).getD 0
      if r = c then (u r c + star (u c r)) / 2 else u r c + star (u c r))) := by
    intro m hm hl
    subst hm
    simp only [unvech]
    rw [if_pos (Or.inl hl)]
    simp only [if_pos hl, Matrix.add_apply, conjTranspose_apply, Matrix.of_apply]
  refine key n ?_ ?_
  · rw [hv]; exact rows_of_triangular n
  · rw [hv, length_triuIndices]

/-! ### Toeplitz -/

/-- The Cholesky-like factor of `ToeplitzMatrix`. -/
def toepL (rho : 𝕜) (p : ℕ) : Matrix (Fin p) (Fin p) 𝕜 :=
  Matrix.of fun i k => if k ≤ i then rho ^ (i.1 - k.1) else 0

/-- The diagonal of the factorisation. -/
noncomputable def toepD (rho : 𝕜) (p : ℕ) : Fin p → ℝ :=
  fun k => if k.1 = 0 then 1 else 1 - ‖rho‖ ^ 2

theorem toeplitz_isHermitian (rho : 𝕜) (p : ℕ) : (ToeplitzMatrix rho p).IsHermitian := by
  ext i j
  simp only [conjTranspose_apply, ToeplitzMatrix, Matrix.of_apply]
  by_cases h : i = j
  · subst h; simp
  · by_cases h1 : i ≤ j
    · have h2 : ¬ j ≤ i := fun h2 => h (le_antisymm h1 h2)
      simp [h1, h2]
    · have h2 : j ≤ i := le_of_not_ge h1
      simp [h1, h2]

theorem geom_aux (x : ℝ) : ∀ j : ℕ, ∑ k ∈ Finset.range (j + 1),
    x ^ (j - k) * (if k = 0 then 1 else 1 - x) = 1 := by
  intro j
  induction j with
  | zero => simp
  | succ j ih =>
    rw [Finset.sum_range_succ]
    have : ∑ k ∈ Finset.range (j + 1), x ^ (j + 1 - k) * (if k = 0 then 1 else 1 - x)
        = x * ∑ k ∈ Finset.range (j + 1), x ^ (j - k) * (if k = 0 then 1 else 1 - x) := by
      rw [Finset.mul_sum]
      refine Finset.sum_congr rfl fun k hk => ?_
      rw [Finset.mem_range] at hk
      rw [show j + 1 - k = (j - k) + 1 by omega, pow_succ]; ring
    rw [this, ih]
    simp

theorem toeplitz_factor (rho : 𝕜) (p : ℕ) :
    ToeplitzMatrix rho p
      = toepL rho p * diagonal (fun k => (toepD rho p k : 𝕜)) * (toepL rho p)ᴴ := by
  have hlow : ∀ i j : Fin p, j ≤ i → (toepL rho p * diagonal (fun k => (toepD rho p k : 𝕜)) *
      (toepL rho p)ᴴ) i j = rho ^ (i.1 - j.1) := by
    intro i j hji
    rw [mul_apply]
    simp only [mul_diagonal, conjTranspose_apply, toepL, Matrix.of_apply]
    have hterm : ∀ k : Fin p, (if k ≤ i then rho ^ (i.1 - k.1) else 0) * (toepD rho p k : 𝕜) *
        star (if k ≤ j then rho ^ (j.1 - k.1) else 0)
        = if k.1 < j.1 + 1 then rho ^ (i.1 - j.1) *
          (((‖rho‖ ^ 2) ^ (j.1 - k.1) * (if k.1 = 0 then 1 else 1 - ‖rho‖ ^ 2) : ℝ) : 𝕜)
          else 0 := by
      intro k
      by_cases hk : k ≤ j
      · have hk' : k.1 < j.1 + 1 := by have : k.1 ≤ j.1 := hk; omega
        have hki : k ≤ i := hk.trans hji
        rw [if_pos hki, if_pos hk, if_pos hk']
        have e : i.1 - k.1 = (i.1 - j.1) + (j.1 - k.1) := by
          have h1 : k.1 ≤ j.1 := hk
          have h2 : j.1 ≤ i.1 := hji
          omega
        rw [e, pow_add, star_pow]
        have : rho * star rho = ((‖rho‖ ^ 2 : ℝ) : 𝕜) := by
          rw [RCLike.star_def, RCLike.mul_conj]; norm_cast
        rw [RCLike.ofReal_mul, RCLike.ofReal_pow (‖rho‖ ^ 2), ← this, mul_pow]
        simp only [toepD]
        ring
      · have hk' : ¬ k.1 < j.1 + 1 := by
          intro h; apply hk; change k.1 ≤ j.1; omega
        rw [if_neg hk, if_neg hk']; simp
    rw [Finset.sum_congr rfl fun k _ => hterm k]
    rw [Fin.sum_univ_eq_sum_range (fun k => if k < j.1 + 1 then rho ^ (i.1 - j.1) *
          (((‖rho‖ ^ 2) ^ (j.1 - k) * (if k = 0 then 1 else 1 - ‖rho‖ ^ 2) : ℝ) : 𝕜)
          else 0) p]
    rw [← Finset.sum_filter]
    have : (Finset.range p).filter (fun k => k < j.1 + 1) = Finset.range (j.1 + 1) := by
      ext k; simp; omega
    rw [this, ← Finset.mul_sum]
    have := geom_aux (‖rho‖ ^ 2) j.1
    rw [← RCLike.ofReal_sum, this]
    simp
  have hherm : (toepL rho p * diagonal (fun k => (toepD rho p k : 𝕜)) *
      (toepL rho p)ᴴ).IsHermitian := by
    unfold Matrix.IsHermitian
    simp only [conjTranspose_mul, conjTranspose_conjTranspose, diagonal_conjTranspose, mul_assoc]
    congr 3; funext i; simp
  ext i j
  by_cases h : j ≤ i
  · rw [hlow i j h]; simp [ToeplitzMatrix, h]
  · have h' : i ≤ j := le_of_not_ge h
    rw [← hherm.apply i j, hlow j i h']
    simp [ToeplitzMatrix, h]

theorem toepL_det (rho : 𝕜) (p : ℕ) : (toepL rho p).det = 1 := by
  have : (toepL rho p).BlockTriangular OrderDual.toDual := by
    intro i j hij
    have : i < j := hij
    simp [toepL, not_le.2 this]
  rw [det_of_isLowerTriangular _ this]
  simp [toepL]

end
end RS
