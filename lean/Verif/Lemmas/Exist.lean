import Verif.Lemmas.TylerConverge
import Verif.Spec.Exist
import Verif.Props.Cost
import Mathlib.Data.Fin.Tuple.Sort
import Mathlib.LinearAlgebra.Dimension.StrongRankCondition
import Mathlib.LinearAlgebra.Dimension.Constructions

/-! Existence of the M-estimates: the cost is coercive when no subspace holds too many samples. -/
set_option autoImplicit false

namespace RS
open Matrix ComplexOrder Filter Topology

section
variable {𝕜 : Type} [RCLike 𝕜] {N p : ℕ}

theorem spectral_sorted {S : Matrix (Fin p) (Fin p) 𝕜} (hS : S.PosDef) :
    ∃ (U : Matrix (Fin p) (Fin p) 𝕜) (l : Fin p → ℝ), Uᴴ * U = 1 ∧ (∀ j, 0 < l j) ∧ Antitone l ∧
      S = U * diagonal (fun j => (l j : 𝕜)) * Uᴴ := by
  obtain ⟨U, l, hU, hl, h⟩ := spectral_exists S hS
  set π := Tuple.sort fun j => -l j
  have hm : Monotone ((fun j => -l j) ∘ π) := Tuple.monotone_sort _
  refine ⟨U.submatrix id π, l ∘ π, ?_, fun j => hl _, fun a b hab => ?_, ?_⟩
  · rw [conjTranspose_submatrix, ← submatrix_mul _ _ π id π Function.bijective_id, hU,
      submatrix_one_equiv]
  · have := hm hab
    simpa using this
  · have hd : (diagonal fun j => (((l ∘ π) j : ℝ) : 𝕜)) =
        (diagonal fun j => (l j : 𝕜)).submatrix π π := by
      rw [submatrix_diagonal_equiv]; rfl
    rw [hd, conjTranspose_submatrix, ← submatrix_mul _ _ id π π π.bijective,
      ← submatrix_mul _ _ id π id π.bijective, submatrix_id_id, h]

theorem eigen_qf {U : Matrix (Fin p) (Fin p) 𝕜} {l : Fin p → ℝ} (hU : Uᴴ * U = 1)
    (hl : ∀ j, 0 < l j) (x : Fin p → 𝕜) :
    qf (U * diagonal (fun j => (l j : 𝕜)) * Uᴴ) x = ∑ j, ‖(Uᴴ *ᵥ x) j‖ ^ 2 / l j := by
  have hU' : U * Uᴴ = 1 := mul_eq_one_comm.1 hU
  have h : x = U *ᵥ (Uᴴ *ᵥ x) := by rw [mulVec_mulVec, hU', one_mulVec]
  conv_lhs => rw [h]
  rw [qf_congr U ⟨⟨U, Uᴴ, hU', hU⟩, rfl⟩, qf_diagonal l hl]

theorem eigen_det {U : Matrix (Fin p) (Fin p) 𝕜} {l : Fin p → ℝ} (hU : Uᴴ * U = 1)
    (hl : ∀ j, 0 < l j) :
    Real.log (RCLike.re (U * diagonal (fun j => (l j : 𝕜)) * Uᴴ).det) = ∑ j, Real.log (l j) := by
  have : (U * diagonal (fun j => (l j : 𝕜)) * Uᴴ).det = (diagonal (fun j => (l j : 𝕜))).det := by
    rw [det_mul, det_mul, mul_right_comm, ← det_mul, mul_eq_one_comm.1 hU, det_one, one_mul]
  rw [this, det_diagonal_re, Real.log_prod (fun j _ => (hl j).ne')]

/-- A nonnegative monotone sequence is a nonnegative combination of up-sets. -/
theorem layer (t : Fin p → ℝ) (hm : Monotone t) (h0 : ∀ k, 0 ≤ t k) :
    ∃ g : Fin p → ℝ, (∀ j, 0 ≤ g j) ∧ (∀ j : Fin p, (j : ℕ) = 0 → g j = t j) ∧
      ∀ k, t k = ∑ j, if j ≤ k then g j else 0 := by
  classical
  set T : ℕ → ℝ := fun n => if h : n < p then t ⟨n, h⟩ else 0 with hT
  set G : ℕ → ℝ := fun n => if n = 0 then T 0 else T n - T (n - 1) with hG
  have hTk : ∀ k : Fin p, T k = t k := fun k => by simp [hT]
  refine ⟨fun j => G j, fun j => ?_, fun j hj => ?_, fun k => ?_⟩
  · simp only [hG]
    split_ifs with h
    · rw [← h, hTk]; exact h0 j
    · have e : T (j - 1) = t ⟨j - 1, by omega⟩ := by simp [hT, show (j : ℕ) - 1 < p by omega]
      rw [hTk, e]
      have := hm (show (⟨j - 1, by omega⟩ : Fin p) ≤ j by rw [Fin.le_def]; simp)
      linarith
  · simp only [hG, hj, if_true]
    rw [← hj, hTk]
  · have key : ∀ n, ∑ j ∈ Finset.range (n + 1), G j = T n := by
      intro n
      induction n with
      | zero => simp [hG]
      | succ n ih => rw [Finset.sum_range_succ, ih]; simp [hG]
    rw [← hTk k, ← key k, ← Finset.sum_filter]
    symm
    refine Finset.sum_nbij (fun j : Fin p => (j : ℕ)) ?_ ?_ ?_ ?_
    · intro j hj
      simp only [Finset.mem_filter, Finset.mem_univ, true_and, Fin.le_def] at hj
      simp; omega
    · intro a _ b _ h; exact Fin.ext h
    · intro n hn
      simp only [Finset.coe_range, Set.mem_Iio] at hn
      exact ⟨⟨n, by omega⟩, Finset.mem_coe.2 (Finset.mem_filter.2 ⟨Finset.mem_univ _, by rw [Fin.le_def]; show n ≤ k; omega⟩), rfl⟩
    · intro j _; rfl

/-- Summation by parts: if the tail sums of `a` are at least `e`, so is the slope of
`sum a t` in `t`. -/
theorem tail_bound (t a : Fin p → ℝ) (hm : Monotone t) (h0 : ∀ k, 0 ≤ t k) {e : ℝ} (he : 0 ≤ e)
    (h : ∀ j, e ≤ (∑ k, if j ≤ k then a k else 0) ∨ ((j : ℕ) = 0 ∧ t j = 0)) (k : Fin p) :
    e * t k ≤ ∑ k, a k * t k := by
  obtain ⟨g, hg, hg0, hgt⟩ := layer t hm h0
  have h1 : ∑ k, a k * t k = ∑ j, g j * ∑ k, if j ≤ k then a k else 0 := by
    have : ∀ k, a k * t k = ∑ j, if j ≤ k then g j * a k else 0 := fun k => by
      rw [hgt k, Finset.mul_sum]
      apply Finset.sum_congr rfl; intro j _
      split_ifs <;> ring
    simp only [this]
    rw [Finset.sum_comm]
    apply Finset.sum_congr rfl; intro j _
    rw [Finset.mul_sum]
    apply Finset.sum_congr rfl; intro k _
    split_ifs <;> ring
  have h2 : e * t k ≤ ∑ j, g j * e := by
    rw [hgt k, Finset.mul_sum]
    apply Finset.sum_le_sum; intro j _
    split_ifs
    · rw [mul_comm]
    · rw [mul_zero]; exact mul_nonneg (hg j) he
  rw [h1]
  refine h2.trans (Finset.sum_le_sum fun j _ => ?_)
  rcases h j with h | ⟨h, h'⟩
  · exact mul_le_mul_of_nonneg_left h (hg j)
  · rw [hg0 j h, h', zero_mul, zero_mul]

theorem isCompact_unitary :
    IsCompact {U : Matrix (Fin p) (Fin p) 𝕜 | Uᴴ * U = 1} := by
  have hK : IsCompact (Set.univ.pi fun _ : Fin p => Set.univ.pi fun _ : Fin p =>
      Metric.closedBall (0 : 𝕜) 1) :=
    isCompact_univ_pi fun i => isCompact_univ_pi fun j => isCompact_closedBall 0 1
  refine hK.of_isClosed_subset ?_ ?_
  · have hc : Continuous fun U : Matrix (Fin p) (Fin p) 𝕜 => Uᴴ * U := by fun_prop
    exact isClosed_eq hc continuous_const
  · intro (U : Matrix (Fin p) (Fin p) 𝕜) (hU : Uᴴ * U = 1) i _ j _
    rw [mem_closedBall_zero_iff]
    have h1 : (Uᴴ * U) j j = 1 := by rw [hU, one_apply_eq]
    rw [Matrix.mul_apply] at h1
    have h2 := congrArg RCLike.re h1
    simp only [conjTranspose_apply, RCLike.star_def, RCLike.conj_mul, map_sum, RCLike.one_re,
      ← RCLike.ofReal_pow, RCLike.ofReal_re] at h2
    have h3 := Finset.single_le_sum (f := fun k => ‖U k j‖ ^ 2) (fun k _ => sq_nonneg _)
      (Finset.mem_univ i)
    rw [h2] at h3
    exact (sq_le_one_iff₀ (norm_nonneg _)).1 h3

/-- The vectors whose coordinates from `j` on vanish in the basis of the columns of `U`. -/
def flagSpace (U : Matrix (Fin p) (Fin p) 𝕜) (j : Fin p) : Submodule 𝕜 (Fin p → 𝕜) where
  carrier := {x | ∀ k, j ≤ k → (Uᴴ *ᵥ x) k = 0}
  add_mem' := fun {x y} hx hy k hk => by rw [mulVec_add, Pi.add_apply, hx k hk, hy k hk, add_zero]
  zero_mem' := fun k _ => by rw [mulVec_zero]; rfl
  smul_mem' := fun c x hx k hk => by rw [mulVec_smul, Pi.smul_apply, hx k hk, smul_zero]

theorem mem_flagSpace {U : Matrix (Fin p) (Fin p) 𝕜} {j : Fin p} {x : Fin p → 𝕜} :
    x ∈ flagSpace U j ↔ ∀ k, j ≤ k → (Uᴴ *ᵥ x) k = 0 := Iff.rfl

theorem flagSpace_ne_top {U : Matrix (Fin p) (Fin p) 𝕜} (hU : Uᴴ * U = 1) (j : Fin p) :
    flagSpace U j ≠ ⊤ := by
  intro h
  have h1 : U *ᵥ Pi.single j 1 ∈ flagSpace U j := by rw [h]; trivial
  have h2 := h1 j le_rfl
  rw [mulVec_mulVec, hU, one_mulVec, Pi.single_eq_same] at h2
  exact one_ne_zero h2

theorem flagSpace_ne_bot {U : Matrix (Fin p) (Fin p) 𝕜} (hU : Uᴴ * U = 1) {j : Fin p}
    (hj : (j : ℕ) ≠ 0) : flagSpace U j ≠ ⊥ := by
  intro h
  have hp : 0 < p := by omega
  have h1 : U *ᵥ Pi.single ⟨0, hp⟩ 1 ∈ flagSpace U j := fun k hk => by
    rw [mulVec_mulVec, hU, one_mulVec, Pi.single_eq_of_ne]
    intro e
    rw [e, Fin.le_def] at hk
    simp at hk; omega
  rw [h, Submodule.mem_bot] at h1
  have h2 : Uᴴ *ᵥ (U *ᵥ Pi.single ⟨0, hp⟩ 1) = 0 := by rw [h1, mulVec_zero]
  rw [mulVec_mulVec, hU, one_mulVec] at h2
  have h3 := congrFun h2 ⟨0, hp⟩
  rw [Pi.single_eq_same] at h3
  exact one_ne_zero h3

theorem flagSpace_finrank {U : Matrix (Fin p) (Fin p) 𝕜} (hU : Uᴴ * U = 1) (j : Fin p) :
    Module.finrank 𝕜 (flagSpace U j) ≤ j := by
  let f : flagSpace U j →ₗ[𝕜] (Fin j → 𝕜) :=
    { toFun := fun x k => (Uᴴ *ᵥ (x : Fin p → 𝕜)) ⟨k, k.2.trans j.2⟩
      map_add' := fun x y => by funext k; simp [mulVec_add]
      map_smul' := fun c x => by funext k; simp [mulVec_smul] }
  have hf : Function.Injective f := by
    rw [← LinearMap.ker_eq_bot, LinearMap.ker_eq_bot']
    intro x hx
    apply Subtype.ext
    have h1 : Uᴴ *ᵥ (x : Fin p → 𝕜) = 0 := by
      funext k
      by_cases hk : j ≤ k
      · exact x.2 k hk
      · rw [Fin.le_def, not_le] at hk
        exact congrFun hx ⟨k, hk⟩
    have h2 : U *ᵥ (Uᴴ *ᵥ (x : Fin p → 𝕜)) = 0 := by rw [h1, mulVec_zero]
    rwa [mulVec_mulVec, mul_eq_one_comm.1 hU, one_mulVec] at h2
  have := LinearMap.finrank_le_finrank_of_injective hf
  rwa [Module.finrank_fin_fun] at this

/-! ### The local bound -/

/-- Each nonzero sample has a last nonzero coordinate in the basis of the columns of `U`. -/
theorem last_coord {U : Matrix (Fin p) (Fin p) 𝕜} (hU : Uᴴ * U = 1) (hp : 0 < p)
    (X : Matrix (Fin N) (Fin p) 𝕜) :
    ∃ κ : Fin N → Fin p, (∀ i, sample X i ≠ 0 → (Uᴴ *ᵥ sample X i) (κ i) ≠ 0) ∧
      ∀ i j, sample X i ∈ flagSpace U j ↔ (sample X i ≠ 0 → κ i < j) := by
  classical
  have h : ∀ i, ∃ k : Fin p, (sample X i ≠ 0 → (Uᴴ *ᵥ sample X i) k ≠ 0) ∧
      ∀ j, sample X i ∈ flagSpace U j ↔ (sample X i ≠ 0 → k < j) := by
    intro i
    by_cases hx : sample X i = 0
    · refine ⟨⟨0, hp⟩, fun h => absurd hx h, fun j => ⟨fun _ h => absurd hx h, fun _ => ?_⟩⟩
      rw [hx]; exact Submodule.zero_mem _
    · have hne : (Finset.univ.filter fun k => (Uᴴ *ᵥ sample X i) k ≠ 0).Nonempty := by
        by_contra hcon
        rw [Finset.not_nonempty_iff_eq_empty] at hcon
        apply hx
        have h1 : Uᴴ *ᵥ sample X i = 0 := by
          funext k
          by_contra hk
          have : k ∈ (Finset.univ.filter fun k => (Uᴴ *ᵥ sample X i) k ≠ 0) := by
            simpa using hk
          rw [hcon] at this
          simp at this
        rw [← one_mulVec (sample X i), ← mul_eq_one_comm.1 hU, ← mulVec_mulVec, h1, mulVec_zero]
      have hmem := Finset.max'_mem _ hne
      have hmax := fun k hk => Finset.le_max' (Finset.univ.filter
        fun k => (Uᴴ *ᵥ sample X i) k ≠ 0) k hk
      set k := Finset.max' _ hne
      simp only [Finset.mem_filter, Finset.mem_univ, true_and] at hmem hmax
      refine ⟨k, fun _ => hmem, fun j => ⟨fun hj _ => ?_, fun hj k' hk' => ?_⟩⟩
      · by_contra hc
        exact hmem (hj k (not_lt.1 hc))
      · by_contra hc
        exact absurd (hmax k' hc) (not_le.2 ((hj hx).trans_le hk'))
  choose κ h1 h2 using h
  exact ⟨κ, h1, h2⟩

theorem samplesIn_eq (X : Matrix (Fin N) (Fin p) 𝕜) (V : Submodule 𝕜 (Fin p → 𝕜))
    [DecidablePred fun i => sample X i ∈ V] :
    samplesIn X V = (Finset.univ.filter fun i => sample X i ∈ V).card := by
  unfold samplesIn
  rw [Nat.card_eq_fintype_card, Fintype.card_subtype]

theorem exists_pos_le {ι : Type} [Finite ι] (f : ι → ℝ) : ∃ e : ℝ, 0 < e ∧ ∀ i, 0 < f i → e ≤ f i := by
  have h : ∀ᶠ e in 𝓝[>] (0 : ℝ), ∀ i, 0 < f i → e ≤ f i := by
    refine eventually_all.2 fun i => ?_
    by_cases hi : 0 < f i
    · filter_upwards [Ioc_mem_nhdsGT hi] with e he _ using he.2
    · exact Eventually.of_forall fun e h => absurd h hi
  obtain ⟨e, h1, h2⟩ := (h.and self_mem_nhdsWithin).exists
  exact ⟨e, h2, h1⟩

/-- What the samples near a given basis contribute. `Z i` says that sample `i` is not zero. -/
theorem local_slope {nu : ℝ} (hp : 0 < p) (X : Matrix (Fin N) (Fin p) 𝕜)
    (U₀ : Matrix (Fin p) (Fin p) 𝕜) (hU₀ : U₀ᴴ * U₀ = 1)
    (H : ∀ j : Fin p, (nu = 0 ∧ (j : ℕ) = 0) ∨
      (nu + p) * samplesIn X (flagSpace U₀ j) < N * (nu + j)) :
    ∃ (κ : Fin N → Fin p) (c e : ℝ), 0 < c ∧ 0 < e ∧
      (∀ᶠ U in 𝓝 U₀, ∀ i, sample X i ≠ 0 → c ≤ ‖(Uᴴ *ᵥ sample X i) (κ i)‖ ^ 2) ∧
      ∀ t : Fin p → ℝ, Monotone t → (∀ k, 0 ≤ t k) → (nu = 0 → t ⟨0, hp⟩ = 0) → ∀ k,
        e * t k + N * ∑ k, t k ≤
          (nu + p) * ∑ i, (open Classical in if sample X i = 0 then 0 else t (κ i)) := by
  classical
  obtain ⟨κ, h1, h2⟩ := last_coord hU₀ hp X
  obtain ⟨c, hc, hc'⟩ := exists_pos_le fun i => ‖(U₀ᴴ *ᵥ sample X i) (κ i)‖ ^ 2 / 2
  obtain ⟨e, he, he'⟩ := exists_pos_le fun j : Fin p =>
    N * (nu + j) - (nu + p) * samplesIn X (flagSpace U₀ j)
  refine ⟨κ, c, e, hc, he, ?_, ?_⟩
  · refine eventually_all.2 fun i => ?_
    by_cases hx : sample X i = 0
    · exact Eventually.of_forall fun _ h => absurd hx h
    · have hpos : 0 < ‖(U₀ᴴ *ᵥ sample X i) (κ i)‖ ^ 2 := by
        have := norm_pos_iff.2 (h1 i hx)
        positivity
      have hcont : Continuous fun U : Matrix (Fin p) (Fin p) 𝕜 =>
          ‖(Uᴴ *ᵥ sample X i) (κ i)‖ ^ 2 := by
        have : Continuous fun U : Matrix (Fin p) (Fin p) 𝕜 => Uᴴ *ᵥ sample X i := by fun_prop
        exact ((continuous_apply _).comp this).norm.pow 2
      have hlt : c < ‖(U₀ᴴ *ᵥ sample X i) (κ i)‖ ^ 2 := by
        have := hc' i (by positivity)
        linarith
      filter_upwards [(hcont.tendsto U₀).eventually_const_lt hlt] with U hU _ using hU.le
  · intro t hm h0 hz k
    set a : Fin p → ℝ := fun k =>
      (nu + p) * (Finset.univ.filter fun i => sample X i ≠ 0 ∧ κ i = k).card - N with ha
    have hsum : ∀ s : Fin p → ℝ, ∑ k, ((Finset.univ.filter fun i => sample X i ≠ 0 ∧ κ i = k).card : ℝ)
        * s k = ∑ i, if sample X i = 0 then 0 else s (κ i) := fun s => by
      have : ∀ k, ((Finset.univ.filter fun i => sample X i ≠ 0 ∧ κ i = k).card : ℝ) * s k =
          ∑ i, if sample X i ≠ 0 ∧ κ i = k then s k else 0 := fun k => by
        rw [← Finset.sum_filter, Finset.sum_const, nsmul_eq_mul]
      simp only [this]
      rw [Finset.sum_comm]
      apply Finset.sum_congr rfl; intro i _
      by_cases hx : sample X i = 0 <;> simp [hx]
    have htail : ∀ j : Fin p, (∑ k, if j ≤ k then a k else 0) =
        N * (nu + j) - (nu + p) * samplesIn X (flagSpace U₀ j) := by
      intro j
      have e1 : (∑ k, if j ≤ k then a k else 0) = (nu + p) *
          (∑ k, ((Finset.univ.filter fun i => sample X i ≠ 0 ∧ κ i = k).card : ℝ) *
            (if j ≤ k then 1 else 0)) - N * ∑ k : Fin p, if j ≤ k then 1 else 0 := by
        rw [Finset.mul_sum, Finset.mul_sum, ← Finset.sum_sub_distrib]
        apply Finset.sum_congr rfl; intro k _
        simp only [ha]
        split_ifs <;> ring
      have e2 : (∑ k : Fin p, if j ≤ k then (1 : ℝ) else 0) = p - j := by
        rw [Finset.sum_boole]
        have : (Finset.univ.filter fun k => j ≤ k) = Finset.Ici j := by ext; simp
        rw [this, Fin.card_Ici, Nat.cast_sub j.2.le]
      have e3 : (∑ i, if sample X i = 0 then (0 : ℝ) else (if j ≤ κ i then 1 else 0)) =
          N - samplesIn X (flagSpace U₀ j) := by
        have e4 : ∀ i, (if sample X i = 0 then (0 : ℝ) else (if j ≤ κ i then 1 else 0)) =
            1 - if sample X i ∈ flagSpace U₀ j then 1 else 0 := fun i => by
          by_cases hx : sample X i = 0
          · simp [hx]
          · have := h2 i j
            by_cases hj : j ≤ κ i
            · simp [hx, hj, this, not_lt.2 hj]
            · simp [hx, hj, this, not_le.1 hj]
        simp only [e4]
        rw [Finset.sum_sub_distrib, Finset.sum_boole, samplesIn_eq]
        simp
      rw [e1, e2, hsum, e3]
      ring
    have hb := tail_bound t a hm h0 he.le (fun j => ?_) k
    · have e5 : ∑ k, a k * t k = (nu + p) * (∑ i, if sample X i = 0 then 0 else t (κ i)) -
          N * ∑ k, t k := by
        rw [← hsum t, Finset.mul_sum, Finset.mul_sum, ← Finset.sum_sub_distrib]
        apply Finset.sum_congr rfl; intro k _
        simp only [ha]; ring
      rw [e5] at hb
      linarith
    · rcases H j with ⟨h, h'⟩ | h
      · right
        have : j = ⟨0, hp⟩ := Fin.ext h'
        exact ⟨h', this ▸ hz h⟩
      · left
        rw [htail]
        exact he' j (by linarith)

/-- A local lower bound over the bases extends to all of them. -/
theorem unitary_uniform (F : Matrix (Fin p) (Fin p) 𝕜 → (Fin p → ℝ) → ℝ)
    (D : (Fin p → ℝ) → Fin p → ℝ) (good : (Fin p → ℝ) → Prop)
    (hD : ∀ l, good l → ∀ k, 0 ≤ D l k)
    (hloc : ∀ U₀ : Matrix (Fin p) (Fin p) 𝕜, U₀ᴴ * U₀ = 1 → ∃ C e : ℝ, 0 < e ∧
      ∀ᶠ U in 𝓝 U₀, Uᴴ * U = 1 → ∀ l, good l → ∀ k, C + e * D l k ≤ F U l) :
    ∃ C e : ℝ, 0 < e ∧ ∀ U : Matrix (Fin p) (Fin p) 𝕜, Uᴴ * U = 1 → ∀ l, good l → ∀ k,
      C + e * D l k ≤ F U l := by
  have key := isCompact_unitary (𝕜 := 𝕜) (p := p) |>.induction_on
    (p := fun s => ∃ C e : ℝ, 0 < e ∧ ∀ U ∈ s, Uᴴ * U = 1 → ∀ l, good l → ∀ k,
      C + e * D l k ≤ F U l) ⟨0, 1, one_pos, fun U hU => absurd hU (Set.notMem_empty U)⟩
    (fun s t hst ⟨C, e, he, h⟩ => ⟨C, e, he, fun U hU => h U (hst hU)⟩)
    (fun s t ⟨C, e, he, h⟩ ⟨C', e', he', h'⟩ => ⟨min C C', min e e', lt_min he he', ?_⟩)
    (fun U₀ hU₀ => ?_)
  · obtain ⟨C, e, he, h⟩ := key
    exact ⟨C, e, he, fun U hU => h U hU hU⟩
  · intro U hU hUU l hl k
    have hd := hD l hl k
    rcases hU with hU | hU
    · have := h U hU hUU l hl k
      have h1 := mul_le_mul_of_nonneg_right (min_le_left e e') hd
      have h2 := min_le_left C C'
      linarith
    · have := h' U hU hUU l hl k
      have h1 := mul_le_mul_of_nonneg_right (min_le_right e e') hd
      have h2 := min_le_right C C'
      linarith
  · obtain ⟨C, e, he, h⟩ := hloc U₀ hU₀
    exact ⟨_, mem_nhdsWithin_of_mem_nhds h, C, e, he, fun U hU => hU⟩

theorem qf_ge_coord {U : Matrix (Fin p) (Fin p) 𝕜} {l : Fin p → ℝ} (hU : Uᴴ * U = 1)
    (hl : ∀ j, 0 < l j) (x : Fin p → 𝕜) {k : Fin p} {c : ℝ} (hc : c ≤ ‖(Uᴴ *ᵥ x) k‖ ^ 2) :
    c / l k ≤ qf (U * diagonal (fun j => (l j : 𝕜)) * Uᴴ) x := by
  rw [eigen_qf hU hl]
  calc c / l k ≤ ‖(Uᴴ *ᵥ x) k‖ ^ 2 / l k := div_le_div_of_nonneg_right hc (hl k).le
    _ ≤ _ := Finset.single_le_sum (f := fun j => ‖(Uᴴ *ᵥ x) j‖ ^ 2 / l j)
      (fun j _ => div_nonneg (sq_nonneg _) (hl j).le) (Finset.mem_univ k)

/-- The Tyler cost grows with the condition number. -/
theorem tyler_coercive (hp : 0 < p) (X : Matrix (Fin N) (Fin p) 𝕜) (hn : NonzeroSamples X)
    (H : ∀ V : Submodule 𝕜 (Fin p → 𝕜), V ≠ ⊥ → V ≠ ⊤ →
      p * samplesIn X V < N * Module.finrank 𝕜 V) :
    ∃ C e : ℝ, 0 < e ∧ ∀ U : Matrix (Fin p) (Fin p) 𝕜, Uᴴ * U = 1 → ∀ l : Fin p → ℝ,
      ((∀ j, 0 < l j) ∧ Antitone l) → ∀ k, C + e * (Real.log (l ⟨0, hp⟩) - Real.log (l k)) ≤
        studentCost 0 X (U * diagonal (fun j => (l j : 𝕜)) * Uᴴ) := by
  classical
  refine unitary_uniform _ (fun l k => Real.log (l ⟨0, hp⟩) - Real.log (l k))
    (fun l => (∀ j, 0 < l j) ∧ Antitone l) ?_ ?_
  · rintro l ⟨hl, hm⟩ k
    have := Real.log_le_log (hl k) (hm (show (⟨0, hp⟩ : Fin p) ≤ k from Nat.zero_le _))
    linarith
  · intro U₀ hU₀
    obtain ⟨κ, c, e, hc, he, hev, hb⟩ := local_slope (nu := 0) hp X U₀ hU₀ fun j => by
      by_cases hj : (j : ℕ) = 0
      · exact Or.inl ⟨rfl, hj⟩
      · right
        have h1 := H _ (flagSpace_ne_bot hU₀ hj) (flagSpace_ne_top hU₀ j)
        have h2 : p * samplesIn X (flagSpace U₀ j) < N * j :=
          h1.trans_le (Nat.mul_le_mul_left N (flagSpace_finrank hU₀ j))
        have h3 : (p : ℝ) * samplesIn X (flagSpace U₀ j) < N * j := by exact_mod_cast h2
        linarith
    refine ⟨p * N * Real.log c, e, he, ?_⟩
    filter_upwards [hev] with U hU hUU l ⟨hl, hm⟩ k
    have hlog : ∀ a b : Fin p, a ≤ b → Real.log (l b) ≤ Real.log (l a) := fun a b hab =>
      Real.log_le_log (hl b) (hm hab)
    have h1 := hb (fun k => Real.log (l ⟨0, hp⟩) - Real.log (l k))
      (fun a b hab => by have := hlog a b hab; simp only; linarith)
      (fun k => by have := hlog ⟨0, hp⟩ k (Nat.zero_le _); linarith)
      (fun _ => by simp) k
    have h2 : ∀ i, Real.log c - Real.log (l (κ i)) ≤
        Real.log (0 + qf (U * diagonal (fun j => (l j : 𝕜)) * Uᴴ) (sample X i)) := fun i => by
      rw [zero_add, ← Real.log_div hc.ne' (hl _).ne']
      exact Real.log_le_log (div_pos hc (hl _)) (qf_ge_coord hUU hl _ (hU i (hn i)))
    have h3 := Finset.sum_le_sum fun i (_ : i ∈ Finset.univ) => h2 i
    unfold studentCost
    rw [eigen_det hUU hl]
    have h4 := mul_le_mul_of_nonneg_left h3 (show (0 : ℝ) ≤ 0 + p by positivity)
    simp only [if_neg (hn _), Finset.sum_sub_distrib, Finset.sum_const, Finset.card_univ,
      Fintype.card_fin, nsmul_eq_mul] at h1 h4
    linarith

/-- The Student cost grows when an eigenvalue goes to zero or infinity. -/
theorem student_coercive {nu : ℝ} (hnu : 0 < nu) (hp : 0 < p) (hN : 0 < N)
    (X : Matrix (Fin N) (Fin p) 𝕜)
    (H : ∀ V : Submodule 𝕜 (Fin p → 𝕜), V ≠ ⊤ →
      (nu + p) * samplesIn X V < N * (nu + Module.finrank 𝕜 V)) :
    ∃ C e : ℝ, 0 < e ∧ ∀ U : Matrix (Fin p) (Fin p) 𝕜, Uᴴ * U = 1 → ∀ l : Fin p → ℝ,
      ((∀ j, 0 < l j) ∧ Antitone l) → ∀ k, C + e * |Real.log (l k)| ≤
        studentCost nu X (U * diagonal (fun j => (l j : 𝕜)) * Uᴴ) := by
  classical
  have hN1 : (1 : ℝ) ≤ N := by exact_mod_cast hN
  refine unitary_uniform _ (fun l k => |Real.log (l k)|)
    (fun l => (∀ j, 0 < l j) ∧ Antitone l) (fun l _ k => abs_nonneg _) ?_
  intro U₀ hU₀
  obtain ⟨κ, c', e', hc', he', hev, hb⟩ := local_slope hp X U₀ hU₀ (nu := nu) fun j => by
    right
    refine (H _ (flagSpace_ne_top hU₀ j)).trans_le ?_
    have h2 : (Module.finrank 𝕜 (flagSpace U₀ j) : ℝ) ≤ j := by
      exact_mod_cast flagSpace_finrank hU₀ j
    have : (0 : ℝ) ≤ N := by linarith
    nlinarith
  obtain ⟨c, hc, hcc, hcn⟩ : ∃ c : ℝ, 0 < c ∧ c ≤ c' ∧ c ≤ nu :=
    ⟨min c' nu, lt_min hc' hnu, min_le_left _ _, min_le_right _ _⟩
  obtain ⟨e, he, hee, he1⟩ : ∃ e : ℝ, 0 < e ∧ e ≤ e' ∧ e ≤ 1 :=
    ⟨min e' 1, lt_min he' one_pos, min_le_left _ _, min_le_right _ _⟩
  refine ⟨(nu + p) * (N * Real.log c), e, he, ?_⟩
  filter_upwards [hev] with U hU hUU l ⟨hl, hm⟩ k
  have hlog : ∀ a b : Fin p, a ≤ b → Real.log (l b) ≤ Real.log (l a) := fun a b hab =>
    Real.log_le_log (hl b) (hm hab)
  have h1 := hb (fun k => max 0 (-Real.log (l k)))
    (fun a b hab => max_le_max_left _ (neg_le_neg (hlog a b hab)))
    (fun k => le_max_left _ _) (fun h => absurd h hnu.ne') k
  have h2 : ∀ i, Real.log c + (if sample X i = 0 then 0 else max 0 (-Real.log (l (κ i)))) ≤
      Real.log (nu + qf (U * diagonal (fun j => (l j : 𝕜)) * Uᴴ) (sample X i)) := fun i => by
    have hq0 : 0 ≤ qf (U * diagonal (fun j => (l j : 𝕜)) * Uᴴ) (sample X i) := by
      rw [eigen_qf hUU hl]
      exact Finset.sum_nonneg fun j _ => div_nonneg (sq_nonneg _) (hl j).le
    have hA : Real.log c ≤
        Real.log (nu + qf (U * diagonal (fun j => (l j : 𝕜)) * Uᴴ) (sample X i)) :=
      Real.log_le_log hc (by linarith)
    split_ifs with hx
    · linarith
    · have hq := qf_ge_coord hUU hl _ (hcc.trans (hU i hx))
      have hB : Real.log c + -Real.log (l (κ i)) ≤
          Real.log (nu + qf (U * diagonal (fun j => (l j : 𝕜)) * Uᴴ) (sample X i)) := by
        rw [← sub_eq_add_neg, ← Real.log_div hc.ne' (hl _).ne']
        exact Real.log_le_log (div_pos hc (hl _)) (by linarith)
      rcases max_choice 0 (-Real.log (l (κ i))) with h | h <;> rw [h] <;> linarith
  have h3 := Finset.sum_le_sum fun i (_ : i ∈ Finset.univ) => h2 i
  unfold studentCost
  rw [eigen_det hUU hl]
  have h4 := mul_le_mul_of_nonneg_left h3 (show (0 : ℝ) ≤ nu + p by positivity)
  rw [Finset.sum_add_distrib, Finset.sum_const, Finset.card_univ, Fintype.card_fin,
    nsmul_eq_mul, mul_add] at h4
  have h5 : ∀ k, Real.log (l k) = max 0 (Real.log (l k)) - max 0 (-Real.log (l k)) := fun k => by
    rcases le_total 0 (Real.log (l k)) with h | h
    · rw [max_eq_right h, max_eq_left (by linarith), sub_zero]
    · rw [max_eq_left h, max_eq_right (by linarith)]; ring
  have h6 : |Real.log (l k)| = max 0 (Real.log (l k)) + max 0 (-Real.log (l k)) := by
    rcases le_total 0 (Real.log (l k)) with h | h
    · rw [max_eq_right h, max_eq_left (by linarith), add_zero, abs_of_nonneg h]
    · rw [max_eq_left h, max_eq_right (by linarith), abs_of_nonpos h, zero_add]
  have h7 : max 0 (Real.log (l k)) ≤ ∑ k, max 0 (Real.log (l k)) :=
    Finset.single_le_sum (f := fun k => max 0 (Real.log (l k))) (fun _ _ => le_max_left _ _)
      (Finset.mem_univ k)
  have h8 : ∑ k, Real.log (l k) = ∑ k, max 0 (Real.log (l k)) - ∑ k, max 0 (-Real.log (l k)) := by
    rw [← Finset.sum_sub_distrib]
    exact Finset.sum_congr rfl fun k _ => h5 k
  have h9 : (0 : ℝ) ≤ max 0 (Real.log (l k)) := le_max_left _ _
  have h10 : (0 : ℝ) ≤ max 0 (-Real.log (l k)) := le_max_left _ _
  have h11 : e * max 0 (Real.log (l k)) ≤ N * ∑ k, max 0 (Real.log (l k)) := by
    calc e * max 0 (Real.log (l k)) ≤ 1 * max 0 (Real.log (l k)) :=
          mul_le_mul_of_nonneg_right he1 h9
      _ ≤ N * max 0 (Real.log (l k)) := mul_le_mul_of_nonneg_right hN1 h9
      _ ≤ _ := mul_le_mul_of_nonneg_left h7 (by linarith)
  have h12 := mul_le_mul_of_nonneg_right hee h10
  rw [h8, h6, mul_sub, mul_add]
  linarith

/-! ### Existence -/

/-- A bounded-below continuous cost reaches its infimum between two multiples of the identity. -/
theorem exists_min_between {nu : ℝ} (X : Matrix (Fin N) (Fin p) 𝕜) {a b C : ℝ} (ha : 0 < a)
    (hab : a ≤ b)
    (hpos : ∀ S : Matrix (Fin p) (Fin p) 𝕜, S.PosDef → ∀ i, 0 < nu + qf S (sample X i))
    (hC : ∀ S : Matrix (Fin p) (Fin p) 𝕜, S.PosDef → C ≤ studentCost nu X S) :
    ∃ S : Matrix (Fin p) (Fin p) 𝕜, S.PosDef ∧ ∀ T : Matrix (Fin p) (Fin p) 𝕜,
      Loewner ((a : 𝕜) • 1) T → Loewner T ((b : 𝕜) • 1) → studentCost nu X S ≤ studentCost nu X T := by
  have hone : ((a : 𝕜) • (1 : Matrix (Fin p) (Fin p) 𝕜)).PosDef :=
    PosDef.one.smul (by exact_mod_cast ha)
  set K : Set (Matrix (Fin p) (Fin p) 𝕜) :=
    {T | Loewner ((a : 𝕜) • 1) T ∧ Loewner T ((b : 𝕜) • 1)} with hK
  have hne : (studentCost nu X '' K).Nonempty :=
    ⟨_, _, ⟨Loewner.refl _, loewner_smul_le PosSemidef.one hab⟩, rfl⟩
  have hbdd : BddBelow (studentCost nu X '' K) := ⟨C, by
    rintro _ ⟨T, hT, rfl⟩
    exact hC T (hT.1.posDef hone)⟩
  obtain ⟨u, -, hu, huK⟩ := exists_seq_tendsto_sInf hne hbdd
  choose T hT hTu using huK
  have hTb : ∀ k, frob (T k) ≤ RCLike.re ((b : 𝕜) • (1 : Matrix (Fin p) (Fin p) 𝕜)).trace := fun k => by
    have hps := (hT k).2
    refine (frob_le_trace ((hT k).1.posDef hone).posSemidef).trans ?_
    have h1 : 0 ≤ RCLike.re (((b : 𝕜) • (1 : Matrix (Fin p) (Fin p) 𝕜)) - T k).trace :=
      (RCLike.nonneg_iff.1 (PosSemidef.trace_nonneg hps)).1
    rw [trace_sub, map_sub] at h1
    linarith
  obtain ⟨S, f, hf, hlim⟩ := bounded_subseq hTb
  have hS1 : Loewner ((a : 𝕜) • 1) S :=
    Loewner.of_tendsto tendsto_const_nhds hlim fun k => (hT (f k)).1
  have hS := hS1.posDef hone
  have hl1 := tendsto_studentCost X hlim hS (hpos S hS)
  have hl2 : Tendsto (fun k => studentCost nu X ((T ∘ f) k)) atTop
      (𝓝 (sInf (studentCost nu X '' K))) := by
    have : (fun k => studentCost nu X ((T ∘ f) k)) = u ∘ f := funext fun k => hTu (f k)
    rw [this]
    exact hu.comp hf.tendsto_atTop
  have heq := tendsto_nhds_unique hl1 hl2
  refine ⟨S, hS, fun Q h1 h2 => ?_⟩
  rw [heq]
  exact csInf_le hbdd ⟨Q, ⟨h1, h2⟩, rfl⟩

theorem loewner_eigen_le {U : Matrix (Fin p) (Fin p) 𝕜} {l : Fin p → ℝ} (hU : Uᴴ * U = 1) {b : ℝ}
    (h : ∀ j, l j ≤ b) : Loewner (U * diagonal (fun j => (l j : 𝕜)) * Uᴴ) ((b : 𝕜) • 1) := by
  have h1 := (loewner_diagonal (𝕜 := 𝕜) (l := l) (m := fun _ => b)).2 h
  have h2 := h1.congr U
  rwa [show (diagonal fun _ => (b : 𝕜)) = (b : 𝕜) • (1 : Matrix (Fin p) (Fin p) 𝕜) by
    rw [smul_one_eq_diagonal], Matrix.mul_smul, Matrix.smul_mul, Matrix.mul_one,
    mul_eq_one_comm.1 hU] at h2

theorem loewner_le_eigen {U : Matrix (Fin p) (Fin p) 𝕜} {l : Fin p → ℝ} (hU : Uᴴ * U = 1) {b : ℝ}
    (h : ∀ j, b ≤ l j) : Loewner ((b : 𝕜) • 1) (U * diagonal (fun j => (l j : 𝕜)) * Uᴴ) := by
  have h1 := (loewner_diagonal (𝕜 := 𝕜) (m := l) (l := fun _ => b)).2 h
  have h2 := h1.congr U
  rwa [show (diagonal fun _ => (b : 𝕜)) = (b : 𝕜) • (1 : Matrix (Fin p) (Fin p) 𝕜) by
    rw [smul_one_eq_diagonal], Matrix.mul_smul, Matrix.smul_mul, Matrix.mul_one,
    mul_eq_one_comm.1 hU] at h2

theorem loewner_one_between {R : ℝ} (hR : 0 ≤ R) :
    Loewner (((Real.exp (-R) : ℝ) : 𝕜) • (1 : Matrix (Fin p) (Fin p) 𝕜)) 1 ∧
    Loewner 1 (((Real.exp R : ℝ) : 𝕜) • (1 : Matrix (Fin p) (Fin p) 𝕜)) := by
  have h1 := loewner_smul_le (𝕜 := 𝕜) (A := (1 : Matrix (Fin p) (Fin p) 𝕜)) PosSemidef.one
    (c := Real.exp (-R)) (d := 1) (by rw [← Real.exp_zero]; exact Real.exp_le_exp.2 (by linarith))
  have h2 := loewner_smul_le (𝕜 := 𝕜) (A := (1 : Matrix (Fin p) (Fin p) 𝕜)) PosSemidef.one
    (c := 1) (d := Real.exp R) (by rw [← Real.exp_zero]; exact Real.exp_le_exp.2 hR)
  rw [RCLike.ofReal_one, one_smul] at h1 h2
  exact ⟨h1, h2⟩

/-- All samples orthogonal to a nonzero vector: they lie in a hyperplane. -/
theorem not_spans_hyperplane {X : Matrix (Fin N) (Fin p) 𝕜} (h : ¬ Spans X) :
    ∃ V : Submodule 𝕜 (Fin p → 𝕜), V ≠ ⊤ ∧ ∀ i, sample X i ∈ V := by
  unfold Spans at h
  push Not at h
  obtain ⟨v, hv, hne⟩ := h
  refine ⟨{ carrier := {x | star v ⬝ᵥ x = 0}
            add_mem' := fun {x y} hx hy => by
              simp only [Set.mem_ofPred_eq] at hx hy ⊢; rw [dotProduct_add, hx, hy, add_zero]
            zero_mem' := by simp
            smul_mem' := fun c x hx => by
              simp only [Set.mem_ofPred_eq] at hx ⊢; rw [dotProduct_smul, hx, smul_zero] },
    fun htop => ?_, fun i => ?_⟩
  · apply hne
    have : v ∈ (⊤ : Submodule 𝕜 (Fin p → 𝕜)) := trivial
    rw [← htop] at this
    have h1 : star v ⬝ᵥ v = 0 := this
    exact dotProduct_star_self_eq_zero.1 (by rwa [dotProduct_comm] at h1)
  · show star v ⬝ᵥ sample X i = 0
    rw [star_dotProduct, hv i, star_zero]

theorem samplesIn_all {X : Matrix (Fin N) (Fin p) 𝕜} {V : Submodule 𝕜 (Fin p → 𝕜)}
    (h : ∀ i, sample X i ∈ V) : samplesIn X V = N := by
  classical
  rw [samplesIn_eq, Finset.filter_true_of_mem fun i _ => h i, Finset.card_univ, Fintype.card_fin]

theorem samplesIn_le (X : Matrix (Fin N) (Fin p) 𝕜) (V : Submodule 𝕜 (Fin p → 𝕜)) :
    samplesIn X V ≤ N := by
  classical
  rw [samplesIn_eq]
  exact (Finset.card_filter_le _ _).trans (by rw [Finset.card_univ, Fintype.card_fin])

theorem finrank_le_p (V : Submodule 𝕜 (Fin p → 𝕜)) : Module.finrank 𝕜 V ≤ p := by
  have := Submodule.finrank_le V
  rwa [Module.finrank_fin_fun] at this

theorem finrank_lt_p {V : Submodule 𝕜 (Fin p → 𝕜)} (h : V ≠ ⊤) : Module.finrank 𝕜 V < p := by
  have := Submodule.finrank_lt h
  rwa [Module.finrank_fin_fun] at this

theorem student_spans {nu : ℝ} (X : Matrix (Fin N) (Fin p) 𝕜)
    (H : ∀ V : Submodule 𝕜 (Fin p → 𝕜), V ≠ ⊤ →
      (nu + p) * samplesIn X V < N * (nu + Module.finrank 𝕜 V)) : Spans X := by
  by_contra hX
  obtain ⟨V, hV, hall⟩ := not_spans_hyperplane hX
  have h1 := H V hV
  rw [samplesIn_all hall] at h1
  have h2 : (Module.finrank 𝕜 V : ℝ) ≤ p := by exact_mod_cast finrank_le_p V
  have h3 : (0 : ℝ) ≤ N := Nat.cast_nonneg _
  nlinarith

theorem tyler_spans (hN : 0 < N) (X : Matrix (Fin N) (Fin p) 𝕜) (hn : NonzeroSamples X)
    (H : ∀ V : Submodule 𝕜 (Fin p → 𝕜), V ≠ ⊥ → V ≠ ⊤ →
      p * samplesIn X V < N * Module.finrank 𝕜 V) : Spans X := by
  by_contra hX
  obtain ⟨V, hV, hall⟩ := not_spans_hyperplane hX
  have h0 : V ≠ ⊥ := fun h => by
    have := hall ⟨0, hN⟩
    rw [h, Submodule.mem_bot] at this
    exact hn _ this
  have h1 := H V h0 hV
  rw [samplesIn_all hall, mul_comm] at h1
  exact absurd (Nat.lt_of_mul_lt_mul_left h1) (not_lt.2 (finrank_le_p V))

theorem student_exists {nu : ℝ} (hnu : 0 < nu) (hp : 0 < p) (X : Matrix (Fin N) (Fin p) 𝕜)
    (H : ∀ V : Submodule 𝕜 (Fin p → 𝕜), V ≠ ⊤ →
      (nu + p) * samplesIn X V < N * (nu + Module.finrank 𝕜 V)) :
    ∃ S : Matrix (Fin p) (Fin p) 𝕜, S.PosDef ∧ mStep (wStudent nu p) X S = S := by
  have hX := student_spans X H
  have hN := nat_pos_of_spans hp hX
  obtain ⟨C, e, he, hb⟩ := student_coercive hnu hp hN X H
  have hpos : ∀ S : Matrix (Fin p) (Fin p) 𝕜, S.PosDef → ∀ i, 0 < nu + qf S (sample X i) :=
    fun S hS i => by linarith [qf_nonneg hS (sample X i)]
  have hC : ∀ S : Matrix (Fin p) (Fin p) 𝕜, S.PosDef → C ≤ studentCost nu X S := fun S hS => by
    obtain ⟨U, l, hU, hl, hm, h⟩ := spectral_sorted hS
    have := hb U hU l ⟨hl, hm⟩ ⟨0, hp⟩
    rw [← h] at this
    have h2 : 0 ≤ e * |Real.log (l ⟨0, hp⟩)| := mul_nonneg he.le (abs_nonneg _)
    linarith
  set R : ℝ := (studentCost nu X (1 : Matrix (Fin p) (Fin p) 𝕜) - C) / e with hRdef
  have hR : 0 ≤ R := div_nonneg (by linarith [hC 1 PosDef.one]) he.le
  obtain ⟨S, hS, hmin⟩ := exists_min_between X (Real.exp_pos (-R))
    (Real.exp_le_exp.2 (by linarith : -R ≤ R)) hpos hC
  have hone := loewner_one_between (𝕜 := 𝕜) (p := p) hR
  have hglob : ∀ T : Matrix (Fin p) (Fin p) 𝕜, T.PosDef →
      studentCost nu X S ≤ studentCost nu X T := by
    intro T hT
    rcases le_total (studentCost nu X T) (studentCost nu X (1 : Matrix (Fin p) (Fin p) 𝕜)) with h | h
    · obtain ⟨U, l, hU, hl, hm, hTe⟩ := spectral_sorted hT
      have hk : ∀ k, |Real.log (l k)| ≤ R := fun k => by
        have := hb U hU l ⟨hl, hm⟩ k
        rw [← hTe] at this
        rw [hRdef, le_div_iff₀ he]
        linarith
      have h1 : ∀ k, Real.exp (-R) ≤ l k := fun k =>
        (Real.le_log_iff_exp_le (hl k)).1 (abs_le.1 (hk k)).1
      have h2 : ∀ k, l k ≤ Real.exp R := fun k =>
        (Real.log_le_iff_le_exp (hl k)).1 (abs_le.1 (hk k)).2
      refine hmin T ?_ ?_ <;> rw [hTe]
      · exact loewner_le_eigen hU h1
      · exact loewner_eigen_le hU h2
    · exact (hmin 1 hone.1 hone.2).trans h
  refine ⟨S, hS, student_step_eq hnu.le hN hp X hX hpos S hS (hglob _ ?_)⟩
  exact mStep_posDef _ X hX S fun i => div_pos (by positivity) (hpos S hS i)

theorem tyler_exists (hp : 0 < p) (hN : 0 < N) (X : Matrix (Fin N) (Fin p) 𝕜)
    (hn : NonzeroSamples X)
    (H : ∀ V : Submodule 𝕜 (Fin p → 𝕜), V ≠ ⊥ → V ≠ ⊤ →
      p * samplesIn X V < N * Module.finrank 𝕜 V) :
    ∃ S : Matrix (Fin p) (Fin p) 𝕜, S.PosDef ∧ mStep (wTyler p) X S = S := by
  have hX := tyler_spans hN X hn H
  obtain ⟨C, e, he, hb⟩ := tyler_coercive hp X hn H
  have hpos : ∀ S : Matrix (Fin p) (Fin p) 𝕜, S.PosDef → ∀ i, 0 < 0 + qf S (sample X i) :=
    fun S hS i => by rw [zero_add]; exact qf_pos hS (hn i)
  have hC : ∀ S : Matrix (Fin p) (Fin p) 𝕜, S.PosDef → C ≤ studentCost 0 X S := fun S hS => by
    obtain ⟨U, l, hU, hl, hm, h⟩ := spectral_sorted hS
    have := hb U hU l ⟨hl, hm⟩ ⟨0, hp⟩
    rw [← h, sub_self, mul_zero, add_zero] at this
    exact this
  set R : ℝ := (studentCost 0 X (1 : Matrix (Fin p) (Fin p) 𝕜) - C) / e with hRdef
  have hR : 0 ≤ R := div_nonneg (by linarith [hC 1 PosDef.one]) he.le
  obtain ⟨S, hS, hmin⟩ := exists_min_between X (Real.exp_pos (-R))
    (Real.exp_le_exp.2 (by linarith : -R ≤ R)) hpos hC
  have hone := loewner_one_between (𝕜 := 𝕜) (p := p) hR
  have hglob : ∀ T : Matrix (Fin p) (Fin p) 𝕜, T.PosDef →
      studentCost 0 X S ≤ studentCost 0 X T := by
    intro T hT
    rcases le_total (studentCost 0 X T) (studentCost 0 X (1 : Matrix (Fin p) (Fin p) 𝕜)) with h | h
    · obtain ⟨U, l, hU, hl, hm, hTe⟩ := spectral_sorted hT
      have hk : ∀ k, Real.log (l ⟨0, hp⟩) - Real.log (l k) ≤ R := fun k => by
        have := hb U hU l ⟨hl, hm⟩ k
        rw [← hTe] at this
        rw [hRdef, le_div_iff₀ he]
        linarith
      set c : ℝ := (l ⟨0, hp⟩)⁻¹ with hc
      have hc0 : 0 < c := inv_pos.2 (hl _)
      have hTc : (c : 𝕜) • T = U * diagonal (fun j => ((c * l j : ℝ) : 𝕜)) * Uᴴ := by
        rw [hTe, ← Matrix.smul_mul, ← Matrix.mul_smul, ← diagonal_smul]
        congr 3
        funext j
        simp
      have hlog : ∀ k, Real.log (c * l k) = -(Real.log (l ⟨0, hp⟩) - Real.log (l k)) := fun k => by
        rw [Real.log_mul hc0.ne' (hl k).ne', hc, Real.log_inv]; ring
      have hcl : ∀ k, 0 < c * l k := fun k => mul_pos hc0 (hl k)
      have h1 : ∀ k, Real.exp (-R) ≤ c * l k := fun k =>
        (Real.le_log_iff_exp_le (hcl k)).1 (by rw [hlog]; linarith [hk k])
      have h2 : ∀ k, c * l k ≤ Real.exp R := fun k =>
        (Real.log_le_iff_le_exp (hcl k)).1 (by
          rw [hlog]
          have := Real.log_le_log (hl k) (hm (show (⟨0, hp⟩ : Fin p) ≤ k from Nat.zero_le _))
          linarith)
      have h3 := hmin ((c : 𝕜) • T) (by rw [hTc]; exact loewner_le_eigen hU h1)
        (by rw [hTc]; exact loewner_eigen_le hU h2)
      rw [← tylerCost_eq, ← tylerCost_eq, tylerCost_smul hn hT hc0] at h3
      rwa [← tylerCost_eq, ← tylerCost_eq]
    · exact (hmin 1 hone.1 hone.2).trans h
  rw [wTyler_eq]
  refine ⟨S, hS, student_step_eq le_rfl hN hp X hX hpos S hS (hglob _ ?_)⟩
  have hp' : (0 : ℝ) < p := by exact_mod_cast hp
  exact mStep_posDef _ X hX S fun i => div_pos (by linarith) (hpos S hS i)

end
end RS
