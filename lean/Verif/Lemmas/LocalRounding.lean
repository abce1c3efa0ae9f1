import Verif.Lemmas.Rounding

/-
An iteration that converges, contracts near its limits in some measure of deviation, and is computed
with errors: finitely many passes follow the exact iteration, afterwards the contraction absorbs the
errors.
-/
set_option autoImplicit false

namespace RS
open Matrix ComplexOrder Filter Topology

section
variable {𝕜 : Type} [RCLike 𝕜] {N p : ℕ}

/-- Continuity along sequences, in terms of the Frobenius norm. -/
theorem frob_cont {F : Matrix (Fin p) (Fin p) 𝕜 → ℝ} {A : Matrix (Fin p) (Fin p) 𝕜}
    (h : ∀ T : ℕ → Matrix (Fin p) (Fin p) 𝕜, Tendsto T atTop (𝓝 A) →
      Tendsto (fun n => F (T n)) atTop (𝓝 0)) {ε : ℝ} (hε : 0 < ε) :
    ∃ η : ℝ, 0 < η ∧ ∀ B, frob (B - A) < η → F B < ε := by
  by_contra hcon
  push Not at hcon
  have h1 : ∀ n : ℕ, ∃ B, frob (B - A) < 1 / ((n : ℝ) + 1) ∧ ε ≤ F B := fun n =>
    hcon _ (by positivity)
  choose T hT using h1
  have h2 : Tendsto T atTop (𝓝 A) := tendsto_of_frob (squeeze_zero (fun n => frob_nonneg _)
    (fun n => (hT n).1.le) tendsto_one_div_add_atTop_nhds_zero_nat)
  exact absurd hε (not_lt.2 (ge_of_tendsto' (h T h2) fun n => (hT n).2))

/-- The exact and the computed iteration. -/
structure FlSeq (step : Matrix (Fin p) (Fin p) 𝕜 → Matrix (Fin p) (Fin p) 𝕜)
    (init : Matrix (Fin p) (Fin p) 𝕜) (u : ℝ) (A : ℕ → Matrix (Fin p) (Fin p) 𝕜) : Prop where
  herm : ∀ k, (A k).IsHermitian
  start : frob (A 0 - init) ≤ u * frob init
  step : ∀ k, frob (A (k + 1) - step (A k)) ≤ u * frob (step (A k))

/-- Finitely many passes follow the exact iteration. -/
theorem fl_finite {step : Matrix (Fin p) (Fin p) 𝕜 → Matrix (Fin p) (Fin p) 𝕜}
    {E : ℕ → Matrix (Fin p) (Fin p) 𝕜} (hE : ∀ k, E (k + 1) = step (E k))
    (hcont : ∀ k (T : ℕ → Matrix (Fin p) (Fin p) 𝕜), Tendsto T atTop (𝓝 (E k)) →
      Tendsto (fun n => step (T n)) atTop (𝓝 (step (E k)))) (k : ℕ) {ε : ℝ} (hε : 0 < ε) :
    ∃ u0 : ℝ, 0 < u0 ∧ ∀ u A, 0 ≤ u → u ≤ u0 → FlSeq step (E 0) u A → frob (A k - E k) < ε := by
  induction k generalizing ε with
  | zero =>
    have h0 := frob_nonneg (E 0)
    refine ⟨ε / (2 * (frob (E 0) + 1)), by positivity, fun u A hu huu h => h.start.trans_lt ?_⟩
    rw [le_div_iff₀ (by positivity)] at huu
    nlinarith
  | succ k ih =>
    have hF : ∀ T : ℕ → Matrix (Fin p) (Fin p) 𝕜, Tendsto T atTop (𝓝 (E k)) →
        Tendsto (fun n => frob (step (T n) - step (E k))) atTop (𝓝 0) := fun T hT =>
      frob_of_tendsto (hcont k T hT)
    obtain ⟨η, hη, hη'⟩ := frob_cont (F := fun B => frob (step B - step (E k))) hF
      (lt_min (half_pos hε) one_pos)
    obtain ⟨u0, hu0, h0⟩ := ih hη
    have hs := frob_nonneg (step (E k))
    refine ⟨min u0 (ε / (2 * (frob (step (E k)) + 1))), lt_min hu0 (by positivity),
      fun u A hu huu h => ?_⟩
    have h1 := hη' _ (h0 u A hu (huu.trans (min_le_left _ _)) h)
    have h2 := huu.trans (min_le_right _ _)
    rw [le_div_iff₀ (by positivity)] at h2
    have h3 : frob (step (A k)) ≤ frob (step (E k)) + 1 := by
      have e : step (A k) = (step (A k) - step (E k)) + step (E k) := by abel
      rw [e]
      refine (frob_add_le _ _).trans ?_
      linarith [h1.trans_le (min_le_right _ _)]
    have e : A (k + 1) - E (k + 1) = (A (k + 1) - step (A k)) + (step (A k) - step (E k)) := by
      rw [hE]; abel
    rw [e]
    refine (frob_add_le _ _).trans_lt ?_
    have h4 := (h.step k).trans (mul_le_mul_of_nonneg_left h3 hu)
    have h5 : frob (step (A k) - step (E k)) < ε / 2 := h1.trans_le (min_le_left _ _)
    linarith

/-- What is known of the deviation `dev` near the limits of the iteration. -/
structure LocalDev (step : Matrix (Fin p) (Fin p) 𝕜 → Matrix (Fin p) (Fin p) 𝕜)
    (dev : Matrix (Fin p) (Fin p) 𝕜 → ℝ) (δ r c : ℝ) : Prop where
  nonneg : ∀ A, 0 ≤ dev A
  posDef : ∀ A, A.PosDef → (step A).PosDef
  contracts : ∀ A, A.PosDef → dev A ≤ δ → dev (step A) ≤ r * dev A
  moves : ∀ A, A.PosDef → dev A ≤ δ → frob (step A - A) ≤ c * dev A * frob A
  perturb : ∀ A A' u, A.PosDef → dev A ≤ δ → A'.IsHermitian → 0 ≤ u → c * u ≤ 1 →
    frob (A' - A) ≤ u * frob A → A'.PosDef ∧ dev A' ≤ dev A + c * u
  compare : ∀ A A', A.PosDef → A'.PosDef → dev A ≤ δ → dev A' ≤ δ →
    dev A ≤ dev A' + c * (frob (A' - A) / frob A)

/-- Finitely many positive numbers have a positive lower bound. -/
theorem exists_pos_le_range {u : ℕ → ℝ} (K : ℕ) (hu : ∀ k < K, 0 < u k) :
    ∃ m : ℝ, 0 < m ∧ ∀ k < K, m ≤ u k := by
  induction K with
  | zero => exact ⟨1, one_pos, fun k hk => absurd hk (Nat.not_lt_zero k)⟩
  | succ K ih =>
    obtain ⟨m, hm, h⟩ := ih fun k hk => hu k (by omega)
    refine ⟨min m (u K), lt_min hm (hu K (by omega)), fun k hk => ?_⟩
    rcases Nat.lt_succ_iff_lt_or_eq.1 hk with h1 | rfl
    · exact (min_le_left _ _).trans (h k h1)
    · exact min_le_right _ _

theorem posDef_of_near {Q : Matrix (Fin p) (Fin p) 𝕜} (hQ : Q.PosDef) :
    ∃ η : ℝ, 0 < η ∧ ∀ A : Matrix (Fin p) (Fin p) 𝕜, A.IsHermitian → frob (A - Q) < η → A.PosDef := by
  obtain ⟨c, hc, hsq⟩ := squeezed_of_frob hQ
  refine ⟨1 / (2 * c), by positivity, fun A hA hf => ?_⟩
  have h1 := (hsq Q (A - Q) (hA.sub hQ.1)).1
  rw [add_sub_cancel] at h1
  have h2 : Loewner (((1 - c * frob (A - Q) : ℝ) : 𝕜) • Q) A := by
    rw [RCLike.ofReal_sub, sub_smul, RCLike.ofReal_one, one_smul]
    exact h1
  refine h2.posDef (hQ.smul ?_)
  rw [lt_div_iff₀ (by positivity)] at hf
  exact_mod_cast (by linarith : 0 < 1 - c * frob (A - Q))

set_option maxHeartbeats 400000 in
/-- The computed iteration: finitely many passes follow the exact one, the later ones stay in the region
of contraction. -/
theorem fl_local (hp : 0 < p) {step : Matrix (Fin p) (Fin p) 𝕜 → Matrix (Fin p) (Fin p) 𝕜}
    {dev : Matrix (Fin p) (Fin p) 𝕜 → ℝ} {δ r c : ℝ} (hδ : 0 < δ) (hr0 : 0 < r) (hr1 : r < 1)
    (hc : 0 ≤ c) (hL : LocalDev step dev δ r c) {E : ℕ → Matrix (Fin p) (Fin p) 𝕜}
    (hE : ∀ k, E (k + 1) = step (E k)) (hEP : ∀ k, (E k).PosDef)
    (hcont : ∀ k (T : ℕ → Matrix (Fin p) (Fin p) 𝕜), Tendsto T atTop (𝓝 (E k)) →
      Tendsto (fun n => step (T n)) atTop (𝓝 (step (E k))))
    (hdev : ∀ k (T : ℕ → Matrix (Fin p) (Fin p) 𝕜), Tendsto T atTop (𝓝 (E k)) →
      Tendsto (fun n => dev (T n)) atTop (𝓝 (dev (E k))))
    (hlim : Tendsto (fun k => dev (E k)) atTop (𝓝 0))
    (hstat : ∀ k, E (k + 1) = E k → dev (E k) = 0) :
    ∃ K : ℕ, ∀ ε : ℕ → ℝ, (∀ k, 0 < ε k) → ∃ C m u0 : ℝ, 0 ≤ C ∧ 0 < m ∧ 0 < u0 ∧
      ∀ u A, 0 ≤ u → u ≤ u0 → FlSeq step (E 0) u A → ∀ k, (A k).PosDef ∧
        frob (A (k + 1) - A k) / frob (A k) ≤ C * (r ^ k + u) ∧
        (k < K → frob (A k - E k) < ε k ∧ m ≤ frob (A (k + 1) - A k) / frob (A k)) ∧
        (K ≤ k → dev (A k) ≤ δ ∧ dev (A k) ≤ C * (r ^ k + u) ∧
          dev (A k) ≤ C * (frob (A (k + 1) - A k) / frob (A k) + u)) := by
  classical
  have hex : ∃ k, dev (E k) < δ / 2 := (hlim.eventually (gt_mem_nhds (half_pos hδ))).exists
  obtain ⟨K, hK1, hK2⟩ : ∃ K, dev (E K) < δ / 2 ∧ ∀ k < K, δ / 2 ≤ dev (E k) :=
    ⟨Nat.find hex, Nat.find_spec hex, fun k hk => not_lt.1 (Nat.find_min hex hk)⟩
  refine ⟨K, fun ε hε => ?_⟩
  have hg : ∀ k < K, 0 < frob (E (k + 1) - E k) := fun k hk => by
    refine (frob_nonneg _).lt_of_ne fun h => ?_
    have := hstat k (sub_eq_zero.1 ((frob_eq_zero _).1 h.symm))
    linarith [hK2 k hk]
  obtain ⟨g, hg0, hg'⟩ := exists_pos_le_range K hg
  obtain ⟨F, hF0, hF⟩ := exists_pos_le_range (K + 1) fun k _ => frob_pos hp (hEP k)
  obtain ⟨M, hM0, hM'⟩ : ∃ M, 0 ≤ M ∧ ∀ k ≤ K, frob (E k) ≤ M :=
    ⟨∑ k ∈ Finset.range (K + 1), frob (E k), Finset.sum_nonneg fun k _ => frob_nonneg _,
      fun k hk => Finset.single_le_sum (f := fun k => frob (E k)) (fun k _ => frob_nonneg _)
        (Finset.mem_range.2 (by omega))⟩
  choose η hη0 hη using fun k => posDef_of_near (hEP k)
  obtain ⟨θ, hθ0, hθ⟩ := frob_cont (F := fun B => |dev B - dev (E K)|) (A := E K) (fun T hT => by
    have := ((hdev K T hT).sub_const (dev (E K))).abs
    simpa using this) (show 0 < δ / 4 by linarith)
  set ζ : ℕ → ℝ := fun k => min (ε k) (min (η k) (min (min (F / 2) (g / 4)) (min 1 θ))) with hζ
  have hζ0 : ∀ k, 0 < ζ k := fun k => lt_min (hε k) (lt_min (hη0 k) (lt_min (lt_min (by linarith)
    (by linarith)) (lt_min one_pos hθ0)))
  choose v hv0 hv using fun k => fl_finite hE hcont k (hζ0 k)
  obtain ⟨v0, hv00, hv0'⟩ := exists_pos_le_range (K + 1) fun k _ => hv0 k
  have hr' : 0 < 1 - r := by linarith
  obtain ⟨D, hD⟩ : ∃ D, D = (2 * M + 2) / (F / 2) := ⟨_, rfl⟩
  have hD0 : 0 ≤ D := by rw [hD]; positivity
  obtain ⟨C1, hC1⟩ : ∃ C1, C1 = (δ + c / (1 - r)) / r ^ K := ⟨_, rfl⟩
  have hrK : 0 < r ^ K := by positivity
  have hrK1 : r ^ K ≤ 1 := pow_le_one₀ hr0.le hr1.le
  have hC10 : 0 ≤ C1 := by rw [hC1]; positivity
  refine ⟨C1 + (1 + c * δ) + c * C1 + D / r ^ K + c / (1 - r), g / 2 / (M + 1),
    min v0 (min ((1 - r) * δ / (4 * (c + 1))) (1 / (c + 1))), by positivity, by positivity,
    lt_min hv00 (lt_min (by positivity) (by positivity)), fun u A hu huu hA => ?_⟩
  have hu1 : u ≤ v0 := huu.trans (min_le_left _ _)
  have hu2 : c * u ≤ (1 - r) * δ / 4 := by
    have h1 := (huu.trans (min_le_right _ _)).trans (min_le_left _ _)
    rw [le_div_iff₀ (by positivity)] at h1
    linarith
  have hu3 : c * u ≤ 1 := by
    have h1 := (huu.trans (min_le_right _ _)).trans (min_le_right _ _)
    rw [le_div_iff₀ (by positivity)] at h1
    linarith
  have hnear : ∀ k ≤ K, frob (A k - E k) < ζ k := fun k hk =>
    hv k u A hu (hu1.trans (hv0' k (by omega))) hA
  have hnε : ∀ k ≤ K, frob (A k - E k) < ε k := fun k hk => (hnear k hk).trans_le (min_le_left _ _)
  have hn2 : ∀ k ≤ K, frob (A k - E k) < η k ∧ frob (A k - E k) < F / 2 ∧
      frob (A k - E k) < g / 4 ∧ frob (A k - E k) < 1 ∧ frob (A k - E k) < θ := fun k hk => by
    have h1 := hnear k hk
    simp only [hζ, lt_min_iff] at h1
    exact ⟨h1.2.1, h1.2.2.1.1, h1.2.2.1.2, h1.2.2.2.1, h1.2.2.2.2⟩
  -- from pass `K` on
  have hq : 0 ≤ c * u / (1 - r) := by positivity
  have hq1 : c * u / (1 - r) ≤ δ / 4 := by
    rw [div_le_iff₀ hr']
    linarith
  have hqr : r * (c * u / (1 - r)) + c * u = c * u / (1 - r) := by
    field_simp
    ring
  have hloc : ∀ j, (A (K + j)).PosDef ∧ dev (A (K + j)) ≤ r ^ j * (3 / 4 * δ) + c * u / (1 - r) := by
    intro j
    induction j with
    | zero =>
      refine ⟨hη K _ (hA.herm K) (hn2 K le_rfl).1, ?_⟩
      have h1 := (abs_lt.1 (hθ _ (hn2 K le_rfl).2.2.2.2)).2
      rw [pow_zero, one_mul, Nat.add_zero]
      linarith
    | succ j ih =>
      obtain ⟨i1, i2⟩ := ih
      have hrj : r ^ j ≤ 1 := pow_le_one₀ hr0.le hr1.le
      have hle : dev (A (K + j)) ≤ δ := by nlinarith
      have h1 := hL.contracts _ i1 hle
      have h0 := hL.nonneg (A (K + j))
      have h2 : dev (step (A (K + j))) ≤ δ := by nlinarith
      obtain ⟨h3, h4⟩ := hL.perturb _ (A (K + (j + 1))) u (hL.posDef _ i1) h2 (hA.herm _) hu hu3
        (hA.step (K + j))
      refine ⟨h3, h4.trans ?_⟩
      rw [pow_succ]
      have h5 := mul_le_mul_of_nonneg_left i2 hr0.le
      linarith
  have hlocδ : ∀ j, dev (A (K + j)) ≤ δ := fun j => by
    have hrj : r ^ j ≤ 1 := pow_le_one₀ hr0.le hr1.le
    nlinarith [(hloc j).2]
  have hP : ∀ k, (A k).PosDef := fun k => by
    by_cases hk : K ≤ k
    · obtain ⟨j, rfl⟩ := Nat.exists_eq_add_of_le hk
      exact (hloc j).1
    · exact hη k _ (hA.herm k) (hn2 k (by omega)).1
  have hpos : ∀ k, 0 < frob (A k) := fun k => frob_pos hp (hP k)
  intro k
  by_cases hk : K ≤ k
  · obtain ⟨j, rfl⟩ := Nat.exists_eq_add_of_le hk
    have h0 := hL.nonneg (A (K + j))
    have hrj : 0 ≤ r ^ j := by positivity
    have hrk : 0 ≤ r ^ (K + j) := by positivity
    have e1 : r ^ j = r ^ (K + j) / r ^ K := by
      rw [pow_add, mul_div_cancel_left₀ _ hrK.ne']
    have hdv : dev (A (K + j)) ≤ C1 * (r ^ (K + j) + u) := by
      refine (hloc j).2.trans ?_
      rw [e1, hC1, ← sub_nonneg]
      have e2 : (δ + c / (1 - r)) / r ^ K * (r ^ (K + j) + u) -
          (r ^ (K + j) / r ^ K * (3 / 4 * δ) + c * u / (1 - r)) =
          (δ / 4 * r ^ (K + j) + δ * u + c / (1 - r) * r ^ (K + j)) / r ^ K +
            c / (1 - r) * u * (1 / r ^ K - 1) := by
        field_simp
        ring
      rw [e2]
      have h5 : 0 ≤ 1 / r ^ K - 1 := by
        rw [sub_nonneg, le_div_iff₀ hrK]
        linarith
      positivity
    set d0 := frob (A (K + j + 1) - A (K + j)) / frob (A (K + j)) with hd0
    have hd00 : 0 ≤ d0 := div_nonneg (frob_nonneg _) (hpos _).le
    have hmv : d0 ≤ u * (1 + c * δ) + c * dev (A (K + j)) := by
      rw [hd0, div_le_iff₀ (hpos _)]
      have h1 := hL.moves _ (hP (K + j)) (hlocδ j)
      have h2 := hA.step (K + j)
      have h3 : frob (step (A (K + j))) ≤ (1 + c * δ) * frob (A (K + j)) := by
        have e : step (A (K + j)) = (step (A (K + j)) - A (K + j)) + A (K + j) := by abel
        rw [e]
        refine (frob_add_le _ _).trans ?_
        have h4 : c * dev (A (K + j)) * frob (A (K + j)) ≤ c * δ * frob (A (K + j)) :=
          mul_le_mul_of_nonneg_right (mul_le_mul_of_nonneg_left (hlocδ j) hc) (hpos _).le
        linarith
      have e : A (K + j + 1) - A (K + j) =
          (A (K + j + 1) - step (A (K + j))) + (step (A (K + j)) - A (K + j)) := by abel
      rw [e]
      refine (frob_add_le _ _).trans ?_
      have h4 := mul_le_mul_of_nonneg_left h3 hu
      linarith
    have hcmp : dev (A (K + j)) ≤ c / (1 - r) * (d0 + u) := by
      have h1 := hL.contracts _ (hP (K + j)) (hlocδ j)
      have h2 : dev (step (A (K + j))) ≤ δ := by nlinarith [hlocδ j]
      have h3 := (hL.perturb _ (A (K + j + 1)) u (hL.posDef _ (hP (K + j))) h2 (hA.herm _) hu hu3
        (hA.step (K + j))).2
      have h4 := hL.compare _ _ (hP (K + j)) (hP (K + j + 1)) (hlocδ j) (hlocδ (j + 1))
      rw [div_mul_eq_mul_div, le_div_iff₀ hr']
      linarith
    refine ⟨hP _, ?_, fun h => absurd h (by omega), fun _ => ⟨hlocδ j, ?_, ?_⟩⟩
    · refine hmv.trans ?_
      have h1 := mul_le_mul_of_nonneg_left hdv hc
      have h2 : 0 ≤ (C1 + D / r ^ K + c / (1 - r)) * (r ^ (K + j) + u) + (1 + c * δ) * r ^ (K + j) := by
        positivity
      linarith
    · have h2 : 0 ≤ ((1 + c * δ) + c * C1 + D / r ^ K + c / (1 - r)) * (r ^ (K + j) + u) := by
        positivity
      linarith
    · have h2 : 0 ≤ (C1 + (1 + c * δ) + c * C1 + D / r ^ K) * (d0 + u) := by
        positivity
      linarith
  · push Not at hk
    obtain ⟨-, a1, a2, a3, -⟩ := hn2 k hk.le
    obtain ⟨-, -, b2, b3, -⟩ := hn2 (k + 1) hk
    have hup : ∀ i ≤ K, frob (A i - E i) < 1 → frob (A i) ≤ M + 1 := fun i hi h => by
      have e : A i = (A i - E i) + E i := by abel
      rw [e]
      refine (frob_add_le _ _).trans ?_
      linarith [hM' i hi]
    have hlo : F / 2 ≤ frob (A k) := by
      have e : E k = A k - (A k - E k) := by abel
      have h1 := frob_sub_le (A k) (A k - E k)
      rw [← e] at h1
      linarith [hF k (by omega)]
    have hgl : g / 2 ≤ frob (A (k + 1) - A k) := by
      have e : E (k + 1) - E k = (A (k + 1) - A k) - ((A (k + 1) - E (k + 1)) - (A k - E k)) := by abel
      have h1 := frob_sub_le (A (k + 1) - A k) ((A (k + 1) - E (k + 1)) - (A k - E k))
      rw [← e] at h1
      have h2 := frob_sub_le (A (k + 1) - E (k + 1)) (A k - E k)
      linarith [hg' k hk]
    refine ⟨hP k, ?_, fun _ => ⟨hnε k hk.le, ?_⟩, fun h => absurd h (by omega)⟩
    · have h1 : frob (A (k + 1) - A k) / frob (A k) ≤ D := by
        rw [hD]
        refine div_le_div₀ (by linarith) ?_ (by linarith) hlo
        refine (frob_sub_le _ _).trans ?_
        linarith [hup k hk.le a3, hup (k + 1) hk b3]
      have h2 : D ≤ D / r ^ K * r ^ k := by
        rw [div_mul_eq_mul_div, le_div_iff₀ hrK]
        exact mul_le_mul_of_nonneg_left (pow_le_pow_of_le_one hr0.le hr1.le hk.le) hD0
      have h3 : 0 ≤ (C1 + (1 + c * δ) + c * C1 + c / (1 - r)) * (r ^ k + u) + D / r ^ K * u := by
        positivity
      linarith
    · exact div_le_div₀ (frob_nonneg _) hgl (hpos k) (hup k hk.le a3)

end
end RS
