import Verif.Lemmas.KronExist
import Verif.Lemmas.KronRate
import Verif.Lemmas.BreakdownTyler
import Verif.Props.Exist
import Mathlib.Combinatorics.Hall.Basic

/-! Bounds on the condition numbers of the Kronecker estimate that hold for all replacements of a few
samples. -/
set_option autoImplicit false

namespace RS
open Matrix ComplexOrder Filter Topology

section
variable {𝕜 : Type} [RCLike 𝕜] {N a b : ℕ}

/-- The entries of a sample in given bases. -/
noncomputable def entriesIn (P : Matrix (Fin a) (Fin a) 𝕜) (Q : Matrix (Fin b) (Fin b) 𝕜) :
    (Fin (a * b) → 𝕜) →ₗ[𝕜] (Fin a × Fin b → 𝕜) where
  toFun v cr := (Q * unstack v * P) cr.2 cr.1
  map_add' u v := by
    have : (unstack (u + v) : Matrix (Fin b) (Fin a) 𝕜) = unstack u + unstack v := rfl
    funext cr
    rw [this, Matrix.mul_add, Matrix.add_mul]
    rfl
  map_smul' s v := by
    have : (unstack (s • v) : Matrix (Fin b) (Fin a) 𝕜) = s • unstack v := rfl
    funext cr
    rw [this, Matrix.mul_smul, Matrix.smul_mul]
    rfl

theorem entriesIn_injective {P : Matrix (Fin a) (Fin a) 𝕜} {Q : Matrix (Fin b) (Fin b) 𝕜}
    (hP : IsUnit P) (hQ : IsUnit Q) : Function.Injective (entriesIn P Q) := by
  rw [← LinearMap.ker_eq_bot, LinearMap.ker_eq_bot']
  intro v hv
  by_contra hne
  have h1 : Q * unstack v * P = 0 := by
    ext r c
    exact congrFun hv (c, r)
  have h2 : (unstack v : Matrix (Fin b) (Fin a) 𝕜) = 0 := by
    have hPu := (isUnit_iff_isUnit_det P).1 hP
    have hQu := (isUnit_iff_isUnit_det Q).1 hQ
    calc (unstack v : Matrix (Fin b) (Fin a) 𝕜) = Q⁻¹ * (Q * unstack v * P) * P⁻¹ := by
          rw [Matrix.mul_assoc, Matrix.mul_nonsing_inv_cancel_right _ _ hPu,
            Matrix.nonsing_inv_mul_cancel_left _ _ hQu]
      _ = 0 := by rw [h1]; simp
  exact unstack_ne_zero hne h2

/-- The samples whose entries in given bases vanish above a level. -/
noncomputable def levelSpace (P : Matrix (Fin a) (Fin a) 𝕜) (Q : Matrix (Fin b) (Fin b) 𝕜)
    (x : Fin a → ℝ) (y : Fin b → ℝ) (τ : ℝ) : Submodule 𝕜 (Fin (a * b) → 𝕜) where
  carrier := {v | ∀ cr : Fin a × Fin b, τ < x cr.1 + y cr.2 → entriesIn P Q v cr = 0}
  add_mem' := fun hu hv cr h => by rw [map_add, Pi.add_apply, hu cr h, hv cr h, add_zero]
  zero_mem' := fun cr _ => by rw [map_zero]; rfl
  smul_mem' := fun s v hv cr h => by rw [map_smul, Pi.smul_apply, hv cr h, smul_zero]

theorem levelSpace_finrank {P : Matrix (Fin a) (Fin a) 𝕜} {Q : Matrix (Fin b) (Fin b) 𝕜}
    (hP : IsUnit P) (hQ : IsUnit Q) (x : Fin a → ℝ) (y : Fin b → ℝ) (τ : ℝ) :
    Module.finrank 𝕜 (levelSpace P Q x y τ) ≤
      (Finset.univ.filter fun cr : Fin a × Fin b => x cr.1 + y cr.2 ≤ τ).card := by
  classical
  let g : levelSpace P Q x y τ →ₗ[𝕜] ({cr : Fin a × Fin b // x cr.1 + y cr.2 ≤ τ} → 𝕜) :=
    (LinearMap.funLeft 𝕜 𝕜 Subtype.val).comp ((entriesIn P Q).comp (levelSpace P Q x y τ).subtype)
  have hg : Function.Injective g := by
    rw [← LinearMap.ker_eq_bot, LinearMap.ker_eq_bot']
    rintro ⟨v, hv⟩ h
    apply Subtype.ext
    apply entriesIn_injective hP hQ
    rw [ZeroMemClass.coe_zero, map_zero]
    funext cr
    rcases le_or_gt (x cr.1 + y cr.2) τ with hle | hgt
    · exact congrFun h ⟨cr, hle⟩
    · exact hv cr hgt
  refine (LinearMap.finrank_le_finrank_of_injective hg).trans ?_
  rw [Module.finrank_fintype_fun_eq_card, Fintype.card_subtype]

/-- Samples in general position reach high levels on average, in all bases. -/
theorem general_levels {X : Matrix (Fin N) (Fin (a * b)) 𝕜} (hX : GeneralPosition X)
    (I : Finset (Fin N)) {P : Matrix (Fin a) (Fin a) 𝕜} {Q : Matrix (Fin b) (Fin b) 𝕜}
    (hP : IsUnit P) (hQ : IsUnit Q) {x : Fin a → ℝ} {y : Fin b → ℝ} {m : Fin N → ℝ}
    (hsupp : ∀ i ∈ I, ∀ r c, (Q * unstack (X i) * P) r c ≠ 0 → x c + y r ≤ m i)
    (sx : ∑ c, x c = 0) (sy : ∑ r, y r = 0) {c₁ : Fin a} {r₁ : Fin b}
    (hmax : ∀ c r, x c + y r ≤ x c₁ + y r₁) :
    ((I.card : ℝ) - a * b) * (x c₁ + y r₁) ≤ ∑ i ∈ I, m i := by
  classical
  set ζ := x c₁ + y r₁ with hζ
  let S := {i : Fin N // i ∈ I ∧ m i < ζ}
  let t : S → Finset (Fin a × Fin b) := fun i =>
    Finset.univ.filter fun cr => x cr.1 + y cr.2 ≤ m i.1
  have hall : ∀ s : Finset S, s.card ≤ (s.biUnion t).card := fun s => by
    rcases s.eq_empty_or_nonempty with rfl | hs
    · simp
    obtain ⟨i₀, hi₀, him⟩ := Finset.exists_max_image s (fun i => m i.1) hs
    refine le_trans ?_ (Finset.card_le_card (Finset.subset_biUnion_of_mem t hi₀))
    set V := levelSpace P Q x y (m i₀.1) with hV
    have hfr := levelSpace_finrank (𝕜 := 𝕜) hP hQ x y (m i₀.1)
    have hlt : (Finset.univ.filter fun cr : Fin a × Fin b => x cr.1 + y cr.2 ≤ m i₀.1).card < a * b := by
      have : (Finset.univ.filter fun cr : Fin a × Fin b => x cr.1 + y cr.2 ≤ m i₀.1) ⊂ Finset.univ := by
        rw [Finset.ssubset_univ_iff]
        intro e
        have h1 : (c₁, r₁) ∈ Finset.univ.filter fun cr : Fin a × Fin b => x cr.1 + y cr.2 ≤ m i₀.1 := by
          rw [e]; exact Finset.mem_univ _
        rw [Finset.mem_filter] at h1
        exact absurd i₀.2.2 (not_lt.2 h1.2)
      simpa using Finset.card_lt_card this
    have hVt : V ≠ ⊤ := fun e => by
      rw [← hV, e, finrank_top, Module.finrank_fin_fun] at hfr
      omega
    have h1 := hX V hVt
    rw [samplesIn_eq] at h1
    refine le_trans ?_ (h1.trans hfr)
    rw [← Finset.card_map (Function.Embedding.subtype _)]
    refine Finset.card_le_card fun i hi => ?_
    obtain ⟨j, hj, rfl⟩ := Finset.mem_map.1 hi
    rw [Finset.mem_filter]
    refine ⟨Finset.mem_univ _, fun cr hcr => ?_⟩
    by_contra hne
    have h2 := hsupp j.1 j.2.1 cr.2 cr.1 hne
    have h3 := him j hj
    linarith
  obtain ⟨f, hf, hft⟩ := (Finset.all_card_le_biUnion_card_iff_exists_injective t).1 hall
  have hft' : ∀ i : S, x (f i).1 + y (f i).2 ≤ m i.1 := fun i => (Finset.mem_filter.1 (hft i)).2
  have h1 : ∑ i ∈ I, (ζ - m i) ≤ ∑ i : S, (ζ - m i.1) := by
    have e : ∑ i : S, (ζ - m i.1) = ∑ i ∈ I.filter (fun i => m i < ζ), (ζ - m i) := by
      rw [← Finset.sum_subtype (I.filter fun i => m i < ζ) (p := fun i => i ∈ I ∧ m i < ζ)
        (fun i => by simp) (fun i => ζ - m i)]
    rw [e, Finset.sum_filter]
    refine Finset.sum_le_sum fun i _ => ?_
    split_ifs with h
    · exact le_rfl
    · linarith
  have h2 : ∑ i : S, (ζ - m i.1) ≤ ∑ i : S, (ζ - (x (f i).1 + y (f i).2)) :=
    Finset.sum_le_sum fun i _ => by linarith [hft' i]
  have h3 : ∑ i : S, (ζ - (x (f i).1 + y (f i).2)) ≤ ∑ cr : Fin a × Fin b, (ζ - (x cr.1 + y cr.2)) := by
    rw [← Finset.sum_image (s := Finset.univ) (g := f) (f := fun cr => ζ - (x cr.1 + y cr.2))
      fun i _ j _ h => hf h]
    exact Finset.sum_le_sum_of_subset_of_nonneg (Finset.subset_univ _) fun cr _ _ => by
      linarith [hmax cr.1 cr.2]
  have h4 : ∑ cr : Fin a × Fin b, (ζ - (x cr.1 + y cr.2)) = a * b * ζ := by
    have e5 : ∑ cr : Fin a × Fin b, (x cr.1 + y cr.2) = 0 := by
      rw [Fintype.sum_prod_type]
      exact (sum_pair x y).trans (by rw [sx, sy]; ring)
    rw [Finset.sum_sub_distrib, e5, sub_zero, Finset.sum_const]
    simp
  rw [Finset.sum_sub_distrib, Finset.sum_const, nsmul_eq_mul] at h1
  linarith

theorem sum_zero_bound {n : ℕ} {x : Fin n → ℝ} (sx : ∑ c, x c = 0) {c₁ : Fin n}
    (hmax : ∀ c, x c ≤ x c₁) (c₀ : Fin n) {D : ℕ} (hD : n ≤ D) :
    0 ≤ x c₁ ∧ -(((D : ℝ) - 1) * x c₁) ≤ x c₀ := by
  have h1 : ∑ c, x c = x c₀ + ∑ c ∈ Finset.univ.erase c₀, x c := by
    rw [Finset.add_sum_erase _ _ (Finset.mem_univ c₀)]
  have h2 : ∑ c ∈ Finset.univ.erase c₀, x c ≤ ((n : ℝ) - 1) * x c₁ := by
    refine (Finset.sum_le_sum fun c _ => hmax c).trans (le_of_eq ?_)
    rw [Finset.sum_const, Finset.card_erase_of_mem (Finset.mem_univ _), Finset.card_univ,
      Fintype.card_fin, nsmul_eq_mul, Nat.cast_sub c₁.pos]
    simp
  have h0 : 0 ≤ x c₁ := by
    by_contra hc
    push Not at hc
    have : ∑ c, x c < 0 := Finset.sum_neg (fun c _ => (hmax c).trans_lt hc) ⟨c₁, Finset.mem_univ _⟩
    linarith
  refine ⟨h0, ?_⟩
  have hD' : (n : ℝ) ≤ D := by exact_mod_cast hD
  have h3 := mul_le_mul_of_nonneg_right (sub_le_sub_right hD' 1) h0
  linarith

/-- The samples of `I` are spread out even with `k` more samples anywhere. -/
def SpreadWith (M : Fin N → Matrix (Fin b) (Fin a) 𝕜) (I : Finset (Fin N)) (k : ℕ) : Prop :=
  ∀ (P : Matrix (Fin a) (Fin a) 𝕜) (Q : Matrix (Fin b) (Fin b) 𝕜) (x : Fin a → ℝ) (y : Fin b → ℝ)
    (m : Fin N → ℝ), IsUnit P → IsUnit Q → (x, y) ≠ 0 → ∑ c, x c = 0 → ∑ r, y r = 0 →
    (∀ i ∈ I, ∀ r c, (Q * M i * P) r c ≠ 0 → x c + y r ≤ m i) →
    ∀ c₀ r₀, 0 < ∑ i ∈ I, m i + k * (x c₀ + y r₀)

theorem general_spreadWith {X : Matrix (Fin N) (Fin (a * b)) 𝕜} (hX : GeneralPosition X)
    (I : Finset (Fin N)) {k : ℕ} (hk : k * (max a b - 1) + a * b < I.card) :
    SpreadWith (fun i => (unstack (X i) : Matrix (Fin b) (Fin a) 𝕜)) I k := by
  intro P Q x y m hP hQ hne sx sy hsupp c₀ r₀
  have hx0 : (Finset.univ : Finset (Fin a)).Nonempty := ⟨c₀, Finset.mem_univ _⟩
  have hy0 : (Finset.univ : Finset (Fin b)).Nonempty := ⟨r₀, Finset.mem_univ _⟩
  obtain ⟨c₁, -, hc₁⟩ := Finset.exists_max_image Finset.univ x hx0
  obtain ⟨r₁, -, hr₁⟩ := Finset.exists_max_image Finset.univ y hy0
  have b1 := sum_zero_bound sx (fun c => hc₁ c (Finset.mem_univ _)) c₀ (le_max_left a b)
  have b2 := sum_zero_bound sy (fun c => hr₁ c (Finset.mem_univ _)) r₀ (le_max_right a b)
  have h1 := general_levels hX I hP hQ hsupp sx sy (c₁ := c₁) (r₁ := r₁) fun c r =>
    add_le_add (hc₁ c (Finset.mem_univ _)) (hr₁ r (Finset.mem_univ _))
  have hpos : 0 < x c₁ + y r₁ := by
    refine lt_of_le_of_ne (add_nonneg b1.1 b2.1) fun e => hne ?_
    have e1 : x c₁ = 0 := by linarith [b1.1, b2.1]
    have e2 : y r₁ = 0 := by linarith [b1.1, b2.1]
    refine Prod.ext ?_ ?_
    · funext c
      have := (Finset.sum_eq_zero_iff_of_nonpos fun c _ => (hc₁ c (Finset.mem_univ _)).trans e1.le).1 sx c
        (Finset.mem_univ _)
      exact this
    · funext r
      have := (Finset.sum_eq_zero_iff_of_nonpos fun c _ => (hr₁ c (Finset.mem_univ _)).trans e2.le).1 sy r
        (Finset.mem_univ _)
      exact this
  have hD : 1 ≤ max a b := le_trans c₀.pos (le_max_left _ _)
  have hk' : (k : ℝ) * ((max a b : ℕ) - 1) + a * b < I.card := by
    have : ((k * (max a b - 1) + a * b : ℕ) : ℝ) < I.card := by exact_mod_cast hk
    push_cast [Nat.cast_sub hD] at this
    push_cast
    exact this
  have h2 := mul_le_mul_of_nonneg_left (add_le_add b1.2 b2.2) (Nat.cast_nonneg (α := ℝ) k)
  have h3 := mul_pos (sub_pos.2 hk') hpos
  nlinarith [h1, h2, h3]

/-- The part of the cost that comes from the samples of `I`. -/
noncomputable def costOn (M : Fin N → Matrix (Fin b) (Fin a) 𝕜) (I : Finset (Fin N))
    (G : Matrix (Fin a) (Fin a) 𝕜) (H : Matrix (Fin b) (Fin b) 𝕜) (x : Fin a → ℝ) (y : Fin b → ℝ) : ℝ :=
  ∑ i ∈ I, (Real.log (∑ c, ∑ r, kronTau (M i) G H c r * Real.exp (-(x c + y r))) -
    Real.log (∑ c, ∑ r, kronTau (M i) G H c r))

theorem spread_local_growth {M : Fin N → Matrix (Fin b) (Fin a) 𝕜} (ha : 0 < a) (hb : 0 < b)
    {I : Finset (Fin N)} {k : ℕ} (hM : ∀ i, M i ≠ 0)
    (hS : SpreadWith M I k) {G₀ : Matrix (Fin a) (Fin a) 𝕜} {H₀ : Matrix (Fin b) (Fin b) 𝕜}
    {z₀ : (Fin a → ℝ) × (Fin b → ℝ)} (hG : IsUnit G₀) (hH : IsUnit H₀) (hz : z₀ ≠ 0)
    (hx : ∑ c, z₀.1 c = 0) (hy : ∑ r, z₀.2 r = 0) :
    ∃ C e : ℝ, 0 < e ∧ ∀ᶠ q : Matrix (Fin a) (Fin a) 𝕜 × Matrix (Fin b) (Fin b) 𝕜 ×
      ((Fin a → ℝ) × (Fin b → ℝ)) in 𝓝 (G₀, H₀, z₀), IsUnit q.1 → IsUnit q.2.1 →
      ∀ t : ℝ, 0 ≤ t → ∀ c₀ r₀,
      e * t - C ≤ costOn M I q.1 q.2.1 (t • q.2.2.1) (t • q.2.2.2) -
        k * ((t • q.2.2.1) c₀ + (t • q.2.2.2) r₀) := by
  classical
  have hne : ∀ i, ∃ cr : Fin a × Fin b, 0 < kronTau (M i) G₀ H₀ cr.1 cr.2 := fun i => by
    by_contra hcon
    push Not at hcon
    have h1 := kronTau_sum_pos (hM i) hG hH
    refine absurd h1 (not_lt.2 (Finset.sum_nonpos fun c _ => Finset.sum_nonpos fun r _ =>
      hcon (c, r)))
  have hmin : ∀ i, ∃ cr : Fin a × Fin b, 0 < kronTau (M i) G₀ H₀ cr.1 cr.2 ∧
      ∀ c r, 0 < kronTau (M i) G₀ H₀ c r → z₀.1 cr.1 + z₀.2 cr.2 ≤ z₀.1 c + z₀.2 r := fun i => by
    obtain ⟨cr, h1, h2⟩ := Finset.exists_min_image
      (Finset.univ.filter fun cr : Fin a × Fin b => 0 < kronTau (M i) G₀ H₀ cr.1 cr.2)
      (fun cr => z₀.1 cr.1 + z₀.2 cr.2) (by
        obtain ⟨cr, h⟩ := hne i
        exact ⟨cr, by simpa using h⟩)
    refine ⟨cr, by simpa using h1, fun c r h => h2 (c, r) (by simpa using h)⟩
  choose κ hκ hκm using hmin
  have hs := hS G₀ᴴ H₀ (-z₀.1) (-z₀.2)
    (fun i => -(z₀.1 (κ i).1 + z₀.2 (κ i).2))
    ((isUnit_iff_isUnit_det _).2 (by
      rw [det_conjTranspose]; exact ((isUnit_iff_isUnit_det G₀).1 hG).star)) hH (by
      intro e
      rw [Prod.ext_iff] at e
      exact hz (Prod.ext (by simpa using e.1) (by simpa using e.2)))
    (by simp [hx]) (by simp [hy])
    (fun i _ r c h => by
      have := hκm i c r (by unfold kronTau; positivity)
      simp only [Pi.neg_apply]
      linarith)
  simp only [Pi.neg_apply] at hs
  obtain ⟨cr₁, -, hcr₁⟩ := Finset.exists_min_image (Finset.univ : Finset (Fin a × Fin b))
    (fun cr => ∑ i ∈ I, -(z₀.1 (κ i).1 + z₀.2 (κ i).2) + (k : ℝ) * (-z₀.1 cr.1 + -z₀.2 cr.2))
    ⟨(⟨0, ha⟩, ⟨0, hb⟩), Finset.mem_univ _⟩
  set e : ℝ := ∑ i ∈ I, -(z₀.1 (κ i).1 + z₀.2 (κ i).2) + (k : ℝ) * (-z₀.1 cr₁.1 + -z₀.2 cr₁.2) with he
  have he0 : 0 < e := hs _ _
  refine ⟨-(∑ i ∈ I, (Real.log (kronTau (M i) G₀ H₀ (κ i).1 (κ i).2 / 2) -
    Real.log ((∑ c, ∑ r, kronTau (M i) G₀ H₀ c r) + 1))), e / 2, by linarith, ?_⟩
  have c1 : ∀ i c r, Continuous fun q : Matrix (Fin a) (Fin a) 𝕜 × Matrix (Fin b) (Fin b) 𝕜 ×
      ((Fin a → ℝ) × (Fin b → ℝ)) => kronTau (M i) q.1 q.2.1 c r := fun i c r => by
    unfold kronTau
    fun_prop
  have v1 : ∀ᶠ q : Matrix (Fin a) (Fin a) 𝕜 × Matrix (Fin b) (Fin b) 𝕜 ×
      ((Fin a → ℝ) × (Fin b → ℝ)) in 𝓝 (G₀, H₀, z₀), ∀ i,
      kronTau (M i) G₀ H₀ (κ i).1 (κ i).2 / 2 < kronTau (M i) q.1 q.2.1 (κ i).1 (κ i).2 :=
    eventually_all.2 fun i => ((c1 i _ _).tendsto (G₀, H₀, z₀)).eventually
      (lt_mem_nhds (half_lt_self (hκ i)))
  have v2 : ∀ᶠ q : Matrix (Fin a) (Fin a) 𝕜 × Matrix (Fin b) (Fin b) 𝕜 ×
      ((Fin a → ℝ) × (Fin b → ℝ)) in 𝓝 (G₀, H₀, z₀), ∀ i,
      ∑ c, ∑ r, kronTau (M i) q.1 q.2.1 c r < (∑ c, ∑ r, kronTau (M i) G₀ H₀ c r) + 1 :=
    eventually_all.2 fun i => ((continuous_finsetSum _ fun c _ => continuous_finsetSum _ fun r _ =>
      c1 i c r).tendsto (G₀, H₀, z₀)).eventually (gt_mem_nhds (lt_add_one _))
  have v3 : ∀ᶠ q : Matrix (Fin a) (Fin a) 𝕜 × Matrix (Fin b) (Fin b) 𝕜 ×
      ((Fin a → ℝ) × (Fin b → ℝ)) in 𝓝 (G₀, H₀, z₀), ∀ cr : Fin a × Fin b,
      e / 2 < ∑ i ∈ I, -(q.2.2.1 (κ i).1 + q.2.2.2 (κ i).2) +
        k * (-q.2.2.1 cr.1 + -q.2.2.2 cr.2) := by
    refine eventually_all.2 fun cr => ?_
    have c2 : Continuous fun q : Matrix (Fin a) (Fin a) 𝕜 × Matrix (Fin b) (Fin b) 𝕜 ×
      ((Fin a → ℝ) × (Fin b → ℝ)) => ∑ i ∈ I, -(q.2.2.1 (κ i).1 + q.2.2.2 (κ i).2) +
        (k : ℝ) * (-q.2.2.1 cr.1 + -q.2.2.2 cr.2) := by
      fun_prop
    exact (c2.tendsto (G₀, H₀, z₀)).eventually (lt_mem_nhds (by
      have := hcr₁ cr (Finset.mem_univ _)
      show e / 2 < _
      linarith))
  filter_upwards [v1, v2, v3] with q w1 w2 w3 hq1 hq2 t ht c₀ r₀
  have key : ∀ i, Real.log (kronTau (M i) G₀ H₀ (κ i).1 (κ i).2 / 2) -
      Real.log ((∑ c, ∑ r, kronTau (M i) G₀ H₀ c r) + 1) +
        t * -(q.2.2.1 (κ i).1 + q.2.2.2 (κ i).2) ≤
      Real.log (∑ c, ∑ r, kronTau (M i) q.1 q.2.1 c r *
        Real.exp (-((t • q.2.2.1) c + (t • q.2.2.2) r))) -
      Real.log (∑ c, ∑ r, kronTau (M i) q.1 q.2.1 c r) := fun i => by
    have hp := kronTau_sum_pos (hM i) hq1 hq2
    have k1 := Real.log_le_log hp (w2 i).le
    have k2 : kronTau (M i) G₀ H₀ (κ i).1 (κ i).2 / 2 *
        Real.exp (-((t • q.2.2.1) (κ i).1 + (t • q.2.2.2) (κ i).2)) ≤
        ∑ c, ∑ r, kronTau (M i) q.1 q.2.1 c r *
        Real.exp (-((t • q.2.2.1) c + (t • q.2.2.2) r)) := by
      refine (mul_le_mul_of_nonneg_right (w1 i).le (Real.exp_pos _).le).trans ?_
      have p0 : ∀ c r, 0 ≤ kronTau (M i) q.1 q.2.1 c r *
        Real.exp (-((t • q.2.2.1) c + (t • q.2.2.2) r)) := fun c r =>
        mul_nonneg (kronTau_nonneg _ _ _ _ _) (Real.exp_pos _).le
      exact (Finset.single_le_sum (f := fun r => kronTau (M i) q.1 q.2.1 (κ i).1 r *
        Real.exp (-((t • q.2.2.1) (κ i).1 + (t • q.2.2.2) r))) (fun r _ => p0 _ r)
        (Finset.mem_univ (κ i).2)).trans
        (Finset.single_le_sum (f := fun c => ∑ r, kronTau (M i) q.1 q.2.1 c r *
          Real.exp (-((t • q.2.2.1) c + (t • q.2.2.2) r)))
          (fun c _ => Finset.sum_nonneg fun r _ => p0 c r) (Finset.mem_univ (κ i).1))
    have k3 := Real.log_le_log (mul_pos (half_pos (hκ i)) (Real.exp_pos _)) k2
    rw [Real.log_mul (half_pos (hκ i)).ne' (Real.exp_pos _).ne', Real.log_exp] at k3
    simp only [Pi.smul_apply, smul_eq_mul] at k3 ⊢
    linarith
  have k4 := Finset.sum_le_sum fun i (_ : i ∈ I) => key i
  rw [Finset.sum_add_distrib, ← Finset.mul_sum] at k4
  have k5 := mul_le_mul_of_nonneg_right (w3 (c₀, r₀)).le ht
  unfold costOn
  simp only [Pi.smul_apply, smul_eq_mul] at k4 k5 ⊢
  linarith

theorem spread_coercive {M : Fin N → Matrix (Fin b) (Fin a) 𝕜} (ha : 0 < a) (hb : 0 < b)
    {I : Finset (Fin N)} {k : ℕ} (hM : ∀ i, M i ≠ 0) (hS : SpreadWith M I k) :
    ∃ C e : ℝ, 0 < e ∧ ∀ (G : Matrix (Fin a) (Fin a) 𝕜) (H : Matrix (Fin b) (Fin b) 𝕜)
      (z : (Fin a → ℝ) × (Fin b → ℝ)), G * 1 * Gᴴ = 1 → H * 1 * Hᴴ = 1 → ∑ c, z.1 c = 0 →
      ∑ r, z.2 r = 0 → ∀ c₀ r₀, e * ‖z‖ - C ≤ costOn M I G H z.1 z.2 - k * (z.1 c₀ + z.2 r₀) := by
  set K : Set (Matrix (Fin a) (Fin a) 𝕜 × Matrix (Fin b) (Fin b) 𝕜 ×
      ((Fin a → ℝ) × (Fin b → ℝ))) :=
    {G | G * 1 * Gᴴ = 1} ×ˢ {H | H * 1 * Hᴴ = 1} ×ˢ
      (Metric.sphere 0 1 ∩ {z | ∑ c, z.1 c = 0 ∧ ∑ r, z.2 r = 0}) with hK
  have hKc : IsCompact K := by
    refine (isCompact_whitening PosDef.one).prod ((isCompact_whitening PosDef.one).prod
      ((isCompact_sphere _ _).inter_right ?_))
    exact (isClosed_eq (by fun_prop) continuous_const).inter
      (isClosed_eq (by fun_prop) continuous_const)
  obtain ⟨C, e, he, hCe⟩ : ∃ C e : ℝ, 0 < e ∧ ∀ q ∈ K, ∀ t : ℝ, 0 ≤ t → ∀ c₀ r₀,
      e * t - C ≤ costOn M I q.1 q.2.1 (t • q.2.2.1) (t • q.2.2.2) -
        k * ((t • q.2.2.1) c₀ + (t • q.2.2.2) r₀) := by
    have := hKc.induction_on (p := fun s => ∃ C e : ℝ, 0 < e ∧ ∀ q ∈ s ∩ K, ∀ t : ℝ, 0 ≤ t →
      ∀ c₀ r₀, e * t - C ≤ costOn M I q.1 q.2.1 (t • q.2.2.1) (t • q.2.2.2) -
        k * ((t • q.2.2.1) c₀ + (t • q.2.2.2) r₀)) ⟨0, 1, one_pos, by simp⟩
      (fun s s' h ⟨C, e, he, h'⟩ => ⟨C, e, he, fun q hq => h' q ⟨h hq.1, hq.2⟩⟩)
      (fun s s' ⟨C, e, he, h⟩ ⟨C', e', he', h'⟩ => ⟨max C C', min e e', lt_min he he',
        fun q hq t ht c₀ r₀ => by
          have m1 := mul_le_mul_of_nonneg_right (min_le_left e e') ht
          have m2 := mul_le_mul_of_nonneg_right (min_le_right e e') ht
          rcases hq.1 with h1 | h1
          · have := h q ⟨h1, hq.2⟩ t ht c₀ r₀
            linarith [le_max_left C C']
          · have := h' q ⟨h1, hq.2⟩ t ht c₀ r₀
            linarith [le_max_right C C']⟩)
      (fun q hq => by
        obtain ⟨G, H, z⟩ := q
        obtain ⟨hG, hH, hz, hx, hy⟩ := hq
        obtain ⟨C, e, he, h⟩ := spread_local_growth ha hb hM hS (whitening_isUnit hG)
          (whitening_isUnit hH) (z₀ := z) (by
            rintro rfl
            rw [mem_sphere_zero_iff_norm] at hz
            simp at hz) hx hy
        refine ⟨_, mem_nhdsWithin_of_mem_nhds h, C, e, he, fun q hq t ht => ?_⟩
        obtain ⟨hq1, hq2, hq3, -, hq4, hq5⟩ := hq
        exact hq1 (whitening_isUnit hq2) (whitening_isUnit hq3) t ht)
    obtain ⟨C, e, he, h⟩ := this
    exact ⟨C, e, he, fun q hq => h q ⟨hq, hq⟩⟩
  refine ⟨max C 0, e, he, fun G H z hG hH hx hy c₀ r₀ => ?_⟩
  by_cases hz : z = 0
  · subst hz
    have h0 : costOn M I G H (0 : (Fin a → ℝ) × (Fin b → ℝ)).1 (0 : (Fin a → ℝ) × (Fin b → ℝ)).2 = 0 := by
      simp [costOn]
    rw [h0]
    simp
  · have hn0 : (0 : ℝ) < ‖z‖ := norm_pos_iff.2 hz
    have h1 := hCe (G, H, ‖z‖⁻¹ • z) ⟨hG, hH, by
        rw [mem_sphere_zero_iff_norm, norm_smul, norm_inv, norm_norm, inv_mul_cancel₀ hn0.ne'],
      by simp [← Finset.mul_sum, hx], by simp [← Finset.mul_sum, hy]⟩ ‖z‖ hn0.le c₀ r₀
    simp only [Prod.smul_fst, Prod.smul_snd, smul_smul, mul_inv_cancel₀ hn0.ne', one_smul] at h1
    linarith [le_max_left C 0]

/-- A sample lowers the cost by at most the largest level. -/
theorem term_ge {M : Matrix (Fin b) (Fin a) 𝕜} (hM : M ≠ 0) {G : Matrix (Fin a) (Fin a) 𝕜}
    {H : Matrix (Fin b) (Fin b) 𝕜} (hG : IsUnit G) (hH : IsUnit H) {x : Fin a → ℝ} {y : Fin b → ℝ}
    {ζ : ℝ} (hζ : ∀ c r, x c + y r ≤ ζ) :
    -ζ ≤ Real.log (∑ c, ∑ r, kronTau M G H c r * Real.exp (-(x c + y r))) -
      Real.log (∑ c, ∑ r, kronTau M G H c r) := by
  have hp := kronTau_sum_pos hM hG hH
  have h1 : Real.exp (-ζ) * ∑ c, ∑ r, kronTau M G H c r ≤
      ∑ c, ∑ r, kronTau M G H c r * Real.exp (-(x c + y r)) := by
    rw [Finset.mul_sum]
    refine Finset.sum_le_sum fun c _ => ?_
    rw [Finset.mul_sum]
    refine Finset.sum_le_sum fun r _ => ?_
    rw [mul_comm]
    exact mul_le_mul_of_nonneg_left (Real.exp_le_exp.2 (neg_le_neg (hζ c r))) (kronTau_nonneg _ _ _ _ _)
  have h2 := Real.log_le_log (mul_pos (Real.exp_pos _) hp) h1
  rw [Real.log_mul (Real.exp_pos _).ne' hp.ne', Real.log_exp] at h2
  linarith

/-- Spread-out good samples make all samples spread out. -/
theorem SpreadWith.kronSpread {X X' : Matrix (Fin N) (Fin (a * b)) 𝕜} (hN : 0 < N) (ha : 0 < a)
    (hb : 0 < b) {J : Finset (Fin N)}
    (hS : SpreadWith (fun i => (unstack (X i) : Matrix (Fin b) (Fin a) 𝕜)) Jᶜ J.card)
    (hX' : ∀ i, i ∉ J → X' i = X i) (h0 : ∀ i, X' i ≠ 0) :
    KronSpread fun i => (unstack (X' i) : Matrix (Fin b) (Fin a) 𝕜) := by
  classical
  rw [kronSpread_iff hN ha hb]
  intro P Q x y m hP hQ hne hsupp
  have ha' : (a : ℝ) ≠ 0 := by exact_mod_cast ha.ne'
  have hb' : (b : ℝ) ≠ 0 := by exact_mod_cast hb.ne'
  set u := (∑ c, x c) / a with hu
  set v := (∑ r, y r) / b with hv
  have sx : ∑ c, (x c + -u) = 0 := sub_mean_sum x
  have sy : ∑ r, (y r + -v) = 0 := sub_mean_sum y
  obtain ⟨cr, -, hcr⟩ := Finset.exists_min_image (Finset.univ : Finset (Fin a × Fin b))
    (fun cr => x cr.1 + y cr.2) ⟨(⟨0, ha⟩, ⟨0, hb⟩), Finset.mem_univ _⟩
  have h1 := hS P Q (fun c => x c + -u) (fun r => y r + -v) (fun i => m i - (u + v)) hP hQ (by
      intro e
      rw [Prod.ext_iff] at e
      rcases hne with ⟨c, d, h⟩ | ⟨c, d, h⟩
      · have e1 := congrFun e.1 c
        have e2 := congrFun e.1 d
        simp only [Prod.fst_zero, Pi.zero_apply] at e1 e2
        exact h (by linarith)
      · have e1 := congrFun e.2 c
        have e2 := congrFun e.2 d
        simp only [Prod.snd_zero, Pi.zero_apply] at e1 e2
        exact h (by linarith)) sx sy
    (fun i hi r c h => by
      have := hsupp i r c (by rw [hX' i (Finset.mem_compl.1 hi)]; exact h)
      linarith) cr.1 cr.2
  have h2 : ∀ i ∈ J, x cr.1 + y cr.2 ≤ m i := fun i _ => by
    have hne : entriesIn P Q (X' i) ≠ 0 := fun e =>
      h0 i (entriesIn_injective hP hQ (e.trans (map_zero _).symm))
    obtain ⟨cr', h⟩ := Function.ne_iff.1 hne
    exact (hcr cr' (Finset.mem_univ _)).trans (hsupp i cr'.2 cr'.1 h)
  have h3 : J.card * (x cr.1 + y cr.2) ≤ ∑ i ∈ J, m i := by
    have := Finset.sum_le_sum h2
    rwa [Finset.sum_const, nsmul_eq_mul] at this
  have h4 : ∑ i ∈ Jᶜ, m i + ∑ i ∈ J, m i = ∑ i, m i := by
    rw [add_comm]; exact Finset.sum_add_sum_compl J m
  have h5 : ((Jᶜ).card : ℝ) + J.card = N := by
    have := Finset.card_add_card_compl J
    rw [Fintype.card_fin] at this
    rw [add_comm]
    exact_mod_cast this
  rw [Finset.sum_sub_distrib, Finset.sum_const, nsmul_eq_mul] at h1
  have e1 : ∑ c, x c = a * u := by rw [hu]; field_simp
  have e2 : ∑ r, y r = b * v := by rw [hv]; field_simp
  have hab : (0 : ℝ) < a * b := by exact_mod_cast Nat.mul_pos ha hb
  have h6 : N * (u + v) < ∑ i, m i := by rw [← h4, ← h5]; linarith
  rw [e1, e2]
  have := mul_lt_mul_of_pos_left h6 hab
  linarith

/-- Bounds on the eigenvalues from bounds in a whitened basis. -/
theorem whitened_cond {n : ℕ} {A G : Matrix (Fin n) (Fin n) 𝕜} {x : Fin n → ℝ} (g1 : G * 1 * Gᴴ = 1)
    (g2 : G * A * Gᴴ = diagonal fun j => ((Real.exp (x j) : ℝ) : 𝕜)) {u R : ℝ}
    (h : ∀ c, |x c + -u| ≤ R) :
    Loewner (((Real.exp (u - R) : ℝ) : 𝕜) • 1) A ∧
      Loewner A (((Real.exp (2 * R) * Real.exp (u - R) : ℝ) : 𝕜) • 1) := by
  have hG := whitening_isUnit g1
  have e : ∀ s : ℝ, G * ((s : 𝕜) • 1) * Gᴴ = diagonal fun _ => (s : 𝕜) := fun s => by
    rw [Matrix.mul_smul, Matrix.smul_mul, g1, smul_one_eq_diagonal]
  constructor
  · rw [← Loewner.congr_iff hG, e, g2, loewner_diagonal]
    exact fun c => Real.exp_le_exp.2 (by have := (abs_le.1 (h c)).1; linarith)
  · rw [← Loewner.congr_iff hG, e, g2, loewner_diagonal]
    intro c
    rw [← Real.exp_add]
    exact Real.exp_le_exp.2 (by have := (abs_le.1 (h c)).2; linarith)

/-- One bound on the condition numbers for all replacements of the samples in `J`. -/
theorem kron_bounded_on {X : Matrix (Fin N) (Fin (a * b)) 𝕜} (hN : 0 < N) (ha : 0 < a) (hb : 0 < b)
    (hX0 : ∀ i, X i ≠ 0) {J : Finset (Fin N)}
    (hS : SpreadWith (fun i => (unstack (X i) : Matrix (Fin b) (Fin a) 𝕜)) Jᶜ J.card) :
    ∃ κ : ℝ, 1 ≤ κ ∧ ∀ X' : Matrix (Fin N) (Fin (a * b)) 𝕜, (∀ i, i ∉ J → X' i = X i) →
      (∀ i, X' i ≠ 0) → ∀ A B, KronFixed (fun i => (unstack (X' i) : Matrix (Fin b) (Fin a) 𝕜)) A B →
        (∃ s : ℝ, 0 < s ∧ Loewner ((s : 𝕜) • 1) A ∧ Loewner A (((κ * s : ℝ) : 𝕜) • 1)) ∧
        ∃ s : ℝ, 0 < s ∧ Loewner ((s : 𝕜) • 1) B ∧ Loewner B (((κ * s : ℝ) : 𝕜) • 1) := by
  classical
  obtain ⟨C, e, he, hC⟩ := spread_coercive ha hb (fun i => unstack_ne_zero (hX0 i)) hS
  refine ⟨Real.exp (2 * (|C| / e)), Real.one_le_exp (by positivity), fun X' hX' h0 A B hfix => ?_⟩
  have hM' : ∀ i, (unstack (X' i) : Matrix (Fin b) (Fin a) 𝕜) ≠ 0 := fun i => unstack_ne_zero (h0 i)
  obtain ⟨G, x, g1, g2⟩ := simultaneous_exp 1 A PosDef.one hfix.posA
  obtain ⟨H, y, k1, k2⟩ := simultaneous_exp 1 B PosDef.one hfix.posB
  have hG := whitening_isUnit g1
  have hH := whitening_isUnit k1
  have hle := kron_fixed_minimises X' hN h0 hfix.posA hfix.posB hfix.eqA hfix.eqB
    (PosDef.one (n := Fin a)) (PosDef.one (n := Fin b))
  rw [kronF_eq X' PosDef.one PosDef.one hfix.posA hfix.posB hG hH _ _ g1 k1 g2 k2,
    ← kronF_shift _ hM' hG hH x y (-((∑ c, x c) / a)) (-((∑ r, y r) / b))] at hle
  set z : (Fin a → ℝ) × (Fin b → ℝ) :=
    (fun c => x c + -((∑ c, x c) / a), fun r => y r + -((∑ r, y r) / b)) with hz
  have sx : ∑ c, z.1 c = 0 := sub_mean_sum x
  have sy : ∑ r, z.2 r = 0 := sub_mean_sum y
  have hF : kronF (fun i => unstack (X' i)) G H z.1 z.2 ≤ 0 := by
    have : kronF (fun i => unstack (X' i)) G H z.1 z.2 =
      kronF (fun i => unstack (X' i)) G H (fun c => x c + -((∑ c, x c) / a))
        (fun r => y r + -((∑ r, y r) / b)) := rfl
    rw [this]
    linarith
  obtain ⟨cr, -, hcr⟩ := Finset.exists_max_image (Finset.univ : Finset (Fin a × Fin b))
    (fun cr => z.1 cr.1 + z.2 cr.2) ⟨(⟨0, ha⟩, ⟨0, hb⟩), Finset.mem_univ _⟩
  have h1 := hC G H z g1 k1 sx sy cr.1 cr.2
  have hab : (0 : ℝ) < a * b := by exact_mod_cast Nat.mul_pos ha hb
  have h2 : costOn (fun i => (unstack (X i) : Matrix (Fin b) (Fin a) 𝕜)) Jᶜ G H z.1 z.2 -
      J.card * (z.1 cr.1 + z.2 cr.2) ≤
      ∑ i, (Real.log (∑ c, ∑ r, kronTau (unstack (X' i)) G H c r * Real.exp (-(z.1 c + z.2 r))) -
        Real.log (∑ c, ∑ r, kronTau (unstack (X' i)) G H c r)) := by
    rw [← Finset.sum_add_sum_compl J, add_comm]
    have h3 : costOn (fun i => (unstack (X i) : Matrix (Fin b) (Fin a) 𝕜)) Jᶜ G H z.1 z.2 =
        ∑ i ∈ Jᶜ, (Real.log (∑ c, ∑ r, kronTau (unstack (X' i)) G H c r * Real.exp (-(z.1 c + z.2 r))) -
          Real.log (∑ c, ∑ r, kronTau (unstack (X' i)) G H c r)) :=
      Finset.sum_congr rfl fun i hi => by rw [hX' i (Finset.mem_compl.1 hi)]
    have h4 : ∑ i ∈ J, -(z.1 cr.1 + z.2 cr.2) ≤
        ∑ i ∈ J, (Real.log (∑ c, ∑ r, kronTau (unstack (X' i)) G H c r * Real.exp (-(z.1 c + z.2 r))) -
          Real.log (∑ c, ∑ r, kronTau (unstack (X' i)) G H c r)) :=
      Finset.sum_le_sum fun i _ => term_ge (hM' i) hG hH fun c r => hcr (c, r) (Finset.mem_univ _)
    rw [Finset.sum_const, nsmul_eq_mul] at h4
    linarith
  have h5 : ∑ i, (Real.log (∑ c, ∑ r, kronTau (unstack (X' i)) G H c r * Real.exp (-(z.1 c + z.2 r))) -
        Real.log (∑ c, ∑ r, kronTau (unstack (X' i)) G H c r)) ≤ 0 := by
    unfold kronF at hF
    rw [sx, sy] at hF
    by_contra hcon
    push Not at hcon
    have := mul_pos hab hcon
    linarith
  have hzn : ‖z‖ ≤ |C| / e := by
    rw [le_div_iff₀ he]
    linarith [le_abs_self C]
  have hx : ∀ c, |x c + -((∑ c, x c) / a)| ≤ |C| / e := fun c =>
    ((norm_le_pi_norm z.1 c).trans (norm_fst_le z)).trans hzn
  have hy : ∀ c, |y c + -((∑ r, y r) / b)| ≤ |C| / e := fun c =>
    ((norm_le_pi_norm z.2 c).trans (norm_snd_le z)).trans hzn
  exact ⟨⟨_, Real.exp_pos _, whitened_cond g1 g2 hx⟩, ⟨_, Real.exp_pos _, whitened_cond k1 k2 hy⟩⟩

/-- One bound on the condition numbers for all replacements of `m` samples. -/
theorem kron_bounded {X : Matrix (Fin N) (Fin (a * b)) 𝕜} (ha : 0 < a) (hb : 0 < b)
    (hX : GeneralPosition X) {m : ℕ} (hm : m * max a b + a * b < N) :
    ∃ κ : ℝ, 0 < κ ∧ ∀ X', Contaminated m X X' → NonzeroSamples X' →
      (KronSpread fun i => (unstack (X' i) : Matrix (Fin b) (Fin a) 𝕜)) ∧
      ∀ A B, KronFixed (fun i => (unstack (X' i) : Matrix (Fin b) (Fin a) 𝕜)) A B →
        (∃ s : ℝ, 0 < s ∧ EigenGe s A ∧ EigenLe (κ * s) A) ∧
        ∃ s : ℝ, 0 < s ∧ EigenGe s B ∧ EigenLe (κ * s) B := by
  classical
  have hN : 0 < N := by omega
  have hn0 := generalPosition_nonzero hX (Nat.mul_pos ha hb)
  have h0 : ∀ i, X i ≠ 0 := fun i h => hn0 i (by ext j; simp [sample, h])
  have hS : ∀ J : Finset (Fin N), J.card ≤ m →
      SpreadWith (fun i => (unstack (X i) : Matrix (Fin b) (Fin a) 𝕜)) Jᶜ J.card := fun J hJ => by
    refine general_spreadWith hX _ ?_
    rw [Finset.card_compl, Fintype.card_fin]
    have hD : 1 ≤ max a b := le_trans ha (le_max_left _ _)
    have h1 : J.card * max a b ≤ m * max a b := Nat.mul_le_mul_right _ hJ
    have h2 : J.card * (max a b - 1) + J.card = J.card * max a b := by
      rw [← Nat.mul_succ, Nat.succ_eq_add_one, Nat.sub_add_cancel hD]
    omega
  have hb' : ∀ J : Finset (Fin N), ∃ κ : ℝ, 1 ≤ κ ∧ (J.card ≤ m →
      ∀ X' : Matrix (Fin N) (Fin (a * b)) 𝕜, (∀ i, i ∉ J → X' i = X i) →
      (∀ i, X' i ≠ 0) → ∀ A B, KronFixed (fun i => (unstack (X' i) : Matrix (Fin b) (Fin a) 𝕜)) A B →
        (∃ s : ℝ, 0 < s ∧ Loewner ((s : 𝕜) • 1) A ∧ Loewner A (((κ * s : ℝ) : 𝕜) • 1)) ∧
        ∃ s : ℝ, 0 < s ∧ Loewner ((s : 𝕜) • 1) B ∧ Loewner B (((κ * s : ℝ) : 𝕜) • 1)) := fun J => by
    by_cases hJ : J.card ≤ m
    · obtain ⟨κ, h1, h2⟩ := kron_bounded_on hN ha hb h0 (hS J hJ)
      exact ⟨κ, h1, fun _ => h2⟩
    · exact ⟨1, le_rfl, fun h => absurd h hJ⟩
  choose κ hκ1 hκ using hb'
  have hle : ∀ J, κ J ≤ ∑ J, κ J := fun J =>
    Finset.single_le_sum (f := κ) (fun J _ => zero_le_one.trans (hκ1 J)) (Finset.mem_univ J)
  refine ⟨∑ J, κ J, lt_of_lt_of_le one_pos ((hκ1 ∅).trans (hle ∅)), fun X' hX' hn => ?_⟩
  obtain ⟨J, hJ, hsame⟩ := hX'
  have h0' : ∀ i, X' i ≠ 0 := fun i h => hn i (by ext j; simp [sample, h])
  have hsame' : ∀ i, i ∉ J → X' i = X i := fun i hi => hsame i hi
  refine ⟨(hS J hJ).kronSpread hN ha hb hsame' h0', fun A B hfix => ?_⟩
  obtain ⟨⟨s, hs, h1, h2⟩, t, ht, h3, h4⟩ := hκ J hJ X' hsame' h0' A B hfix
  have mono : ∀ {n : ℕ} {Z : Matrix (Fin n) (Fin n) 𝕜} {s : ℝ}, 0 < s → EigenLe (κ J * s) Z →
      EigenLe ((∑ J, κ J) * s) Z := fun {n Z s} hs h v =>
    (h v).trans (mul_le_mul_of_nonneg_right (mul_le_mul_of_nonneg_right (hle J) hs.le)
      (Finset.sum_nonneg fun _ _ => sq_nonneg _))
  exact ⟨⟨s, hs, eigenGe_of_loewner h1, mono hs (eigenLe_of_loewner h2)⟩,
    t, ht, eigenGe_of_loewner h3, mono ht (eigenLe_of_loewner h4)⟩

/-- Replacements of a share of `1 / max(a, b)` of the samples that destroy the estimate. -/
theorem kron_breaks (hN : 0 < N) (ha : 0 < a) (hb : 0 < b)
    (hab : 1 < a * b) {J : Finset (Fin N)} (hJ : N ≤ J.card * max a b) {j : Fin (a * b)}
    {X' : Matrix (Fin N) (Fin (a * b)) 𝕜} (hX' : ∀ i ∈ J, X' i = Pi.single j 1) :
    ¬ KronSpread fun i => (unstack (X' i) : Matrix (Fin b) (Fin a) 𝕜) := by
  classical
  rw [kronSpread_iff hN ha hb]
  push Not
  obtain ⟨⟨c, r⟩, rfl⟩ := finProdFinEquiv.surjective j
  have hN5 : ((Jᶜ).card : ℝ) + J.card = N := by
    have := Finset.card_add_card_compl J
    rw [Fintype.card_fin] at this
    rw [add_comm]
    exact_mod_cast this
  have hent : ∀ i ∈ J, ∀ r' c', (unstack (X' i) : Matrix (Fin b) (Fin a) 𝕜) r' c' ≠ 0 → c' = c ∧ r' = r :=
    fun i hi r' c' h => by
      rw [hX' i hi] at h
      simp only [unstack, of_apply] at h
      by_contra hne
      refine h (Pi.single_eq_of_ne (fun e => hne ?_) _)
      have := finProdFinEquiv.injective e
      exact ⟨congrArg Prod.fst this, congrArg Prod.snd this⟩
  rcases le_total b a with hle | hle
  · have ha1 : 1 < a := by
      by_contra h
      have : a = 1 := by omega
      have : b = 1 := by omega
      simp_all
    rw [max_eq_left hle] at hJ
    have : ∃ d : Fin a, d ≠ c := by
      have : Nontrivial (Fin a) := Fin.nontrivial_iff_two_le.2 ha1
      exact exists_ne c
    obtain ⟨d, hd⟩ := this
    refine ⟨1, 1, fun c' => if c' = c then -((a : ℝ) - 1) else 1, fun _ => 0,
      fun i => if i ∈ J then -((a : ℝ) - 1) else 1, isUnit_one, isUnit_one,
      .inl ⟨c, d, ?_⟩, fun i r' c' h => ?_, ?_⟩
    · simp only [if_true, if_neg hd]
      have : (1 : ℝ) < a := by exact_mod_cast ha1
      linarith
    · rw [Matrix.one_mul, Matrix.mul_one] at h
      simp only [add_zero]
      have : (1 : ℝ) < a := by exact_mod_cast ha1
      split_ifs with h1 h2 h2
      · exact le_rfl
      · linarith
      · exact absurd (hent i h2 r' c' h).1 h1
      · exact le_rfl
    · have e1 : ∑ c', (if c' = c then -((a : ℝ) - 1) else 1) = 0 := by
        rw [Finset.sum_ite, Finset.filter_eq' _ c, if_pos (Finset.mem_univ _), Finset.sum_singleton,
          Finset.filter_ne' _ c, Finset.sum_const, Finset.card_erase_of_mem (Finset.mem_univ _),
          Finset.card_univ, Fintype.card_fin, nsmul_eq_mul, Nat.cast_sub ha]
        simp
      have e2 : ∑ i, (if i ∈ J then -((a : ℝ) - 1) else 1) = N - J.card * a := by
        rw [← Finset.sum_add_sum_compl J, Finset.sum_congr rfl fun i hi => if_pos hi,
          Finset.sum_congr rfl fun i hi => if_neg (Finset.mem_compl.1 hi), Finset.sum_const,
          Finset.sum_const, nsmul_eq_mul, nsmul_eq_mul, ← hN5]
        ring
      have e3 : (N : ℝ) ≤ J.card * a := by exact_mod_cast hJ
      rw [e1, e2]
      simp only [Finset.sum_const_zero, mul_zero, add_zero]
      exact mul_nonpos_of_nonneg_of_nonpos (by positivity) (by linarith)
  · have hb1 : 1 < b := by
      by_contra h
      have : a = 1 := by omega
      have : b = 1 := by omega
      simp_all
    rw [max_eq_right hle] at hJ
    have : ∃ d : Fin b, d ≠ r := by
      have : Nontrivial (Fin b) := Fin.nontrivial_iff_two_le.2 hb1
      exact exists_ne r
    obtain ⟨d, hd⟩ := this
    refine ⟨1, 1, fun _ => 0, fun c' => if c' = r then -((b : ℝ) - 1) else 1,
      fun i => if i ∈ J then -((b : ℝ) - 1) else 1, isUnit_one, isUnit_one,
      .inr ⟨r, d, ?_⟩, fun i r' c' h => ?_, ?_⟩
    · simp only [if_true, if_neg hd]
      have : (1 : ℝ) < b := by exact_mod_cast hb1
      linarith
    · rw [Matrix.one_mul, Matrix.mul_one] at h
      simp only [zero_add]
      have : (1 : ℝ) < b := by exact_mod_cast hb1
      split_ifs with h1 h2 h2
      · exact le_rfl
      · linarith
      · exact absurd (hent i h2 r' c' h).2 h1
      · exact le_rfl
    · have e1 : ∑ c', (if c' = r then -((b : ℝ) - 1) else 1) = 0 := by
        rw [Finset.sum_ite, Finset.filter_eq' _ r, if_pos (Finset.mem_univ _), Finset.sum_singleton,
          Finset.filter_ne' _ r, Finset.sum_const, Finset.card_erase_of_mem (Finset.mem_univ _),
          Finset.card_univ, Fintype.card_fin, nsmul_eq_mul, Nat.cast_sub hb]
        simp
      have e2 : ∑ i, (if i ∈ J then -((b : ℝ) - 1) else 1) = N - J.card * b := by
        rw [← Finset.sum_add_sum_compl J, Finset.sum_congr rfl fun i hi => if_pos hi,
          Finset.sum_congr rfl fun i hi => if_neg (Finset.mem_compl.1 hi), Finset.sum_const,
          Finset.sum_const, nsmul_eq_mul, nsmul_eq_mul, ← hN5]
        ring
      have e3 : (N : ℝ) ≤ J.card * b := by exact_mod_cast hJ
      rw [e1, e2]
      simp only [Finset.sum_const_zero, mul_zero, zero_add]
      exact mul_nonpos_of_nonneg_of_nonpos (by positivity) (by linarith)

theorem quad_share {n : ℕ} {S : Matrix (Fin n) (Fin n) 𝕜} (hS : S.PosDef) {ι : Type} [Fintype ι]
    [DecidableEq ι] (hN : 0 < Fintype.card ι) (τ : ι → 𝕜) (C : ι → Matrix (Fin n) (Fin n) 𝕜)
    (hτ : ∀ i, 0 ≤ τ i) (hC : ∀ i, (C i).PosSemidef)
    (hfix : ((n : 𝕜) / Fintype.card ι) • ∑ i, (τ i)⁻¹ • C i = S) {J : Finset ι} {c : Fin n} {t : 𝕜}
    (ht : t ≠ 0) (hJ : ∀ i ∈ J, C i = Matrix.single c c t ∧ τ i = S⁻¹ c c * t) :
    J.card * n ≤ Fintype.card ι := by
  have hu := (isUnit_iff_isUnit_det _).1 hS.isUnit
  have hαpos : 0 < S⁻¹ c c := hS.inv.diag_pos
  obtain ⟨α, hα⟩ : ∃ α : ℝ, S⁻¹ c c = (α : 𝕜) := ⟨RCLike.re (S⁻¹ c c),
    RCLike.ext (by simp) (by rw [(RCLike.pos_iff.1 hαpos).2, RCLike.ofReal_im])⟩
  rw [hα] at hαpos
  have hα0 : 0 < α := by exact_mod_cast hαpos
  set v : Fin n → 𝕜 := S⁻¹ *ᵥ Pi.single c 1 with hv
  have hvc : v c = (α : 𝕜) := by rw [hv, ← hα]; simp
  have h1 : star v ⬝ᵥ S *ᵥ v = (α : 𝕜) := by
    rw [hv, mulVec_mulVec, Matrix.mul_nonsing_inv _ hu, one_mulVec, dotProduct_single, mul_one,
      Pi.star_apply, ← hv, hvc, RCLike.star_def, RCLike.conj_ofReal]
  have h2 : star v ⬝ᵥ S *ᵥ v = ((n : 𝕜) / Fintype.card ι) * ∑ i, (τ i)⁻¹ * (star v ⬝ᵥ C i *ᵥ v) := by
    conv_lhs => rw [← hfix]
    rw [smul_mulVec, dotProduct_smul, sum_mulVec, dotProduct_sum, smul_eq_mul]
    congr 1
    refine Finset.sum_congr rfl fun i _ => ?_
    rw [smul_mulVec, dotProduct_smul, smul_eq_mul]
  have h3 : ∀ i, 0 ≤ RCLike.re ((τ i)⁻¹ * (star v ⬝ᵥ C i *ᵥ v)) := fun i =>
    (RCLike.nonneg_iff.1 (mul_nonneg (inv_nonneg.2 (hτ i))
      ((posSemidef_iff_dotProduct_mulVec.1 (hC i)).2 v))).1
  have h4 : ∀ i ∈ J, RCLike.re ((τ i)⁻¹ * (star v ⬝ᵥ C i *ᵥ v)) = α := fun i hi => by
    have e : star v ⬝ᵥ C i *ᵥ v = (α : 𝕜) * (t * α) := by
      rw [(hJ i hi).1]
      have : Matrix.single c c t *ᵥ v = Pi.single c (t * v c) := by
        ext j
        by_cases hj : c = j
        · subst hj
          simp [Matrix.mulVec, dotProduct, Matrix.single]
        · simp [Matrix.mulVec, dotProduct, Matrix.single, hj, Ne.symm hj]
      rw [this, dotProduct_single, Pi.star_apply, hvc, RCLike.star_def, RCLike.conj_ofReal]
    have hα' : (α : 𝕜) ≠ 0 := by exact_mod_cast hα0.ne'
    rw [e, (hJ i hi).2, hα, show ((α : 𝕜) * t)⁻¹ * (α * (t * α)) = α by field_simp, RCLike.ofReal_re]
  have h5 : α = n / Fintype.card ι * ∑ i, RCLike.re ((τ i)⁻¹ * (star v ⬝ᵥ C i *ᵥ v)) := by
    have := congrArg RCLike.re (h1.symm.trans h2)
    rw [RCLike.ofReal_re, show ((n : 𝕜) / Fintype.card ι) = ((n / Fintype.card ι : ℝ) : 𝕜) by push_cast; rfl,
      RCLike.re_ofReal_mul, map_sum] at this
    exact this
  have h6 : J.card * α ≤ ∑ i, RCLike.re ((τ i)⁻¹ * (star v ⬝ᵥ C i *ᵥ v)) := by
    have e : ∑ i ∈ J, RCLike.re ((τ i)⁻¹ * (star v ⬝ᵥ C i *ᵥ v)) = J.card * α := by
      rw [Finset.sum_congr rfl h4, Finset.sum_const, nsmul_eq_mul]
    rw [← e]
    exact Finset.sum_le_sum_of_subset_of_nonneg (Finset.subset_univ _) fun i _ _ => h3 i
  have hN' : (0 : ℝ) < Fintype.card ι := by exact_mod_cast hN
  have h7 : α * Fintype.card ι = n * ∑ i, RCLike.re ((τ i)⁻¹ * (star v ⬝ᵥ C i *ᵥ v)) := by
    conv_lhs => rw [h5]
    field_simp
  have h8 : (J.card * n : ℝ) * α ≤ Fintype.card ι * α := by
    have := mul_le_mul_of_nonneg_left h6 (Nat.cast_nonneg (α := ℝ) n)
    linarith
  exact_mod_cast le_of_mul_le_mul_right h8 hα0

/-- A stationary pair bounds the number of equal samples with one entry. -/
theorem kronFixed_count {M : Fin N → Matrix (Fin b) (Fin a) 𝕜} (hN : 0 < N)
    {A : Matrix (Fin a) (Fin a) 𝕜} {B : Matrix (Fin b) (Fin b) 𝕜} (h : KronFixed M A B)
    {J : Finset (Fin N)} {r : Fin b} {c : Fin a} (hJ : ∀ i ∈ J, M i = Matrix.single r c 1) :
    J.card * a ≤ N ∧ J.card * b ≤ N := by
  classical
  obtain ⟨G, -, g1, -⟩ := simultaneous_exp A 1 h.posA PosDef.one
  obtain ⟨H, -, k1, -⟩ := simultaneous_exp B 1 h.posB PosDef.one
  have hτ : ∀ i, 0 ≤ trace (A⁻¹ * ((M i)ᴴ * B⁻¹ * M i)) := fun i => by
    have hd : trace (A⁻¹ * ((M i)ᴴ * B⁻¹ * M i)) = ((∑ c, ∑ r, kronTau (M i) G H c r : ℝ) : 𝕜) := by
      have := trace_diag_form (l := fun _ => 1) (m := fun _ => 1) (whitening_isUnit g1)
        (whitening_isUnit k1) (fun _ => one_pos)
        (fun _ => one_pos) (by rw [g1]; simp) (by rw [k1]; simp) (M i)
      simpa [kronTau] using this
    rw [hd]
    exact RCLike.ofReal_nonneg.2
      (Finset.sum_nonneg fun c _ => Finset.sum_nonneg fun r _ => kronTau_nonneg _ _ _ _ _)
  have hα := (h.posA.inv.diag_pos (i := c)).ne'
  have hβ := (h.posB.inv.diag_pos (i := r)).ne'
  have s1 : ∀ Z : Matrix (Fin b) (Fin b) 𝕜, (Matrix.single r c (1 : 𝕜))ᴴ * Z * Matrix.single r c (1 : 𝕜) =
      Matrix.single c c (Z r r) := fun Z => by
    rw [conjTranspose_single, star_one, single_mul_mul_single]
    simp
  have s2 : ∀ Z : Matrix (Fin a) (Fin a) 𝕜, Matrix.single r c (1 : 𝕜) * Z * (Matrix.single r c (1 : 𝕜))ᴴ =
      Matrix.single r r (Z c c) := fun Z => by
    rw [conjTranspose_single, star_one, single_mul_mul_single]
    simp
  have s3 : ∀ (Z : Matrix (Fin a) (Fin a) 𝕜) (t : 𝕜), trace (Z * Matrix.single c c t) = Z c c * t :=
    fun Z t => by rw [trace_mul_single]; rfl
  constructor
  · have := quad_share h.posA (ι := Fin N) (by simpa using hN) _ _ hτ
      (fun i => h.posB.inv.posSemidef.conjTranspose_mul_mul_same (M i))
      (by rw [Fintype.card_fin]; exact h.eqA) (J := J) (c := c) hβ
      (fun i hi => by rw [hJ i hi, s1, s3]; exact ⟨rfl, rfl⟩)
    simpa using this
  · have := quad_share h.posB (ι := Fin N) (by simpa using hN) _ _ hτ
      (fun i => h.posA.inv.posSemidef.mul_mul_conjTranspose_same (M i))
      (by rw [Fintype.card_fin]; exact h.eqB) (J := J) (c := r) hα
      (fun i hi => by rw [hJ i hi, s1, s2, s3]; exact ⟨rfl, mul_comm _ _⟩)
    simpa using this

end
end RS
