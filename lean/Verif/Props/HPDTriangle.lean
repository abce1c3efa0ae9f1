import Verif.Props.HPDDist
import Verif.Props.Product
import Verif.Lemmas.LogDist

/-
The triangle inequality for the distance of the Hermitian positive definite matrices, C88.
-/
set_option autoImplicit false

namespace RS
open Matrix ComplexOrder
variable {n k : ℕ}

theorem genEig_triangle {a b c : Matrix (Fin n) (Fin n) ℂ} (ha : a.PosDef) (hb : b.PosDef)
    (hc : c.PosDef) : ∃ x y z : Fin n → ℝ, GenEig a b x ∧ GenEig b c y ∧ GenEig a c z ∧
      Real.sqrt (∑ j, Real.log (z j) ^ 2) ≤
        Real.sqrt (∑ j, Real.log (x j) ^ 2) + Real.sqrt (∑ j, Real.log (y j) ^ 2) := by
  obtain ⟨e, he⟩ := eigh_exists (ι := Fin n) (𝕜 := ℂ)
  have hr := root_of_eigh he ha
  set S := matrixOperator e Real.sqrt a
  set R := matrixOperator e (fun d => 1 / Real.sqrt d) a
  have hi : S⁻¹ = R := inv_eq_right_inv hr.right
  have hRu : IsUnit R := hr.isUnit'
  obtain ⟨G, l, hG, hl, hGb, hGc⟩ := simultaneous b c hb hc
  have hGd : IsUnit G.det := (isUnit_iff_isUnit_det _).1 hG
  have hGd' : IsUnit Gᴴ.det := by rw [det_conjTranspose]; exact hGd.star
  have hGi : (G⁻¹)ᴴ = (Gᴴ)⁻¹ := conjTranspose_nonsing_inv G
  have back : ∀ M D : Matrix (Fin n) (Fin n) ℂ, G * M * Gᴴ = D → M = G⁻¹ * D * (G⁻¹)ᴴ := by
    intro M D h
    rw [← h, hGi]
    calc M = (G⁻¹ * G) * M * (Gᴴ * (Gᴴ)⁻¹) := by
          rw [nonsing_inv_mul _ hGd, mul_nonsing_inv _ hGd', Matrix.one_mul, Matrix.mul_one]
      _ = _ := by simp only [Matrix.mul_assoc]
  have hbT : b = G⁻¹ * (G⁻¹)ᴴ := by rw [back b 1 hGb, Matrix.mul_one]
  have hcT := back c _ hGc
  have hGiu : IsUnit G⁻¹ := isUnit_nonsing_inv_iff.2 hG
  obtain ⟨U, V, x, z, hU, hV, hx, hz, hle⟩ := log_triangle (T := R * G⁻¹) (hRu.mul hGiu)
    (fun j => Real.log (l j))
  refine ⟨x, l, z, ?_, ?_, ?_, hle⟩
  · refine genEig_of_chol (c := S) (e := ⟨x, U⟩) ha (by rw [hr.hS.eq, hr.sq]) ⟨hU, ?_⟩
    rw [hi, hbT, ← hx, conjTranspose_mul]
    simp only [Matrix.mul_assoc]
  · refine genEig_of_chol (c := G⁻¹) (e := ⟨l, 1⟩) hb hbT.symm ⟨by simp, ?_⟩
    rw [nonsing_inv_nonsing_inv _ hGd, hGc]
    simp
  · refine genEig_of_chol (c := S) (e := ⟨z, V⟩) ha (by rw [hr.hS.eq, hr.sq]) ⟨hV, ?_⟩
    simp only [Real.exp_log (hl _)] at hz
    rw [hi, hcT, ← hz, conjTranspose_mul]
    simp only [Matrix.mul_assoc]

/-- Minkowski's inequality for stacks. -/
theorem sqrt_sum_triangle {ι : Type*} [Fintype ι] (f g h : ι → ℝ) (h0 : ∀ i, 0 ≤ h i)
    (hle : ∀ i, h i ≤ f i + g i) :
    Real.sqrt (∑ i, h i ^ 2) ≤ Real.sqrt (∑ i, f i ^ 2) + Real.sqrt (∑ i, g i ^ 2) := by
  have e : ∀ t : ι → ℝ, Real.sqrt (∑ i, t i ^ 2) =
      ‖(WithLp.toLp 2 t : EuclideanSpace ℝ ι)‖ := fun t => by
    rw [EuclideanSpace.norm_eq]
    simp
  refine le_trans ?_ (le_of_le_of_eq (norm_add_le
    (WithLp.toLp 2 f : EuclideanSpace ℝ ι) (WithLp.toLp 2 g)) (by rw [e, e]))
  rw [EuclideanSpace.norm_eq]
  refine Real.sqrt_le_sqrt (Finset.sum_le_sum fun i _ => ?_)
  rw [Real.norm_eq_abs, sq_abs]
  exact pow_le_pow_left₀ (h0 i) (hle i) 2

section
variable {eigh : Eigh (Fin n) ℂ} {chol back : Matrix (Fin n) (Fin n) ℂ → Matrix (Fin n) (Fin n) ℂ}

/-- The triangle inequality. -/
theorem C88_triangle (hs : eigh.Ok) (hc : CholOk chol) (hb : BackOk back) (x y z : Stack n k)
    (hx : ∀ i, (x i).PosDef) (hy : ∀ i, (y i).PosDef) (hz : ∀ i, (z i).PosDef) :
    HPD.dist eigh chol back x z ≤ HPD.dist eigh chol back x y + HPD.dist eigh chol back y z := by
  choose a b c ha hb' hc' hle using fun i => genEig_triangle (hx i) (hy i) (hz i)
  rw [dist_of_genEig hs hc hb hx (fun i => (hz i).1) hc',
    dist_of_genEig hs hc hb hx (fun i => (hy i).1) ha,
    dist_of_genEig hs hc hb hy (fun i => (hz i).1) hb']
  have := sqrt_sum_triangle (fun i => Real.sqrt (∑ j, Real.log (a i j) ^ 2))
    (fun i => Real.sqrt (∑ j, Real.log (b i j) ^ 2))
    (fun i => Real.sqrt (∑ j, Real.log (c i j) ^ 2)) (fun i => Real.sqrt_nonneg _) hle
  simpa only [Real.sq_sqrt (Finset.sum_nonneg fun j _ => sq_nonneg _)] using this

/-- The hypotheses are met: three different stacks, with every solver the contracts allow. -/
example : ∃ (eigh : Eigh (Fin 2) ℂ) (chol back : Matrix (Fin 2) (Fin 2) ℂ → Matrix (Fin 2) (Fin 2) ℂ)
    (x y z : Stack 2 3), eigh.Ok ∧ CholOk chol ∧ BackOk back ∧ (∀ i, (x i).PosDef) ∧
      (∀ i, (y i).PosDef) ∧ (∀ i, (z i).PosDef) ∧ x ≠ y ∧ y ≠ z ∧ x ≠ z := by
  obtain ⟨e, he⟩ := eigh_exists (ι := Fin 2) (𝕜 := ℂ)
  have hpd : ∀ c : ℝ, 0 < c → ((c : ℂ) • (1 : Matrix (Fin 2) (Fin 2) ℂ)).PosDef := fun c hc =>
    PosDef.one.smul (by exact_mod_cast hc)
  have hne : ∀ c d : ℝ, c ≠ d → (fun _ => (c : ℂ) • 1 : Stack 2 3) ≠ fun _ => (d : ℂ) • 1 := by
    intro c d h h'
    have := congrFun (congrFun (congrFun h' 0) 0) 0
    simp at this
    exact h this
  exact ⟨e, fun A => matrixOperator e Real.sqrt A, fun V => Vᴴ, fun _ => ((1 : ℝ) : ℂ) • 1,
    fun _ => ((2 : ℝ) : ℂ) • 1, fun _ => ((3 : ℝ) : ℂ) • 1, he,
    fun A hA => by
      have := root_of_eigh he hA
      rw [this.hS.eq, this.sq], fun V h => by simpa using h,
    fun _ => hpd 1 one_pos, fun _ => hpd 2 two_pos, fun _ => hpd 3 three_pos,
    hne _ _ (by norm_num), hne _ _ (by norm_num), hne _ _ (by norm_num)⟩

end

/-! ## Products -/

/-- `dist` is a distance between the points satisfying `P`. -/
structure MetricOn {α : Type*} (dist : α → α → ℝ) (P : α → Prop) : Prop where
  nonneg : ∀ x y, P x → P y → 0 ≤ dist x y
  symm : ∀ x y, P x → P y → dist x y = dist y x
  zero_iff : ∀ x y, P x → P y → (dist x y = 0 ↔ x = y)
  triangle : ∀ x y z, P x → P y → P z → dist x z ≤ dist x y + dist y z

theorem metricOn_spv (n : ℕ) : MetricOn (Mfd.spv n).dist
    (fun x => Positive (x : Matrix (Fin n) (Fin 1) ℝ)) where
  nonneg x y _ _ := le_of_le_of_eq dist_nonneg (spv_dist_eq (k := 1) x y 0).symm
  symm x y _ _ := congrFun (C51_dist_symm (k := 1) x y) 0
  zero_iff x y hx hy :=
    ⟨fun h => (C51_dist_zero_iff (k := 1) x y hx hy).1 fun j => by
      rw [Subsingleton.elim j 0]; exact h,
     fun h => (C51_dist_zero_iff (k := 1) x y hx hy).2 h 0⟩
  triangle x y z _ _ _ := C51_dist_triangle (k := 1) x y z 0

theorem metricOn_hpd (n k : ℕ) {eigh : Eigh (Fin n) ℂ}
    {chol back : Matrix (Fin n) (Fin n) ℂ → Matrix (Fin n) (Fin n) ℂ} (hs : eigh.Ok)
    (hc : CholOk chol) (hb : BackOk back) : MetricOn (Mfd.hpd n k eigh chol back).dist
      (fun x => ∀ i, ((x : Stack n k) i).PosDef) where
  nonneg x y hx hy := (C88_zero_iff hs hc hb x y hx hy).1
  symm x y hx hy := C88_symm hs hc hb x y hx hy
  zero_iff x y hx hy := (C88_zero_iff hs hc hb x y hx hy).2
  triangle x y z hx hy hz := C88_triangle hs hc hb x y z hx hy hz

theorem metricOn_shpd (n k : ℕ) {eigh : Eigh (Fin n) ℂ}
    {chol back : Matrix (Fin n) (Fin n) ℂ → Matrix (Fin n) (Fin n) ℂ} (hs : eigh.Ok)
    (hc : CholOk chol) (hb : BackOk back) : MetricOn (Mfd.shpd n k eigh chol back).dist
      (fun x => ∀ i, ((x : Stack n k) i).PosDef) where
  nonneg x y hx hy := (C88_zero_iff hs hc hb x y hx hy).1
  symm x y hx hy := C88_symm hs hc hb x y hx hy
  zero_iff x y hx hy := (C88_zero_iff hs hc hb x y hx hy).2
  triangle x y z hx hy hz := C88_triangle hs hc hb x y z hx hy hz

/-- With positive weights the distance of the product is a distance; the three manifolds of the
package meet the hypothesis (`metricOn_spv`, `metricOn_hpd`, `metricOn_shpd`). -/
theorem C58_dist_metric {m : ℕ} (M : Fin m → Mfd) (w : Fin m → ℝ) (hw : ∀ i, 0 < w i)
    (P : ∀ i, (M i).Pt → Prop) (hM : ∀ i, MetricOn (M i).dist (P i)) :
    MetricOn (WeightedProduct.dist M w) (fun X => ∀ i, P i (X i)) where
  nonneg X Y _ _ := (C58_dist_sq M w (fun i => (hw i).le) X Y).1
  symm X Y hX hY := C58_dist_symm M w X Y fun i => (hM i).symm _ _ (hX i) (hY i)
  zero_iff X Y hX hY := by
    rw [C58_dist_zero_iff M w hw X Y, funext_iff]
    exact forall_congr' fun i => (hM i).zero_iff _ _ (hX i) (hY i)
  triangle X Y Z hX hY hZ := C58_dist_triangle M w (fun i => (hw i).le) X Y Z
    (fun i => (hM i).nonneg _ _ (hX i) (hZ i))
    (fun i => (hM i).triangle _ _ _ (hX i) (hY i) (hZ i))

end RS
