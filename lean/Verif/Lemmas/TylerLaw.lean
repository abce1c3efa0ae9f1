import Verif.Lemmas.StudentEff
import Verif.Lemmas.FisherReal
import Verif.Lemmas.ConsistEll
import Verif.Props.Consist
import Verif.Spec.TylerLaw

/-! The limit law of Tyler's estimates on samples of elliptical laws. -/
set_option autoImplicit false

namespace RS
open Matrix ComplexOrder Filter Topology MeasureTheory ProbabilityTheory

section
set_option linter.unusedSectionVars false
variable {𝕜 : Type} [RCLike 𝕜] [MeasurableSpace 𝕜] [BorelSpace 𝕜] {p : ℕ}
  {μ : Measure (Fin p → 𝕜)} {b : ℝ} {S : Matrix (Fin p) (Fin p) 𝕜}
  {Ω : Type*} [MeasurableSpace Ω] {P : Measure Ω} [IsProbabilityMeasure P] {x : ℕ → Ω → Fin p → 𝕜}

/-- Mean products of Hermitian forms on the sphere; `b` is 1 for complex and 2 for real data. -/
def SphereForms (b : ℝ) (μ : Measure (Fin p → 𝕜)) (S : Matrix (Fin p) (Fin p) 𝕜) : Prop :=
  ∀ K : Matrix (Fin p) (Fin p) 𝕜, K.IsHermitian → ∫ x, dWeight 0 S K x * hfm K x ∂μ =
    (b * mip K (S * K * S) + mip K S ^ 2) / (p + b)

theorem herm_smul (c : ℝ) {K : Matrix (Fin p) (Fin p) 𝕜} (hK : K.IsHermitian) :
    ((c : 𝕜) • K).IsHermitian := by
  rw [IsHermitian, conjTranspose_smul, hK.eq, RCLike.star_def, RCLike.conj_ofReal]

theorem herm_sandwich (hS : S.IsHermitian) {K : Matrix (Fin p) (Fin p) 𝕜} (hK : K.IsHermitian) :
    (S * K * S).IsHermitian := by
  rw [IsHermitian, conjTranspose_mul, conjTranspose_mul, hS.eq, hK.eq, Matrix.mul_assoc]

theorem mip_eq_zero {E : Matrix (Fin p) (Fin p) 𝕜} (h : mip E E = 0) : E = 0 := by
  rw [mip_apply] at h
  have h1 : ∀ i j, RCLike.re (star (E j i) * E j i) = ‖E j i‖ ^ 2 := fun i j => by
    rw [RCLike.star_def, RCLike.conj_mul, ← RCLike.ofReal_pow, RCLike.ofReal_re]
  simp only [h1] at h
  have h2 := (Finset.sum_eq_zero_iff_of_nonneg fun i _ => Finset.sum_nonneg fun j _ => sq_nonneg _).1 h
  ext j i
  have h3 := (Finset.sum_eq_zero_iff_of_nonneg fun j _ => sq_nonneg _).1 (h2 i (Finset.mem_univ i)) j
    (Finset.mem_univ j)
  simpa using h3

theorem mip_add_left (K L A : Matrix (Fin p) (Fin p) 𝕜) : mip (K + L) A = mip K A + mip L A := by
  rw [mip_comm, mip_add, mip_comm A, mip_comm A]

theorem mip_sub_left (K L A : Matrix (Fin p) (Fin p) 𝕜) : mip (K - L) A = mip K A - mip L A := by
  rw [mip_comm, mip_sub, mip_comm A, mip_comm A]

theorem mip_smul_left (K A : Matrix (Fin p) (Fin p) 𝕜) (c : ℝ) : mip ((c : 𝕜) • K) A = c * mip K A := by
  rw [mip_comm, mip_smul, mip_comm A]

theorem en_conj (A : Matrix (Fin p) (Fin p) 𝕜) : en Aᴴ = en A := by
  unfold en
  rw [Finset.sum_comm]
  simp only [conjTranspose_apply, norm_star]

theorem form_int [IsProbabilityMeasure μ] (hS : S.PosDef) (K E : Matrix (Fin p) (Fin p) 𝕜) :
    Integrable (fun x => dWeight 0 S K x * hfm E x) μ :=
  (mip_wMoment (dWeight_int (μ := μ) le_rfl hS K) E).1

theorem dWeight_comm (K E : Matrix (Fin p) (Fin p) 𝕜) (x : Fin p → 𝕜) :
    dWeight 0 S K x * hfm E x = dWeight 0 S E x * hfm K x := by
  unfold dWeight
  ring

/-- Mean products of two forms. -/
theorem SphereForms.polar [IsProbabilityMeasure μ] (hF : SphereForms b μ S) (hb : 0 < b) (hS : S.PosDef)
    {K E : Matrix (Fin p) (Fin p) 𝕜} (hK : K.IsHermitian) (hE : E.IsHermitian) :
    ∫ x, dWeight 0 S K x * hfm E x ∂μ = (b * mip K (S * E * S) + mip K S * mip E S) / (p + b) := by
  have hpb : (p : ℝ) + b ≠ 0 := by positivity
  have h1 := hF _ (hK.add hE)
  have e : ∀ x, dWeight 0 S (K + E) x * hfm (K + E) x = dWeight 0 S K x * hfm K x +
      2 * (dWeight 0 S K x * hfm E x) + dWeight 0 S E x * hfm E x := fun x => by
    simp only [dWeight, hfm_add]
    ring
  simp only [e] at h1
  rw [integral_add ((form_int hS K K).fun_add ((form_int hS K E).const_mul 2)) (form_int hS E E),
    integral_add (form_int hS K K) ((form_int hS K E).const_mul 2), integral_const_mul, hF K hK, hF E hE,
    Matrix.mul_add, Matrix.add_mul, mip_add, mip_add_left, mip_add_left, mip_add_left,
    mip_sandwich hS.isHermitian E K, mip_comm _ K] at h1
  field_simp at h1 ⊢
  linarith

theorem SphereForms.jac_eq [IsProbabilityMeasure μ] (hF : SphereForms b μ S) (hb : 0 < b) (hS : S.PosDef)
    {K : Matrix (Fin p) (Fin p) 𝕜} (hK : K.IsHermitian) (h0 : mip K S = 0) :
    jac 0 μ S K = ((p / (p + b) : ℝ) : 𝕜) • (S * K * S) := by
  have hpb : (p : ℝ) + b ≠ 0 := by positivity
  rw [← sub_eq_zero]
  apply mip_eq_zero
  have hE : (jac 0 μ S K - ((p / (p + b) : ℝ) : 𝕜) • (S * K * S)).IsHermitian :=
    ((herm_sandwich hS.isHermitian hK).sub (wMoment_herm _ _)).sub
      (herm_smul _ (herm_sandwich hS.isHermitian hK))
  set E := jac 0 μ S K - ((p / (p + b) : ℝ) : 𝕜) • (S * K * S)
  change mip E (jac 0 μ S K - _) = 0
  rw [mip_sub, jac_symm hS, mip_smul, (mip_wMoment (dWeight_int le_rfl hS K) E).2,
    hF.polar hb hS hK hE, h0, mip_sandwich hS.isHermitian K E, mip_comm _ E]
  field_simp
  ring

/-- `H` without its component along the scale. -/
noncomputable def unscaled (G S H : Matrix (Fin p) (Fin p) 𝕜) : Matrix (Fin p) (Fin p) 𝕜 :=
  H - ((mip H S : ℝ) : 𝕜) • G

variable {G : Matrix (Fin p) (Fin p) 𝕜}

theorem unscaled_herm (hG : G.IsHermitian) (S : Matrix (Fin p) (Fin p) 𝕜) {H : Matrix (Fin p) (Fin p) 𝕜}
    (hH : H.IsHermitian) : (unscaled G S H).IsHermitian := hH.sub (herm_smul _ hG)

theorem mip_one (A : Matrix (Fin p) (Fin p) 𝕜) : mip 1 A = RCLike.re A.trace := by
  rw [mip, conjTranspose_one, Matrix.one_mul]

theorem unscaled_mip (G S H A : Matrix (Fin p) (Fin p) 𝕜) :
    mip (unscaled G S H) A = mip H A - mip H S * mip G A := by
  rw [unscaled, mip_sub_left, mip_smul_left]

theorem unscaled_zero (hGS : mip G S = 1) (H : Matrix (Fin p) (Fin p) 𝕜) : mip (unscaled G S H) S = 0 := by
  rw [unscaled_mip, hGS, mul_one, sub_self]

theorem SphereForms.solves [IsProbabilityMeasure μ] (hF : SphereForms b μ S) (hb : 0 < b) (hp : 0 < p)
    (hS : S.PosDef) (hG : G.IsHermitian) (hGS : mip G S = 1) {H : Matrix (Fin p) (Fin p) 𝕜}
    (hH : H.IsHermitian) :
    jac 0 μ S ((((p + b) / p : ℝ) : 𝕜) • unscaled G S H) = S * unscaled G S H * S := by
  have hp' : (0 : ℝ) < p := by exact_mod_cast hp
  rw [hF.jac_eq hb hS (herm_smul _ (unscaled_herm hG S hH))
    (by rw [mip_smul_left, unscaled_zero hGS, mul_zero]), Matrix.mul_smul, Matrix.smul_mul, smul_smul,
    ← RCLike.ofReal_mul, show (p : ℝ) / (p + b) * ((p + b) / p) = 1 by field_simp, RCLike.ofReal_one,
    one_smul]

theorem SphereForms.variance_eq [IsProbabilityMeasure μ] (hF : SphereForms b μ S) (hb : 0 < b) (hp : 0 < p)
    (hS : S.PosDef) (hf : PopFixed 0 μ S) (hG : G.IsHermitian) (hGS : mip G S = 1)
    {H : Matrix (Fin p) (Fin p) 𝕜} (hH : H.IsHermitian) :
    Var[wScore 0 S ((((p + b) / p : ℝ) : 𝕜) • unscaled G S H); μ] =
      b * (p + b) / p * mip (unscaled G S H) (S * unscaled G S H * S) := by
  have hp' : (0 : ℝ) < p := by exact_mod_cast hp
  set K := (((p + b) / p : ℝ) : 𝕜) • unscaled G S H with hK
  have hKh : K.IsHermitian := herm_smul _ (unscaled_herm hG S hH)
  have h0 : mip K S = 0 := by rw [mip_smul_left, unscaled_zero hGS, mul_zero]
  rw [variance_eq_sub (score_memLp le_rfl hS K), score_mean le_rfl hS hf, h0]
  have e : ∀ x, (wScore 0 S K ^ 2) x = p * (dWeight 0 S K x * hfm K x) := fun x => by
    simp only [Pi.pow_apply, wScore, dWeight]
    rw [mul_pow, div_pow]
    ring
  simp only [e]
  rw [integral_const_mul, hF K hKh, h0, hK, Matrix.mul_smul, Matrix.smul_mul, mip_smul, mip_smul_left]
  field_simp
  ring

/-- The Hermitian directions in which the entries of a Hermitian matrix are read off, twice. -/
noncomputable def hermDir (t : Fin p × Fin p × Bool) : Matrix (Fin p) (Fin p) 𝕜 :=
  unitDir t + (unitDir t)ᴴ

theorem hermDir_herm (t : Fin p × Fin p × Bool) : (hermDir t : Matrix (Fin p) (Fin p) 𝕜).IsHermitian := by
  rw [hermDir, IsHermitian, conjTranspose_add, conjTranspose_conjTranspose, add_comm]

theorem mip_conj (U : Matrix (Fin p) (Fin p) 𝕜) {A : Matrix (Fin p) (Fin p) 𝕜} (hA : A.IsHermitian) :
    mip Uᴴ A = mip U A := by
  rw [mip, conjTranspose_conjTranspose, mip_comm U, mip, hA.eq, trace_mul_comm]

theorem mip_hermDir (t : Fin p × Fin p × Bool) {A : Matrix (Fin p) (Fin p) 𝕜} (hA : A.IsHermitian) :
    mip (hermDir t) A = 2 * mip (unitDir t) A := by
  rw [hermDir, mip_add_left, mip_conj _ hA]
  ring

/-- The directions without the scale see the whole error, if that hardly has a component along it. -/
theorem en_le_unscaled {A : Matrix (Fin p) (Fin p) 𝕜} (hA : A.IsHermitian)
    (h : |mip G A| ≤ 1 / ((∑ t, |mip (hermDir t : Matrix (Fin p) (Fin p) 𝕜) S|) + 1) * en A) :
    en A ≤ ∑ t : Fin p × Fin p × Bool, |mip (unscaled G S (hermDir t)) A| := by
  set C := ∑ t, |mip (hermDir t : Matrix (Fin p) (Fin p) 𝕜) S| with hC
  have hC0 : 0 ≤ C := Finset.sum_nonneg fun t _ => abs_nonneg _
  have h1 : ∀ t : Fin p × Fin p × Bool, 2 * |mip (unitDir t) A| -
      |mip (hermDir t : Matrix (Fin p) (Fin p) 𝕜) S| * |mip G A| ≤
        |mip (unscaled G S (hermDir t)) A| := fun t => by
    rw [unscaled_mip, mip_hermDir t hA, ← abs_mul]
    have := abs_sub_abs_le_abs_sub (2 * mip (unitDir t) A) (mip (hermDir t) S * mip G A)
    rwa [abs_mul, abs_two] at this
  have h2 := Finset.sum_le_sum fun t (_ : t ∈ Finset.univ) => h1 t
  rw [Finset.sum_sub_distrib, ← Finset.mul_sum, ← Finset.sum_mul] at h2
  have h3 := en_le_mip A
  have h4 : C * |mip G A| ≤ en A := by
    refine (mul_le_mul_of_nonneg_left h hC0).trans ?_
    rw [← mul_assoc, mul_one_div]
    exact mul_le_of_le_one_left (en_nonneg A) (by rw [div_le_one (by positivity)]; linarith)
  linarith

open Classical in
/-- The number by which the normalisation divides. -/
noncomputable def scaleOf (name : String) (Q : Matrix (Fin p) (Fin p) 𝕜) : ℝ :=
  if name = "trace" then RCLike.re Q.trace / p
  else if name = "determinant" then RCLike.re Q.det ^ (1 / (p : ℝ))
  else if h : 0 < p then RCLike.re (Q ⟨0, h⟩ ⟨0, h⟩) else 1

/-- The normalised matrix. -/
noncomputable def toName (name : String) (Q : Matrix (Fin p) (Fin p) 𝕜) : Matrix (Fin p) (Fin p) 𝕜 :=
  (((scaleOf name Q)⁻¹ : ℝ) : 𝕜) • Q

variable {name : String}

theorem scaleOf_eq (hname : name = "trace" ∨ name = "determinant" ∨ name = "element") (hp : 0 < p)
    {Q : Matrix (Fin p) (Fin p) 𝕜} {r : ℝ} (h : normFn name Q = some (r : 𝕜)) : scaleOf name Q = r := by
  have e1 : ("determinant" = "trace") = False := by decide +kernel
  have e2 : ("element" = "trace") = False := by decide +kernel
  have e3 : ("element" = "determinant") = False := by decide +kernel
  rcases hname with rfl | rfl | rfl
  · simp only [normFn, if_true, Option.some.injEq, RCLike.ofReal_inj] at h
    simp only [scaleOf, if_true, h]
  · simp only [normFn, e1, if_false, if_true] at h
    split_ifs at h with h0
    simp only [Option.some.injEq, RCLike.ofReal_inj] at h
    simp only [scaleOf, e1, if_false, if_true, h]
  · simp only [normFn, e2, e3, if_false, if_true, dif_pos hp, Option.some.injEq] at h
    simp only [scaleOf, e2, e3, if_false, dif_pos hp, h, RCLike.ofReal_re]

theorem toName_normalise (hname : name = "trace" ∨ name = "determinant" ∨ name = "element") (hp : 0 < p)
    {Q : Matrix (Fin p) (Fin p) 𝕜} (hQ : Q.PosDef) :
    0 < scaleOf name Q ∧ FMat.normalise name (.fin Q) = .fin (toName name Q) := by
  obtain ⟨r, hr, h1, h2⟩ := normalise_pos name hp hQ
  rw [toName, scaleOf_eq hname hp h1]
  exact ⟨hr, h2⟩

theorem toName_posDef (hname : name = "trace" ∨ name = "determinant" ∨ name = "element") (hp : 0 < p)
    {Q : Matrix (Fin p) (Fin p) 𝕜} (hQ : Q.PosDef) : (toName name Q).PosDef :=
  hQ.smul (by rw [RCLike.ofReal_pos]; exact inv_pos.2 (toName_normalise hname hp hQ).1)

theorem toName_smul (hname : name = "trace" ∨ name = "determinant" ∨ name = "element") (hp : 0 < p)
    {Q : Matrix (Fin p) (Fin p) 𝕜} (hQ : Q.PosDef) {c : ℝ} (hc : 0 < c) :
    toName name ((c : 𝕜) • Q) = toName name Q := by
  have h := C31_scale_free name hname hp Q hQ c hc
  rw [(toName_normalise hname hp hQ).2,
    (toName_normalise hname hp (hQ.smul (by exact_mod_cast hc : (0 : 𝕜) < (c : 𝕜)))).2] at h
  exact FMat.fin.inj h

theorem toName_fixed (hname : name = "trace" ∨ name = "determinant" ∨ name = "element") (hp : 0 < p)
    {N : ℕ} {X : Matrix (Fin N) (Fin p) 𝕜} {Q : Matrix (Fin p) (Fin p) 𝕜}
    (hQ : Q.PosDef) (h : mStep (wTyler p) X Q = Q) :
    mStep (wTyler p) X (toName name Q) = toName name Q := by
  rw [toName, mStep_tyler_smul X hQ (inv_pos.2 (toName_normalise hname hp hQ).1), h]

theorem toName_self (hname : name = "trace" ∨ name = "determinant" ∨ name = "element") (hp : 0 < p)
    (hS : S.PosDef) (hn : Normalised name S) : toName name S = S := by
  have h := normalise_normalised hp hname hS hn
  rw [(toName_normalise hname hp hS).2] at h
  exact FMat.fin.inj h

theorem toName_normalised (hname : name = "trace" ∨ name = "determinant" ∨ name = "element") (hp : 0 < p)
    {Q : Matrix (Fin p) (Fin p) 𝕜} (hQ : Q.PosDef) : Normalised name (toName name Q) := by
  have h := (toName_normalise hname hp hQ).2
  have e1 : ("determinant" = "trace") = False := by decide +kernel
  have e2 : ("element" = "trace") = False := by decide +kernel
  have e3 : ("element" = "determinant") = False := by decide +kernel
  have e4 : ("trace" = "determinant") = False := by decide +kernel
  have e5 : ("trace" = "element") = False := by decide +kernel
  have e6 : ("determinant" = "element") = False := by decide +kernel
  rcases hname with rfl | rfl | rfl
  · obtain ⟨c, -, h1, h2⟩ := C30_trace hp Q hQ
    rw [h] at h1
    rw [FMat.fin.inj h1]
    exact ⟨fun _ => h2, fun h => by simp [e4] at h, fun h => by simp [e5] at h⟩
  · obtain ⟨c, -, h1, h2⟩ := C30_determinant hp Q hQ
    rw [h] at h1
    rw [FMat.fin.inj h1]
    exact ⟨fun h => by simp [e1] at h, fun _ => h2, fun h => by simp [e6] at h⟩
  · obtain ⟨c, -, h1, h2⟩ := C30_element hp Q hQ
    rw [h] at h1
    rw [FMat.fin.inj h1]
    exact ⟨fun h => by simp [e2] at h, fun h => by simp [e3] at h, fun _ _ => h2⟩

theorem scaleOf_measurable (name : String) {A : Ω → Matrix (Fin p) (Fin p) 𝕜} (hA : MeasEntries A) :
    Measurable fun ω => scaleOf name (A ω) := by
  unfold scaleOf
  split_ifs with h1 h2 h3
  · simp only [trace, diag]
    exact (RCLike.continuous_re.measurable.comp
      (Finset.measurable_fun_sum _ fun i _ => hA i i)).div_const _
  · exact (RCLike.continuous_re.measurable.comp hA.det').pow_const _
  · exact RCLike.continuous_re.measurable.comp (hA _ _)
  · exact measurable_const

theorem scaleDir_herm (hS : S.PosDef) : (scaleDir name S).IsHermitian := by
  unfold scaleDir
  split_ifs
  · exact herm_smul _ isHermitian_one
  · exact herm_smul _ hS.isHermitian.inv
  · rw [IsHermitian]
    ext i j
    simp only [conjTranspose_apply, of_apply]
    by_cases hi : (i : ℕ) = 0 <;> by_cases hj : (j : ℕ) = 0 <;> simp [hi, hj]

theorem mip_scaleDir_element (hp : 0 < p) (A : Matrix (Fin p) (Fin p) 𝕜) :
    mip (scaleDir "element" S) A = RCLike.re (A ⟨0, hp⟩ ⟨0, hp⟩) := by
  have e2 : ("element" = "trace") = False := by decide +kernel
  have e3 : ("element" = "determinant") = False := by decide +kernel
  rw [mip_apply]
  simp only [scaleDir, e2, e3, if_false, of_apply]
  rw [Finset.sum_eq_single ⟨0, hp⟩, Finset.sum_eq_single ⟨0, hp⟩]
  · simp
  · intro j _ hj
    have : (j : ℕ) ≠ 0 := fun h => hj (Fin.ext h)
    simp [this]
  · simp
  · intro i _ hi
    have : (i : ℕ) ≠ 0 := fun h => hi (Fin.ext h)
    simp [this]
  · simp

theorem scaleDir_self (hname : name = "trace" ∨ name = "determinant" ∨ name = "element") (hp : 0 < p)
    (hS : S.PosDef) (hn : Normalised name S) : mip (scaleDir name S) S = 1 := by
  have hp' : (p : ℝ) ≠ 0 := by exact_mod_cast hp.ne'
  have hSd := (Matrix.isUnit_iff_isUnit_det S).1 hS.isUnit
  have e1 : ("determinant" = "trace") = False := by decide +kernel
  rcases hname with rfl | rfl | rfl
  · rw [scaleDir, if_pos rfl, mip_smul_left, mip_one, hn.1 rfl, RCLike.natCast_re, one_div,
      inv_mul_cancel₀ hp']
  · rw [scaleDir, if_neg (by simp [e1]), if_pos rfl, mip_smul_left, mip, hS.isHermitian.inv.eq,
      nonsing_inv_mul _ hSd, trace_one, Fintype.card_fin, RCLike.natCast_re, one_div, inv_mul_cancel₀ hp']
  · rw [mip_scaleDir_element hp, hn.2.2 rfl hp, RCLike.one_re]

/-- `|tr(S⁻¹ (T - S))|` is of second order if the determinants are equal. -/
theorem det_second_order (hS : S.PosDef) {T : Matrix (Fin p) (Fin p) 𝕜} (hT : T.PosDef)
    (hd : T.det = S.det) : |mip S⁻¹ (T - S)| ≤ en S⁻¹ * en (T - S) * en T⁻¹ * en (T - S) := by
  have hSd := (Matrix.isUnit_iff_isUnit_det S).1 hS.isUnit
  have hTd := (Matrix.isUnit_iff_isUnit_det T).1 hT.isUnit
  have h1 := log_det_le S T hS hT
  have h2 := log_det_le T S hT hS
  rw [hd] at h1 h2
  have e1 : mip S⁻¹ (T - S) = RCLike.re (S⁻¹ * T).trace - p := by
    rw [mip, hS.isHermitian.inv.eq, Matrix.mul_sub, nonsing_inv_mul _ hSd, trace_sub, trace_one,
      Fintype.card_fin, map_sub, RCLike.natCast_re]
  have e2 : RCLike.re (S⁻¹ * (T - S) * T⁻¹ * (T - S)).trace =
      (RCLike.re (S⁻¹ * T).trace - p) + (RCLike.re (T⁻¹ * S).trace - p) := by
    have : S⁻¹ * (T - S) * T⁻¹ * (T - S) = S⁻¹ * T - 1 - (1 - T⁻¹ * S) := by
      rw [Matrix.mul_sub S⁻¹, nonsing_inv_mul _ hSd, Matrix.sub_mul, Matrix.mul_assoc,
        mul_nonsing_inv _ hTd, Matrix.mul_one, Matrix.one_mul, Matrix.mul_sub, Matrix.sub_mul, Matrix.sub_mul,
        nonsing_inv_mul _ hTd, nonsing_inv_mul _ hSd]
    rw [this, trace_sub, trace_sub, trace_sub, trace_one, Fintype.card_fin, map_sub, map_sub, map_sub,
      RCLike.natCast_re]
    ring
  have h3 : |RCLike.re (S⁻¹ * (T - S) * T⁻¹ * (T - S)).trace| ≤
      en S⁻¹ * en (T - S) * en T⁻¹ * en (T - S) := by
    have e3 : RCLike.re (S⁻¹ * (T - S) * T⁻¹ * (T - S)).trace =
        mip (S⁻¹ * (T - S) * T⁻¹)ᴴ (T - S) := by rw [mip, conjTranspose_conjTranspose]
    rw [e3]
    refine (abs_mip_le _ _).trans (mul_le_mul_of_nonneg_right ?_ (en_nonneg _))
    rw [en_conj]
    exact (en_mul_le _ _).trans (mul_le_mul_of_nonneg_right (en_mul_le _ _) (en_nonneg _))
  rw [e2] at h3
  have h4 := (le_abs_self _).trans h3
  rw [e1, abs_of_nonneg (by linarith)]
  linarith

theorem scaleDir_small (hname : name = "trace" ∨ name = "determinant" ∨ name = "element") (hp : 0 < p)
    (hS : S.PosDef) (hn : Normalised name S) {T : ℕ → Matrix (Fin p) (Fin p) 𝕜}
    (hT : Tendsto T atTop (𝓝 S)) (hTn : ∀ᶠ N in atTop, (T N).PosDef ∧ Normalised name (T N)) {ε : ℝ}
    (hε : 0 < ε) : ∀ᶠ N in atTop, |mip (scaleDir name S) (T N - S)| ≤ ε * en (T N - S) := by
  have hz : ∀ N, 0 ≤ ε * en (T N - S) := fun N => mul_nonneg hε.le (en_nonneg _)
  have e1 : ("determinant" = "trace") = False := by decide +kernel
  rcases hname with rfl | rfl | rfl
  · filter_upwards [hTn] with N hN
    rw [scaleDir, if_pos rfl, mip_smul_left, mip_one, trace_sub, hN.2.1 rfl, hn.1 rfl, sub_self, map_zero,
      mul_zero, abs_zero]
    exact hz N
  · have t1 := tendsto_en hT
    have t2 := tendsto_en (tendsto_inv hT hS.isUnit)
    have hc : 0 < en S⁻¹ * (en S⁻¹ + 1) + 1 := by
      have := en_nonneg S⁻¹
      positivity
    filter_upwards [hTn, t1.eventually (gt_mem_nhds (div_pos hε hc)), t2.eventually (gt_mem_nhds one_pos)]
      with N hN h1 h2
    have h3 := det_second_order hS hN.1 (by rw [hN.2.2.1 rfl, hn.2.1 rfl])
    have hTi : en (T N)⁻¹ ≤ en S⁻¹ + 1 := by
      have := en_add_le ((T N)⁻¹ - S⁻¹) S⁻¹
      rw [sub_add_cancel] at this
      linarith
    have p1 := en_nonneg S⁻¹
    have p2 := en_nonneg (T N)⁻¹
    have p3 := en_nonneg (T N - S)
    rw [lt_div_iff₀ hc] at h1
    have hp1 : (1 : ℝ) ≤ p := by exact_mod_cast hp
    rw [scaleDir, if_neg (by simp [e1]), if_pos rfl, mip_smul_left, abs_mul, abs_of_nonneg (by positivity)]
    calc 1 / (p : ℝ) * |mip S⁻¹ (T N - S)| ≤ 1 * |mip S⁻¹ (T N - S)| :=
          mul_le_mul_of_nonneg_right (by rw [div_le_one (by positivity)]; exact hp1) (abs_nonneg _)
      _ ≤ en S⁻¹ * en (T N - S) * en (T N)⁻¹ * en (T N - S) := by rw [one_mul]; exact h3
      _ ≤ en S⁻¹ * en (T N - S) * (en S⁻¹ + 1) * en (T N - S) :=
          mul_le_mul_of_nonneg_right (mul_le_mul_of_nonneg_left hTi (by positivity)) p3
      _ ≤ ε * en (T N - S) := mul_le_mul_of_nonneg_right (by nlinarith) p3
  · filter_upwards [hTn] with N hN
    rw [mip_scaleDir_element hp, Matrix.sub_apply, hN.2.2.2 rfl hp, hn.2.2 rfl hp, sub_self, map_zero,
      abs_zero]
    exact hz N

open Classical in
/-- The normalised solution for the first `N` samples. -/
noncomputable def tylerSol (name : String) (S : Matrix (Fin p) (Fin p) 𝕜) (x : ℕ → Ω → Fin p → 𝕜) (N : ℕ)
    (ω : Ω) : Matrix (Fin p) (Fin p) 𝕜 :=
  if h : p < N ∧ ∃ Q : Matrix (Fin p) (Fin p) 𝕜, Q.PosDef ∧
    mStep (wTyler p) (firstSamples x ω N) Q = Q then toName name h.2.choose else S

theorem tylerSol_spec (name : String) (hp : 0 < p) (S : Matrix (Fin p) (Fin p) 𝕜) {N : ℕ} (hN : p < N)
    {ω : Ω} (hg : GeneralPosition (firstSamples x ω N)) :
    ∃ Q : Matrix (Fin p) (Fin p) 𝕜, Q.PosDef ∧ mStep (wTyler p) (firstSamples x ω N) Q = Q ∧
      tylerSol name S x N ω = toName name Q := by
  obtain ⟨Q, h1, h2, -⟩ := (tyler_exists_unique_iff (firstSamples x ω N) (by omega) hp
    (generalPosition_nonzero hg hp)).2 (generalPosition_tyler hg hN)
  have h : p < N ∧ ∃ Q : Matrix (Fin p) (Fin p) 𝕜, Q.PosDef ∧
    mStep (wTyler p) (firstSamples x ω N) Q = Q := ⟨hN, Q, h1, h2⟩
  refine ⟨h.2.choose, h.2.choose_spec.1, h.2.choose_spec.2, ?_⟩
  rw [tylerSol, dif_pos h]

theorem toName_tendsto (hname : name = "trace" ∨ name = "determinant" ∨ name = "element") (hp : 0 < p)
    {A : ℕ → Matrix (Fin p) (Fin p) 𝕜} {Q : Matrix (Fin p) (Fin p) 𝕜} (hA : ∀ k, (A k).PosDef)
    (hQ : Q.PosDef) (h : Tendsto A atTop (𝓝 Q)) :
    Tendsto (fun k => toName name (A k)) atTop (𝓝 (toName name Q)) :=
  tendsto_normalise name hp hA hQ h (fun k => (toName_normalise hname hp (hA k)).2)
    (toName_normalise hname hp hQ).2

theorem tylerSol_measurable (hname : name = "trace" ∨ name = "determinant" ∨ name = "element")
    (h : IIDSamples P x μ) (hμ : NullSubspaces μ) (hp : 0 < p)
    (S H : Matrix (Fin p) (Fin p) 𝕜) (N : ℕ) :
    AEMeasurable (fun ω => mip H (tylerSol name S x N ω)) P := by
  have := h.prob
  rcases lt_or_ge p N with hN | hN
  · refine aemeasurable_of_tendsto_metrizable_ae atTop (f := fun k ω => (scaleOf name
      (mIter (wStudent 0 p) (firstSamples x ω N) (1 : Matrix (Fin p) (Fin p) 𝕜) k))⁻¹ *
        mip H (mIter (wStudent 0 p) (firstSamples x ω N) 1 k)) (fun k =>
      ((scaleOf_measurable name (MeasEntries.iter h 0 N k)).inv.mul
        (measurable_mip H (MeasEntries.iter h 0 N k))).aemeasurable) ?_
    filter_upwards [h.generalPosition hμ] with ω hg
    obtain ⟨Q, hQ, hfix, e⟩ := tylerSol_spec name hp S hN (hg N)
    have hnz := generalPosition_nonzero (hg N) hp
    have hct := generalPosition_tyler (hg N) hN
    have hsp := tyler_spans (by omega) _ hnz hct
    obtain ⟨c, hc, hlim⟩ := tyler_tendsto hp _ hsp hnz (count_indecomposable _ hct) hQ PosDef.one hfix
    have h1 := ((continuous_mip H).tendsto _).comp (toName_tendsto hname hp
      (fun k => mIter_posDef hsp (fun S hS i => wTyler_pos hnz hS i) PosDef.one k)
      (hQ.smul (by exact_mod_cast hc : (0 : 𝕜) < (c : 𝕜))) hlim)
    rw [toName_smul hname hp hQ hc, ← e] at h1
    refine h1.congr fun k => ?_
    rw [Function.comp_apply, toName, mip_smul, wTyler_eq]
  · have e : ∀ ω, tylerSol name S x N ω = S := fun ω => by
      rw [tylerSol, dif_neg fun h => absurd h.1 (not_lt.2 hN)]
    simp only [e]
    exact aemeasurable_const

theorem eventually_en_le {A : ℕ → Matrix (Fin p) (Fin p) 𝕜} (hA : ∀ᶠ N in atTop, (A N).IsHermitian)
    (h : ∀ ε : ℝ, 0 < ε → ∀ᶠ N in atTop, |mip G (A N)| ≤ ε * en (A N)) :
    ∀ᶠ N in atTop, en (A N) ≤ ∑ t : Fin p × Fin p × Bool, |mip (unscaled G S (hermDir t)) (A N)| := by
  have hC0 : 0 ≤ ∑ t, |mip (hermDir t : Matrix (Fin p) (Fin p) 𝕜) S| :=
    Finset.sum_nonneg fun t _ => abs_nonneg _
  filter_upwards [hA, h (1 / ((∑ t, |mip (hermDir t : Matrix (Fin p) (Fin p) 𝕜) S|) + 1))
    (one_div_pos.2 (by linarith))] with N hN hN2
  exact en_le_unscaled hN hN2

theorem eventually_unscaled {A : ℕ → Matrix (Fin p) (Fin p) 𝕜} (H : Matrix (Fin p) (Fin p) 𝕜) {ε : ℝ}
    (hε : 0 < ε) (h : ∀ ε : ℝ, 0 < ε → ∀ᶠ N in atTop, |mip G (A N)| ≤ ε * en (A N)) :
    ∀ᶠ N in atTop, |mip H (A N) - mip (unscaled G S H) (A N)| ≤ ε * en (A N) := by
  have hd : 0 < |mip H S| + 1 := by positivity
  filter_upwards [h (ε / (|mip H S| + 1)) (div_pos hε hd)] with N hN
  rw [unscaled_mip, sub_sub_cancel, abs_mul]
  have e0 := en_nonneg (A N)
  calc |mip H S| * |mip G (A N)| ≤ |mip H S| * (ε / (|mip H S| + 1) * en (A N)) :=
        mul_le_mul_of_nonneg_left hN (abs_nonneg _)
    _ ≤ (|mip H S| + 1) * (ε / (|mip H S| + 1) * en (A N)) :=
        mul_le_mul_of_nonneg_right (by linarith) (by positivity)
    _ = ε * en (A N) := by field_simp

/-- The central limit theorem for functions of Tyler's estimates. -/
theorem SphereForms.clt_of (hname : name = "trace" ∨ name = "determinant" ∨ name = "element")
    (hF : SphereForms b μ S) (hb : 0 < b) (h : IIDSamples P x μ)
    (hμ : NullSubspaces μ) (hp : 0 < p) (hS : S.PosDef) (hf : PopFixed 0 μ S) (hn : Normalised name S)
    {H : Matrix (Fin p) (Fin p) 𝕜} (hH : H.IsHermitian) {Z : ℕ → Ω → ℝ} (hZ : ∀ N, AEMeasurable (Z N) P)
    (hZ' : ∀ ω, Tendsto (fun N => tylerSol name S x N ω) atTop (𝓝 S) →
      (∀ᶠ N in atTop, (tylerSol name S x N ω).PosDef) → ∀ ε : ℝ, 0 < ε → ∀ᶠ N in atTop,
        |Z N ω - mip H (tylerSol name S x N ω - S)| ≤ ε * en (tylerSol name S x N ω - S)) :
    TendstoInDistribution (fun (N : ℕ) ω => √N * Z N ω) atTop id
      (fun _ => P) (gaussianReal 0 (b * (p + b) / p * mip (unscaled (scaleDir name S) S H)
        (S * unscaled (scaleDir name S) S H * S)).toNNReal) := by
  have := h.prob
  have hG := scaleDir_herm (name := name) hS
  have hGS := scaleDir_self hname hp hS hn
  rw [← hF.variance_eq hb hp hS hf hG hGS hH]
  refine fixed_clt h le_rfl hS hf (hF.solves hb hp hS hG hGS hH) (T := tylerSol name S x)
    (B := fun t : Fin p × Fin p × Bool => unscaled (scaleDir name S) S (hermDir t))
    (fun t => hF.solves hb hp hS hG hGS (hermDir_herm t))
    hZ ?_
  filter_upwards [h.tyler_consistent hμ hp hS hf, h.generalPosition hμ] with ω h1 hg
  have hex : ∀ N, ∃ Q : Matrix (Fin p) (Fin p) 𝕜, Q.PosDef ∧
      (p < N → mStep (wTyler p) (firstSamples x ω N) Q = Q ∧ tylerSol name S x N ω = toName name Q) :=
    fun N => by
      by_cases hN : p < N
      · obtain ⟨Q, a1, a2, a3⟩ := tylerSol_spec name hp S hN (hg N)
        exact ⟨Q, a1, fun _ => ⟨a2, a3⟩⟩
      · exact ⟨1, PosDef.one, fun h => absurd h hN⟩
  choose Q hQ hQ2 using hex
  obtain ⟨c, hc, hlim⟩ := h1 Q (by
    filter_upwards [eventually_gt_atTop p] with N hN using ⟨hQ N, (hQ2 N hN).1⟩)
  have h2 := toName_tendsto hname hp (fun N => (hQ N).smul (by
    have := hc N; exact_mod_cast this : (0 : 𝕜) < (c N : 𝕜))) hS hlim
  rw [toName_self hname hp hS hn] at h2
  have h3 : Tendsto (fun N => tylerSol name S x N ω) atTop (𝓝 S) := h2.congr' (by
    filter_upwards [eventually_gt_atTop p] with N hN
    rw [toName_smul hname hp (hQ N) (hc N), (hQ2 N hN).2])
  have hpd : ∀ᶠ N in atTop, (tylerSol name S x N ω).PosDef ∧ Normalised name (tylerSol name S x N ω) := by
    filter_upwards [eventually_gt_atTop p] with N hN
    rw [(hQ2 N hN).2]
    exact ⟨toName_posDef hname hp (hQ N), toName_normalised hname hp (hQ N)⟩
  have hsm : ∀ ε : ℝ, 0 < ε → ∀ᶠ N in atTop, |mip (scaleDir name S) (tylerSol name S x N ω - S)| ≤
      ε * en (tylerSol name S x N ω - S) := fun ε hε => scaleDir_small hname hp hS hn h3 hpd hε
  refine ⟨h3, ?_, ?_, fun ε hε => ?_⟩
  · filter_upwards [eventually_gt_atTop p] with N hN
    rw [(hQ2 N hN).2, ← wTyler_eq]
    exact ⟨toName_posDef hname hp (hQ N), toName_fixed hname hp (hQ N) (hQ2 N hN).1⟩
  · exact eventually_en_le (hpd.mono fun N hN => hN.1.isHermitian.sub hS.isHermitian) hsm
  · filter_upwards [eventually_unscaled (S := S) H (half_pos hε) hsm, hZ' ω h3 (hpd.mono fun N hN => hN.1) (ε / 2)
      (half_pos hε)] with N b1 b2
    have b3 := abs_sub_le (Z N ω) (mip H (tylerSol name S x N ω - S))
      (mip (unscaled (scaleDir name S) S H) (tylerSol name S x N ω - S))
    linarith

/-- The central limit theorem for Tyler's estimates. -/
theorem SphereForms.clt (hname : name = "trace" ∨ name = "determinant" ∨ name = "element")
    (hF : SphereForms b μ S) (hb : 0 < b) (h : IIDSamples P x μ)
    (hμ : NullSubspaces μ) (hp : 0 < p) (hS : S.PosDef) (hf : PopFixed 0 μ S) (hn : Normalised name S)
    {H : Matrix (Fin p) (Fin p) 𝕜} (hH : H.IsHermitian) :
    TendstoInDistribution (fun (N : ℕ) ω => √N * mip H (tylerSol name S x N ω - S)) atTop id
      (fun _ => P) (gaussianReal 0 (b * (p + b) / p * mip (unscaled (scaleDir name S) S H)
        (S * unscaled (scaleDir name S) S H * S)).toNNReal) := by
  refine hF.clt_of hname hb h hμ hp hS hf hn hH (fun N => ?_) fun ω _ _ ε hε =>
    Eventually.of_forall fun N => ?_
  · simp only [mip_sub]
    exact (tylerSol_measurable hname h hμ hp S H N).sub_const _
  · rw [sub_self, abs_zero]
    exact mul_nonneg hε.le (en_nonneg _)

theorem sphere_weight [IsProbabilityMeasure μ] (hμ : NullSubspaces μ) (hp : 0 < p) (hS : S.PosDef) :
    (fun x => p / (0 + qf S x) ^ 2 * qf S x ^ 2) =ᵐ[μ] fun _ => (p : ℝ) := by
  filter_upwards [ne_zero_ae hμ hp] with x hx
  have := (qf_pos hS hx).ne'
  rw [zero_add, div_mul_cancel₀ _ (pow_ne_zero 2 this)]

end

section
variable {p : ℕ}

theorem sphere_complex {μ : Measure (Fin p → ℂ)} [IsProbabilityMeasure μ] {S : Matrix (Fin p) (Fin p) ℂ}
    (hμ : NullSubspaces μ) (hp : 0 < p) (hS : S.PosDef) (hE : EllipticalLaw μ S) : SphereForms 1 μ S := by
  intro K hK
  have hSd := (Matrix.isUnit_iff_isUnit_det S).1 hS.isUnit
  have hp' : (0 : ℝ) < p := by exact_mod_cast hp
  have e1 : S⁻¹ * (S * K * S) = K * S := by
    rw [Matrix.mul_assoc, ← Matrix.mul_assoc, nonsing_inv_mul _ hSd, Matrix.one_mul]
  have e2 : S⁻¹ * (S * K * S) * S⁻¹ = K := by
    rw [e1, Matrix.mul_assoc, mul_nonsing_inv _ hSd, Matrix.mul_one]
  have hw : Measurable fun q : ℝ => (p : ℝ) / (0 + q) ^ 2 := by fun_prop
  have h := (elliptical_forms hS hE hw (herm_sandwich hS.isHermitian hK)).2.2
    ((integrable_congr (sphere_weight hμ hp hS)).2 (integrable_const _))
  rw [integral_congr_ae (sphere_weight hμ hp hS), integral_const, probReal_univ, one_smul, e2, e1] at h
  have e3 : ∀ x, dWeight 0 S K x * hfm K x = p / (0 + qf S x) ^ 2 * (star x ⬝ᵥ K *ᵥ x).re ^ 2 := fun x => by
    unfold dWeight hfm
    rw [zero_add (p : ℝ), sq (star x ⬝ᵥ K *ᵥ x).re, mul_assoc]
    rfl
  simp only [e3]
  have e4 : (mip K S : ℝ) = (K * S).trace.re := mip_herm hK S
  have e5 : (mip K (S * K * S) : ℝ) = (K * S * (K * S)).trace.re := by
    rw [mip_herm hK]
    simp only [Matrix.mul_assoc]
  rw [e4, e5, eq_div_iff (by positivity)]
  have h2 := mul_left_cancel₀ hp'.ne' (b := (∫ x, (p : ℝ) / (0 + qf S x) ^ 2 * (star x ⬝ᵥ K *ᵥ x).re ^ 2 ∂μ) * ((p : ℝ) + 1))
    (c := (K * S * (K * S)).trace.re + (K * S).trace.re ^ 2) (by linarith)
  rw [h2]
  ring

theorem sphere_real {μ : Measure (Fin p → ℝ)} [IsProbabilityMeasure μ] {S : Matrix (Fin p) (Fin p) ℝ}
    (hμ : NullSubspaces μ) (hp : 0 < p) (hS : S.PosDef) (hE : EllipticalLaw μ S) : SphereForms 2 μ S := by
  intro K hK
  have hSd := (Matrix.isUnit_iff_isUnit_det S).1 hS.isUnit
  have hp' : (0 : ℝ) < p := by exact_mod_cast hp
  have e1 : S⁻¹ * (S * K * S) = K * S := by
    rw [Matrix.mul_assoc, ← Matrix.mul_assoc, nonsing_inv_mul _ hSd, Matrix.one_mul]
  have e2 : S⁻¹ * (S * K * S) * S⁻¹ = K := by
    rw [e1, Matrix.mul_assoc, mul_nonsing_inv _ hSd, Matrix.mul_one]
  have hw : Measurable fun q : ℝ => (p : ℝ) / (0 + q) ^ 2 := by fun_prop
  have h := (FR.elliptical_forms hS hE hw (herm_sandwich hS.isHermitian hK)).2.2
    ((integrable_congr (sphere_weight hμ hp hS)).2 (integrable_const _))
  rw [integral_congr_ae (sphere_weight hμ hp hS), integral_const, probReal_univ, one_smul, e2, e1] at h
  have e3 : ∀ x, dWeight 0 S K x * hfm K x = p / (0 + qf S x) ^ 2 * (star x ⬝ᵥ K *ᵥ x) ^ 2 := fun x => by
    unfold dWeight hfm
    rw [zero_add (p : ℝ), sq (star x ⬝ᵥ K *ᵥ x), mul_assoc]
    rfl
  simp only [e3]
  have e4 : (mip K S : ℝ) = (K * S).trace := by rw [mip, hK.eq]; rfl
  have e5 : (mip K (S * K * S) : ℝ) = (K * S * (K * S)).trace := by
    rw [mip, hK.eq]
    simp only [Matrix.mul_assoc]
    rfl
  rw [e4, e5, eq_div_iff (by positivity)]
  have h2 := mul_left_cancel₀ hp'.ne' (b := (∫ x, (p : ℝ) / (0 + qf S x) ^ 2 * (star x ⬝ᵥ K *ᵥ x) ^ 2 ∂μ) * ((p : ℝ) + 2))
    (c := 2 * (K * S * (K * S)).trace + (K * S).trace ^ 2) (by linarith)
  exact h2

end
end RS
