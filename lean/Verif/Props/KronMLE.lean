import Verif.Lemmas.KronMLE
import Verif.Props.KronFit
import Verif.Props.Consist
import Verif.Props.KronExist

/-
Maximum likelihood with `KroneckerStudent`: the estimate exists, is unique, and tends to the scatter
matrix of the law (C150).
-/
set_option autoImplicit false

namespace RS
open Matrix ComplexOrder Filter Topology MeasureTheory

/-- The samples minus the location used by `fit`. -/
noncomputable def centredSamples {n p : ℕ} (centered : Bool) (Z : Matrix (Fin n) (Fin p) ℂ) :
    Matrix (Fin n) (Fin p) ℂ := fun i j => Z i j - kronLocation centered Z j

/-- The log-likelihood is a constant minus the cost of the centred samples. -/
theorem ct_sum {n p : ℕ} {df : ℝ} (hdf : 0 < df) (centered : Bool) (Z : Matrix (Fin n) (Fin p) ℂ) :
    ∃ c : ℝ, ∀ S : Matrix (Fin p) (Fin p) ℂ, S.PosDef →
      ∑ i, ctLogDensity df (kronLocation centered Z) S (Z i) =
        c - studentCost (df / 2) (centredSamples centered Z) S := by
  refine ⟨n * (Real.log (Real.Gamma (df / 2 + p)) - Real.log (Real.Gamma (df / 2)) -
    p * Real.log (Real.pi * df / 2)) + (df / 2 + p) * (n * Real.log (df / 2)), fun S hS => ?_⟩
  have key : ∀ i, ctLogDensity df (kronLocation centered Z) S (Z i) =
      (Real.log (Real.Gamma (df / 2 + p)) - Real.log (Real.Gamma (df / 2)) -
        p * Real.log (Real.pi * df / 2)) - Real.log (RCLike.re S.det) -
      (df / 2 + p) * (Real.log (df / 2 + qf S (sample (centredSamples centered Z) i)) -
        Real.log (df / 2)) := fun i => by
    have hq := qf_nonneg hS (sample (centredSamples centered Z) i)
    have e : 1 + 2 * (star (Z i - kronLocation centered Z) ⬝ᵥ S⁻¹ *ᵥ
        (Z i - kronLocation centered Z)).re / df =
        (df / 2 + qf S (sample (centredSamples centered Z) i)) / (df / 2) := by
      have : (star (Z i - kronLocation centered Z) ⬝ᵥ S⁻¹ *ᵥ
        (Z i - kronLocation centered Z)).re = qf S (sample (centredSamples centered Z) i) := rfl
      rw [this]
      field_simp
    unfold ctLogDensity
    rw [e, Real.log_div (x := df / 2 + _) (by positivity) (by positivity)]
    rfl
  simp only [key, Finset.sum_sub_distrib, ← Finset.mul_sum, Finset.sum_const, Finset.card_univ,
    Fintype.card_fin, nsmul_eq_mul, studentCost]
  ring

section
variable (P : KronStudentParams) (solve : KronSolver P.a P.b)

/-- `S` maximises the likelihood of the data over the Kronecker products of positive definite
matrices, with the location used by `fit`. -/
def KronMLE {n : ℕ} (Z : Matrix (Fin n) (Fin (P.a * P.b)) ℂ)
    (S : Matrix (Fin (P.a * P.b)) (Fin (P.a * P.b)) ℂ) : Prop :=
  (∃ (A : Matrix (Fin P.a) (Fin P.a) ℂ) (B : Matrix (Fin P.b) (Fin P.b) ℂ), A.PosDef ∧ B.PosDef ∧
    S = kron A B) ∧
  ∀ (A' : Matrix (Fin P.a) (Fin P.a) ℂ) (B' : Matrix (Fin P.b) (Fin P.b) ℂ), A'.PosDef → B'.PosDef →
    ∑ i, ctLogDensity P.df (kronLocation P.assumeCentered Z) (kron A' B') (Z i) ≤
      ∑ i, ctLogDensity P.df (kronLocation P.assumeCentered Z) S (Z i)

/-- If no proper subspace holds too many of the centred samples, there is exactly one maximum
likelihood estimate of the covariance among the Kronecker products, and it is what `fit` with an
ideal solver stores, whatever `init`. -/
theorem C150_mle (hs : KronMinimises solve) (hdf : 0 < P.df) {n : ℕ} (hn : 0 < n)
    (ha : 0 < P.a) (hb : 0 < P.b) (Z : Matrix (Fin n) (Fin (P.a * P.b)) ℂ)
    (H : ∀ V : Submodule ℂ (Fin (P.a * P.b) → ℂ), V ≠ ⊤ →
      (P.df / 2 + (P.a * P.b : ℕ)) * samplesIn (centredSamples P.assumeCentered Z) V <
        n * (P.df / 2 + Module.finrank ℂ V)) :
    ∃ S, KronMLE P Z S ∧ (∀ S', KronMLE P Z S' → S' = S) ∧
      ∀ init : Option (Matrix (Fin P.a) (Fin P.a) ℂ × Matrix (Fin P.b) (Fin P.b) ℂ),
        (∀ A₀ B₀, init = some (A₀, B₀) → A₀.PosDef ∧ B₀.PosDef) →
        ∃ f, kronStudentFit P solve (.cplx (.d2 n (P.a * P.b) Z)) init = .ok f ∧
          MeanIs (some f.location) (kronLocation P.assumeCentered Z) ∧
          f.covariance = .cplx (.d2 _ _ S) := by
  have hnu : 0 < P.df / 2 := half_pos hdf
  obtain ⟨c, hc⟩ := ct_sum hdf P.assumeCentered Z
  obtain ⟨A, B, hA, hB, hmin⟩ := kron_student_min hnu hn ha hb _ H
  have hmax : ∀ A' B', A'.PosDef → B'.PosDef →
        ∑ i, ctLogDensity P.df (kronLocation P.assumeCentered Z) (kron A' B') (Z i) ≤
          ∑ i, ctLogDensity P.df (kronLocation P.assumeCentered Z) (kron A B) (Z i) :=
    fun A' B' hA' hB' => by
      rw [hc _ (kron_posDef hA' hB'), hc _ (kron_posDef hA hB)]
      linarith [hmin A' B' hA' hB']
  have huniq : ∀ S', KronMLE P Z S' → S' = kron A B := by
    rintro _ ⟨⟨A', B', hA', hB', rfl⟩, hm⟩
    refine kron_student_unique hnu _ (student_spans _ H) hA hB hA' hB' hmin fun C D hC hD => ?_
    have := hm C D hC hD
    rw [hc _ (kron_posDef hC hD), hc _ (kron_posDef hA' hB')] at this
    linarith
  refine ⟨kron A B, ⟨⟨A, B, hA, hB, rfl⟩, hmax⟩, huniq, fun init hi => ?_⟩
  obtain ⟨f, h1, h2, h3, h4, h5, h6⟩ := C113_mle P solve hs hdf hn ha hb Z init hi ⟨A, B, hA, hB, hmax⟩
  exact ⟨f, h1, h2, by rw [h5, huniq _ ⟨⟨_, _, h3, h4, rfl⟩, h6⟩]⟩

end

section
variable {Ω : Type*} [MeasurableSpace Ω] {Pr : Measure Ω} [IsProbabilityMeasure Pr]

/-- The covariances stored by `fit` on the first `N` samples tend to `S`, whatever `init`. -/
def StudentTendsTo {a b : ℕ} (run : ℕ → Option (Matrix (Fin a) (Fin a) ℂ × Matrix (Fin b) (Fin b) ℂ) →
    Py (KronStudentFit a b)) (S : Matrix (Fin (a * b)) (Fin (a * b)) ℂ) : Prop :=
  ∀ ε : ℝ, 0 < ε → ∃ N₀ : ℕ, ∀ N, N₀ ≤ N →
    ∀ init : Option (Matrix (Fin a) (Fin a) ℂ × Matrix (Fin b) (Fin b) ℂ),
      (∀ A₀ B₀, init = some (A₀, B₀) → A₀.PosDef ∧ B₀.PosDef) →
      ∃ f C, run N init = .ok f ∧ f.covariance = .cplx (.d2 (a * b) (a * b) C) ∧ frobDist C S < ε

/-- What the estimates tend to (`assume_centered=True`, ideal solver): if the population equation
with `df/2` holds for `A ⊗ B`, the stored covariance tends to `A ⊗ B`, almost surely. -/
theorem C150_limit (a b : ℕ) (ha : 0 < a) (hb : 0 < b) (df : ℝ) (hdf : 0 < df)
    (solve : KronSolver a b) (hs : KronMinimises solve) {x : ℕ → Ω → Fin (a * b) → ℂ}
    {μ : Measure (Fin (a * b) → ℂ)} (h : IIDSamples Pr x μ) (hμ : NullSubspaces μ)
    (A : Matrix (Fin a) (Fin a) ℂ) (B : Matrix (Fin b) (Fin b) ℂ) (hA : A.PosDef) (hB : B.PosDef)
    (hfix : PopFixed (df / 2) μ (kron A B)) :
    ∀ᵐ ω ∂Pr, StudentTendsTo (fun N init => kronStudentFit ⟨a, b, df, true⟩ solve
      (.cplx (.d2 N (a * b) (firstSamples x ω N))) init) (kron A B) := by
  have hp : 0 < a * b := Nat.mul_pos ha hb
  have hnu : 0 < df / 2 := half_pos hdf
  have hS := kron_posDef hA hB
  filter_upwards [h.consistent hμ hp hnu.le hS hfix ⊤ fun m _ => Or.inl hnu,
    h.generalPosition hμ] with ω hω hg
  have hcs : ∀ N, centredSamples true (firstSamples x ω N) = firstSamples x ω N := fun N => by
    ext i j; simp [centredSamples, kronLocation]
  have hex : ∀ N, ∃ Q : Matrix (Fin (a * b)) (Fin (a * b)) ℂ, a * b ≤ N →
      KronMLE ⟨a, b, df, true⟩ (firstSamples x ω N) Q ∧
      ∀ init : Option (Matrix (Fin a) (Fin a) ℂ × Matrix (Fin b) (Fin b) ℂ),
        (∀ A₀ B₀, init = some (A₀, B₀) → A₀.PosDef ∧ B₀.PosDef) →
        ∃ f, kronStudentFit ⟨a, b, df, true⟩ solve
            (.cplx (.d2 N (a * b) (firstSamples x ω N))) init = .ok f ∧
          f.covariance = .cplx (.d2 _ _ Q) := fun N => by
    by_cases hN : a * b ≤ N
    · obtain ⟨Q, h1, -, h2⟩ := C150_mle ⟨a, b, df, true⟩ solve hs hdf (by omega) ha hb
        (firstSamples x ω N) (by
          rw [hcs]
          exact generalPosition_student (hg N) hN hnu)
      exact ⟨Q, fun _ => ⟨h1, fun init hi => by
        obtain ⟨f, h3, -, h4⟩ := h2 init hi
        exact ⟨f, h3, h4⟩⟩⟩
    · exact ⟨1, fun h => absurd h hN⟩
  choose Q hQ using hex
  have hlim := hω Q (by
    filter_upwards [eventually_ge_atTop (a * b)] with N hN
    obtain ⟨⟨⟨A', B', hA', hB', he⟩, hm⟩, -⟩ := hQ N hN
    obtain ⟨c, hc⟩ := ct_sum hdf true (firstSamples x ω N)
    have hPD : (Q N).PosDef := by rw [he]; exact kron_posDef hA' hB'
    refine ⟨hPD, ?_, fun _ _ _ _ _ _ _ => Submodule.mem_top⟩
    have h1 := hm A B hA hB
    simp only at h1
    rw [hc _ hS, hc _ hPD, hcs] at h1
    linarith)
  intro ε hε
  obtain ⟨N₁, hN₁⟩ := eventually_atTop.1 ((frob_of_tendsto hlim).eventually (gt_mem_nhds hε))
  refine ⟨max N₁ (a * b), fun N hN init hi => ?_⟩
  obtain ⟨f, h1, h2⟩ := (hQ N (by omega)).2 init hi
  exact ⟨f, Q N, h1, h2, hN₁ N (by omega)⟩

/-- Elliptical laws with scatter matrix `A ⊗ B`: the stored covariance tends to a multiple of the
scatter matrix. -/
theorem C150_elliptical (a b : ℕ) (ha : 0 < a) (hb : 0 < b) (df : ℝ) (hdf : 0 < df)
    (solve : KronSolver a b) (hs : KronMinimises solve) {x : ℕ → Ω → Fin (a * b) → ℂ}
    {μ : Measure (Fin (a * b) → ℂ)} (h : IIDSamples Pr x μ) (hμ : NullSubspaces μ)
    (A : Matrix (Fin a) (Fin a) ℂ) (B : Matrix (Fin b) (Fin b) ℂ) (hA : A.PosDef) (hB : B.PosDef)
    (hE : EllipticalLaw μ (kron A B)) :
    ∃ κ : ℝ, 0 < κ ∧ ∀ᵐ ω ∂Pr, StudentTendsTo (fun N init => kronStudentFit ⟨a, b, df, true⟩ solve
      (.cplx (.d2 N (a * b) (firstSamples x ω N))) init) ((κ : ℂ) • kron A B) := by
  have := h.prob
  obtain ⟨κ, hκ, h1, -⟩ := elliptical_student hμ (Nat.mul_pos ha hb) (half_pos hdf)
    (kron_posDef hA hB) hE
  have e : (κ : ℂ) • kron A B = kron ((κ : ℂ) • A) B := by
    have := kron_smul_smul A B (κ : ℂ) 1
    rw [one_smul, mul_one] at this
    exact this.symm
  refine ⟨κ, hκ, ?_⟩
  rw [e]
  exact C150_limit a b ha hb df hdf solve hs h hμ _ B (hA.smul (by simpa using hκ)) hB
    (by rw [← e]; exact h1)

/-- Consistent, scale included: on independent samples of the complex t law with scatter matrix
`A ⊗ B` and the `df` given to the estimator, the stored covariance tends to `A ⊗ B`. -/
theorem C150_consistent (a b : ℕ) (ha : 0 < a) (hb : 0 < b) (df : ℝ) (hdf : 0 < df)
    (solve : KronSolver a b) (hs : KronMinimises solve) {x : ℕ → Ω → Fin (a * b) → ℂ}
    (A : Matrix (Fin a) (Fin a) ℂ) (B : Matrix (Fin b) (Fin b) ℂ) (hA : A.PosDef) (hB : B.PosDef)
    (h : IIDSamples Pr x (lawOf fun z => Real.exp (ctLogDensity df 0 (kron A B) z))) :
    ∀ᵐ ω ∂Pr, StudentTendsTo (fun N init => kronStudentFit ⟨a, b, df, true⟩ solve
      (.cplx (.d2 N (a * b) (firstSamples x ω N))) init) (kron A B) := by
  have hnu : 0 < df / 2 := half_pos hdf
  have hS := kron_posDef hA hB
  have := h.prob
  refine C150_limit a b ha hb df hdf solve hs h (lawOf_null_cplx _) A B hA hB
    (elliptical_popFixed hnu.le hS (cplxT_elliptical _ hS) ?_)
  have hpt : ∀ z : Fin (a * b) → ℂ, (df / 2 + (a * b : ℕ)) / (df / 2 + qf (kron A B) z) *
      qf (kron A B) z = (df / 2 + (a * b : ℕ)) * (qf (kron A B) z / (df / 2 + qf (kron A B) z)) :=
    fun z => by ring
  simp only [hpt]
  rw [integral_const_mul, cplxT_u hdf hS]
  field_simp

end

/-- The hypothesis on the samples is met by `a b` samples in general position, for every `df`. -/
example (a b : ℕ) (df : ℝ) (hdf : 0 < df) : ∀ V : Submodule ℂ (Fin (a * b) → ℂ), V ≠ ⊤ →
    (df / 2 + (a * b : ℕ)) * samplesIn (centredSamples true (powerData ℂ (a * b) (a * b))) V <
      (a * b : ℕ) * (df / 2 + Module.finrank ℂ V) := by
  have e : centredSamples true (powerData ℂ (a * b) (a * b)) = powerData ℂ (a * b) (a * b) := by
    ext i j; simp [centredSamples, kronLocation]
  rw [e]
  exact generalPosition_student (powerData_generalPosition ℂ _ _) le_rfl (half_pos hdf)

/-- Samples of the t law with one degree of freedom and any scatter matrix of the form `A ⊗ B`. -/
example (a b : ℕ) (ha : 0 < a) (hb : 0 < b) (A : Matrix (Fin a) (Fin a) ℂ)
    (B : Matrix (Fin b) (Fin b) ℂ) (hA : A.PosDef) (hB : B.PosDef) (solve : KronSolver a b)
    (hs : KronMinimises solve) :
    ∃ Pr : Measure (ℕ → Fin (a * b) → ℂ), IsProbabilityMeasure Pr ∧
      ∀ᵐ ω ∂Pr, StudentTendsTo (fun N init => kronStudentFit ⟨a, b, 1, true⟩ solve
        (.cplx (.d2 N (a * b) (firstSamples (fun i ω => ω i) ω N))) init) (kron A B) := by
  have hpr := cplxT_prob one_pos (kron_posDef hA hB)
  have h := iid_exists (lawOf fun z => Real.exp (ctLogDensity 1 0 (kron A B) z))
  exact ⟨_, inferInstance, C150_consistent a b ha hb 1 one_pos solve hs A B hA hB h⟩

end RS
