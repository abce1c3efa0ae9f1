import Verif.Lemmas.KronExist
import Verif.Props.KronConverge
import Verif.Props.Exist
import Mathlib.LinearAlgebra.Vandermonde

/-
When the Kronecker estimate exists (C145).
-/
set_option autoImplicit false

namespace RS
open Matrix ComplexOrder

section
variable {𝕜 : Type} [RCLike 𝕜] {N a b : ℕ}

/-- Real or complex nonzero samples: the fixed-point equations have a solution that is unique up to
the two scales if and only if the samples are spread out. -/
theorem C145_iff (X : Matrix (Fin N) (Fin (a * b)) 𝕜) (hN : 0 < N) (ha : 0 < a) (hb : 0 < b)
    (h0 : ∀ i, X i ≠ 0) :
    (∃ (A : Matrix (Fin a) (Fin a) 𝕜) (B : Matrix (Fin b) (Fin b) 𝕜),
      KronFixed (fun i => unstack (X i)) A B ∧
      ∀ A' B', KronFixed (fun i => unstack (X i)) A' B' →
        ∃ s t : ℝ, A' = (s : 𝕜) • A ∧ B' = (t : 𝕜) • B) ↔
    KronSpread fun i => (unstack (X i) : Matrix (Fin b) (Fin a) 𝕜) :=
  ⟨fun ⟨_, _, h1, h2⟩ => kronSpread_of_unique X hN ha hb h0 h1 h2,
    kronSpread_exists X hN ha hb h0⟩

/-- More than `a b` samples in general position are spread out. -/
theorem C145_general_position (X : Matrix (Fin N) (Fin (a * b)) 𝕜) (ha : 0 < a) (hb : 0 < b)
    (hN : a * b < N) (hX : GeneralPosition X) :
    KronSpread fun i => (unstack (X i) : Matrix (Fin b) (Fin a) 𝕜) :=
  kronSpread_of_count X (by omega) ha hb (generalPosition_nonzero hX (Nat.mul_pos ha hb))
    (generalPosition_tyler hX hN)

/-- One sample is not enough, unless all matrices are numbers. -/
theorem C145_single (X : Matrix (Fin 1) (Fin (a * b)) 𝕜) (ha : 0 < a) (hb : 0 < b)
    (hab : 1 < a * b) (h0 : X 0 ≠ 0) :
    ¬ KronSpread fun i => (unstack (X i) : Matrix (Fin b) (Fin a) 𝕜) :=
  kronSpread_not_single (unstack_ne_zero h0) ha hb hab

/-- On spread-out samples the algorithm converges: there are positive definite `A`, `B`, depending
on the data only, that solve the fixed-point equations and that the call approaches as the tolerance
shrinks and `iter_max` grows; and for every positive tolerance the call stops by itself without
warning once `iter_max` is large enough. -/
theorem C145_converges (sq : Sqrtm 𝕜) (hsq : SqrtmPD sq) (X : Matrix (Fin N) (Fin (a * b)) 𝕜)
    (hN : 0 < N) (ha : 0 < a) (hb : 0 < b) (h0 : ∀ i, X i ≠ 0)
    (hS : KronSpread fun i => (unstack (X i) : Matrix (Fin b) (Fin a) 𝕜)) :
    ∃ (A : Matrix (Fin a) (Fin a) 𝕜) (B : Matrix (Fin b) (Fin b) 𝕜),
      KronFixed (fun i => unstack (X i)) A B ∧
      (∀ ε : ℝ, 0 < ε → ∃ (tol₀ : ℝ) (K : ℕ), 0 < tol₀ ∧
        ∀ (tol : ℝ) (iterMax : ℤ), tol ≤ tol₀ → K ≤ iterMax → ∃ o,
          kroneckerMM sq X a b tol iterMax = .ok (some o) ∧
          frobDist o.A A < ε ∧ frobDist o.B B < ε) ∧
      ∀ tol : ℝ, 0 < tol → ∃ K : ℕ, ∀ iterMax : ℤ, K < iterMax → ∃ o,
        kroneckerMM sq X a b tol iterMax = .ok (some o) ∧ o.warned = false ∧ o.iteration ≤ K := by
  have hD := kronSpread_data hN ha hb (fun i => unstack_ne_zero (h0 i)) hS
  obtain ⟨A, B, hfix, huniq⟩ := kronSpread_exists X hN ha hb h0 hS
  obtain ⟨s, t, hs, ht, h⟩ := C111_tolerance sq hsq X hD ha hb A B hfix huniq
  refine ⟨(s : 𝕜) • A, (t : 𝕜) • B, kronFixed_smul hfix hs ht, h,
    C111_stops sq hsq X hD ha hb A B hfix huniq⟩

/-- `fit` of `KroneckerEllipticalMM` on more than `a b` complex samples in general position: the
attributes tend to one pair of positive definite matrices and their Kronecker product. -/
theorem C145_fit (sq : Sqrtm ℂ) (hsq : SqrtmPD sq) (X : Matrix (Fin N) (Fin (a * b)) ℂ)
    (ha : 0 < a) (hb : 0 < b) (hN : a * b < N) (hX : GeneralPosition X) :
    ∃ (A : Matrix (Fin a) (Fin a) ℂ) (B : Matrix (Fin b) (Fin b) ℂ), A.PosDef ∧ B.PosDef ∧
      ∀ ε : ℝ, 0 < ε → ∃ (tol₀ : ℝ) (K : ℕ), 0 < tol₀ ∧
        ∀ (tol : ℝ) (iterMax : ℤ), tol ≤ tol₀ → K ≤ iterMax → ∃ f,
          kronMMFit sq ⟨a, b, tol, iterMax⟩ (.cplx (.d2 N (a * b) X)) = .ok f ∧
          frobDist f.A A < ε ∧ frobDist f.B B < ε ∧
          f.covariance = .cplx (.d2 (a * b) (a * b) (kron f.A f.B)) := by
  have hn := generalPosition_nonzero hX (Nat.mul_pos ha hb)
  have h0 : ∀ i, X i ≠ 0 := fun i h => hn i (by ext j; simp [sample, h])
  have hS := C145_general_position X ha hb hN hX
  have hD := kronSpread_data (by omega) ha hb (fun i => unstack_ne_zero (h0 i)) hS
  obtain ⟨A, B, hfix, huniq⟩ := kronSpread_exists X (by omega) ha hb h0 hS
  obtain ⟨s, t, hs, ht, h⟩ := C111_fit sq hsq X hD ha hb A B hfix huniq
  have h' := kronFixed_smul hfix hs ht
  exact ⟨(s : ℂ) • A, (t : ℂ) • B, h'.posA, h'.posB, h⟩

end

/-- The samples `(1, t, t^2, ...)`. -/
def powerData (𝕜 : Type) [RCLike 𝕜] (N p : ℕ) : Matrix (Fin N) (Fin p) 𝕜 :=
  of fun i j => ((i : ℕ) : 𝕜) ^ (j : ℕ)

/-- They are in general position, whatever their number and length. -/
theorem powerData_generalPosition (𝕜 : Type) [RCLike 𝕜] (N p : ℕ) :
    GeneralPosition (powerData 𝕜 N p) := by
  classical
  intro V hV
  by_contra hcon
  push Not at hcon
  rw [samplesIn_eq] at hcon
  set s := Finset.univ.filter fun i => sample (powerData 𝕜 N p) i ∈ V
  set k := min s.card p
  let f : Fin k → Fin N := fun i => s.orderEmbOfFin rfl (Fin.castLE (min_le_left _ _) i)
  have hf : Function.Injective f := fun i j h => by simpa [f] using h
  have hli : LinearIndependent 𝕜 fun i : Fin k => sample (powerData 𝕜 N p) (f i) := by
    refine LinearIndependent.of_comp (LinearMap.funLeft 𝕜 𝕜 (Fin.castLE (min_le_right s.card p))) ?_
    have h := linearIndependent_rows_of_det_ne_zero (A := vandermonde fun i => (((f i : Fin N) : ℕ) : 𝕜))
      (det_vandermonde_ne_zero_iff.2 fun i j h => hf (Fin.ext (by exact_mod_cast h)))
    exact h
  have hmem : ∀ i, sample (powerData 𝕜 N p) (f i) ∈ V := fun i =>
    (Finset.mem_filter.1 (s.orderEmbOfFin_mem rfl _)).2
  have hle : k ≤ Module.finrank 𝕜 V := by
    have h := (LinearIndependent.of_comp V.subtype
      (v := fun i : Fin k => (⟨sample (powerData 𝕜 N p) (f i), hmem i⟩ : V)) hli).fintype_card_le_finrank
    simpa using h
  have hlt := finrank_lt_p hV
  rcases le_total s.card p with h | h
  · have : k = s.card := min_eq_left h
    omega
  · have : k = p := min_eq_right h
    omega

/-- The hypotheses of `C145` can be met in all dimensions. -/
example (a b : ℕ) : GeneralPosition (powerData ℂ (a * b + 1) (a * b)) :=
  powerData_generalPosition ℂ _ _

/-- Four samples of length 4 can be spread out, although general position would need five. -/
example : KronSpread fun i => (unstack (pauliData i) : Matrix (Fin 2) (Fin 2) ℝ) := by
  have h0 : ∀ i, pauliData i ≠ 0 := fun i h => pauli_data.1.nonzero i (by
    rw [h]; ext r c; simp [unstack])
  exact (C145_iff pauliData (by norm_num) (by norm_num) (by norm_num) h0).1
    ⟨1, 1, pauli_data.2.1, fun A' B' h => C111_unique pauliData pauli_data.1 (by norm_num)
      (by norm_num) pauli_data.2.2 _ _ _ _ pauli_data.2.1 h⟩

end RS
