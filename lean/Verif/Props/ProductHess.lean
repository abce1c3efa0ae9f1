import Verif.Props.Product
import Verif.Props.HPDGeom
import Verif.Spec.ProductHess

/-
The Riemannian Hessian of weighted products, C147.
-/
set_option autoImplicit false

namespace RS
open Matrix ComplexOrder SecondOrder

/-- Derivative of the Euclidean inner product of two curves of stacks. -/
theorem euclid_hasDerivAt {n k : ℕ} {p q : ℝ → Stack n k} {p' q' : Stack n k} {t : ℝ}
    (hp : StackDeriv p p' t) (hq : StackDeriv q q' t) :
    HasDerivAt (fun s => euclid (p s) (q s)) (euclid p' (q t) + euclid (p t) q') t := by
  unfold euclid
  rw [← Finset.sum_add_distrib]
  refine HasDerivAt.fun_sum fun i _ => ?_
  rw [← Finset.sum_add_distrib]
  refine HasDerivAt.fun_sum fun a _ => ?_
  rw [← Finset.sum_add_distrib]
  refine HasDerivAt.fun_sum fun b _ => ?_
  have re1 := Complex.reCLM.hasFDerivAt.comp_hasDerivAt t (hp i a b)
  have im1 := Complex.imCLM.hasFDerivAt.comp_hasDerivAt t (hp i a b)
  have re2 := Complex.reCLM.hasFDerivAt.comp_hasDerivAt t (hq i a b)
  have im2 := Complex.imCLM.hasFDerivAt.comp_hasDerivAt t (hq i a b)
  refine ((re1.fun_mul re2).fun_add (im1.fun_mul im2)).congr_deriv ?_
  simp only [Function.comp, Complex.reCLM_apply, Complex.imCLM_apply]
  ring

theorem secondOrder_pairing (c : SecondOrder) {p q : ℝ → c.mfd.Vec} {p' q' : c.mfd.Vec} {t : ℝ}
    (hp : c.VecDeriv p p' t) (hq : c.VecDeriv q q' t) :
    HasDerivAt (fun s => c.pairing (p s) (q s)) (c.pairing p' (q t) + c.pairing (p t) q') t := by
  cases c with
  | spv n =>
    change ∀ i j, _ at hp
    change ∀ i j, _ at hq
    show HasDerivAt (fun s => ∑ i, ∑ j, p s i j * q s i j)
      ((∑ i, ∑ j, p' i j * q t i j) + ∑ i, ∑ j, p t i j * q' i j) t
    simp only [← Finset.sum_add_distrib]
    exact HasDerivAt.fun_sum fun i _ => HasDerivAt.fun_sum fun j _ => (hp i j).fun_mul (hq i j)
  | hpd n k eigh chol back => exact euclid_hasDerivAt hp hq

theorem spv_geodesic {n : ℕ} (x u : Matrix (Fin n) (Fin 1) ℝ) (hx : Positive x) :
    ∃ (v : ℝ → Matrix (Fin n) (Fin 1) ℝ) (a : Matrix (Fin n) (Fin 1) ℝ),
      SPV.exp x ((0 : ℝ) • u) = x ∧ v 0 = u ∧ (∀ t : ℝ, Positive (SPV.exp x (t • u))) ∧
      (∀ t, CurveDeriv (fun s : ℝ => SPV.exp x (s • u)) (v t) t) ∧ CurveDeriv v a 0 ∧
      ∀ g h, SPV.inner x (SPV.ehess2rhess x g h u) u 0 =
        (∑ i, ∑ j, h i j * u i j) + ∑ i, ∑ j, g i j * a i j := by
  have h0 : SPV.exp x ((0 : ℝ) • u) = x := by ext i j; simp [SPV.exp]
  have hself := C51_transp_self x u hx
  refine ⟨fun t => SPV.transp x (SPV.exp x (t • u)) u, of fun i j => u i j * ((x i j)⁻¹ * u i j),
    h0, ?_, fun t => C50_exp_pos x _ hx, fun t => C51_transp_geodesic x u t, ?_, ?_⟩
  · show SPV.transp x (SPV.exp x ((0 : ℝ) • u)) u = u
    rw [h0, hself]
  · intro i j
    have hd : CurveDeriv (fun s : ℝ => SPV.exp x (s • u)) u 0 := by
      have := C51_transp_geodesic x u 0
      rwa [h0, hself] at this
    show HasDerivAt (fun t : ℝ => SPV.transp x (SPV.exp x (t • u)) u i j) _ 0
    simp only [SPV.transp, SPV.proj, of_apply]
    exact (hd i j).mul_const _
  · intro g h
    have := spv_ehess_polar x g u u h hx
    rw [Fin.sum_univ_one] at this
    rw [this]
    congr 1
    refine Finset.sum_congr rfl fun i _ => Finset.sum_congr rfl fun j _ => ?_
    rw [of_apply]
    ring

/-- The geodesic of a component and what its `ehess2rhess` gives along it. -/
theorem secondOrder_geodesic (c : SecondOrder) (hs : c.SolverOk) (x : c.mfd.Pt) (u : c.mfd.Vec)
    (hx : c.IsPoint x) (hu : c.IsTangent u) :
    ∃ (v : ℝ → c.mfd.Vec) (a : c.mfd.Vec), c.geodesic x u 0 = x ∧ v 0 = u ∧
      (∀ t, c.IsPoint (c.geodesic x u t)) ∧ (∀ t, c.Velocity (c.geodesic x u) (v t) t) ∧
      c.VecDeriv v a 0 ∧
      ∀ g h, ∃ r, c.mfd.ehess2rhess x g h u = .ok r ∧
        c.mfd.inner x r u = c.pairing h u + c.pairing g a := by
  cases c with
  | spv n =>
    obtain ⟨v, a, h0, hv, hp, hd, ha, he⟩ := spv_geodesic x u hx
    exact ⟨v, a, h0, hv, hp, hd, ha, fun g h => ⟨_, rfl, he g h⟩⟩
  | hpd n k eigh chol back =>
    obtain ⟨c', hx0, h0, hpd, h1, h2⟩ := C86_geodesic eigh hs x u hx hu
    refine ⟨c', fun i => u i * (x i)⁻¹ * u i, hx0, h0, hpd, h1, ?_, fun g h => ⟨_, rfl, ?_⟩⟩
    · have := h2 0
      rwa [h0, hx0] at this
    · exact ehess_inner x g h u hx hu

theorem secondOrder_homog (c : SecondOrder) (x : c.mfd.Pt) (hx : c.IsPoint x) (a : ℝ)
    (u v : c.mfd.Vec) : c.mfd.inner x (c.mfd.smul a u) v = a * c.mfd.inner x u v := by
  cases c with
  | spv n => exact (gradOk_spv n).homog x a u v hx
  | hpd n k eigh chol back => exact (gradOk_hpd n k eigh chol back).homog x a u v hx

/-- The part of `ehess2rhess` that comes from the gradient is symmetric. -/
theorem secondOrder_polar (c : SecondOrder) (x : c.mfd.Pt) (g : c.mfd.Vec) (hx : c.IsPoint x) :
    ∃ B : c.mfd.Vec → c.mfd.Vec → ℝ, (∀ u v, B u v = B v u) ∧
      ∀ h u v, c.IsTangent u → c.IsTangent v → ∃ r, c.mfd.ehess2rhess x g h u = .ok r ∧
        c.mfd.inner x r v = c.pairing h v + B u v := by
  cases c with
  | spv n =>
    refine ⟨fun u v : Matrix (Fin n) (Fin 1) ℝ => ∑ i, ∑ j, g i j * u i j * v i j / x i j,
      fun u v => ?_, fun h u v _ _ => ⟨_, rfl, ?_⟩⟩
    · exact Finset.sum_congr rfl fun i _ => Finset.sum_congr rfl fun j _ => by ring
    · have := spv_ehess_polar x g u v h hx
      rwa [Fin.sum_univ_one] at this
  | hpd n k eigh chol back =>
    refine ⟨fun a b : Stack n k => ∑ i, (1 / 2 : ℝ) *
      ((multiherm g i * (b i * ((x : Stack n k) i)⁻¹ * a i)).trace.re +
        (multiherm g i * (a i * ((x : Stack n k) i)⁻¹ * b i)).trace.re),
      fun u v => ?_, fun h u v hu hv => ⟨_, rfl, ?_⟩⟩
    · exact Finset.sum_congr rfl fun i _ => by ring
    · exact hpd_ehess_polar x g u v h hx hu hv

variable {m : ℕ} (κ : Fin m → SecondOrder)

/-- `ehess2rhess` of a weighted product of strictly positive vectors and positive definite matrices
is the Riemannian Hessian: for a function `f` of all the components with Euclidean gradient field
`g` whose derivative at `X` in direction `H` is `h`, the second derivative of `f` along the
geodesic of direction `H` is `⟨ehess2rhess(X, g(X), h, H), H⟩` in the weighted metric. -/
theorem C147_hessian_partial (hs : ∀ i, (κ i).SolverOk) (w : Fin m → ℝ) (hw : ∀ i, w i ≠ 0)
    (f : (∀ i, (κ i).mfd.Pt) → ℝ) (g : (∀ i, (κ i).mfd.Pt) → ∀ i, (κ i).mfd.Vec)
    (hf : IsEGrad κ f g) (X : ∀ i, (κ i).mfd.Pt) (H h : ∀ i, (κ i).mfd.Vec)
    (hX : ∀ i, (κ i).IsPoint (X i)) (hH : ∀ i, (κ i).IsTangent (H i)) (hg : IsEHess κ g X H h) :
    ∃ R, WeightedProduct.ehess2rhess (fun i => (κ i).mfd) w X (g X) h H = .ok R ∧
      HasDerivAt (deriv fun t : ℝ => f fun i => (κ i).geodesic (X i) (H i) t)
        (WeightedProduct.inner (fun i => (κ i).mfd) w X R H) 0 := by
  choose v a h0 hv0 hpt hvel hacc hess using fun i =>
    secondOrder_geodesic (κ i) (hs i) (X i) (H i) (hX i) (hH i)
  choose r hr hin using fun i => hess i (g X i) (h i)
  refine ⟨fun i => (κ i).mfd.smul (1 / w i) (r i), (comprehension_ok _ _).2 fun i => ?_, ?_⟩
  · rw [hr i]; rfl
  have hval : WeightedProduct.inner (fun i => (κ i).mfd) w X
      (fun i => (κ i).mfd.smul (1 / w i) (r i)) H =
      ∑ i, ((κ i).pairing (h i) (H i) + (κ i).pairing (g X i) (a i)) := by
    unfold WeightedProduct.inner
    refine Finset.sum_congr rfl fun i _ => ?_
    rw [secondOrder_homog (κ i) (X i) (hX i), ← mul_assoc, mul_one_div_cancel (hw i), one_mul, hin]
  set p : ℝ → ∀ i, (κ i).mfd.Pt := fun t i => (κ i).geodesic (X i) (H i) t with hp
  have hp0 : p 0 = X := funext h0
  have hd : (deriv fun t : ℝ => f (p t)) =
      fun t => ∑ i, (κ i).pairing (g (p t) i) (v i t) :=
    funext fun t => (hf p (fun i => v i t) t (fun s i => hpt i s) fun i => hvel i t).deriv
  show HasDerivAt (deriv fun t : ℝ => f (p t)) _ 0
  rw [hd, hval]
  refine HasDerivAt.fun_sum fun i _ => ?_
  have hgi := hg p (fun s i => hpt i s) hp0 (fun i => by
    have := hvel i 0
    rwa [hv0 i] at this) i
  refine (secondOrder_pairing (κ i) hgi (hacc i)).congr_deriv ?_
  rw [hv0 i, hp0]

/-- It is self-adjoint for the weighted metric when the Euclidean Hessian of the whole function is
symmetric, so the previous theorem determines it. -/
theorem C147_selfadjoint_partial (w : Fin m → ℝ) (hw : ∀ i, w i ≠ 0) (X : ∀ i, (κ i).mfd.Pt)
    (g H K hH hK : ∀ i, (κ i).mfd.Vec) (hX : ∀ i, (κ i).IsPoint (X i))
    (tH : ∀ i, (κ i).IsTangent (H i)) (tK : ∀ i, (κ i).IsTangent (K i))
    (hsym : ∑ i, (κ i).pairing (hH i) (K i) = ∑ i, (κ i).pairing (hK i) (H i)) :
    ∃ R S, WeightedProduct.ehess2rhess (fun i => (κ i).mfd) w X g hH H = .ok R ∧
      WeightedProduct.ehess2rhess (fun i => (κ i).mfd) w X g hK K = .ok S ∧
      WeightedProduct.inner (fun i => (κ i).mfd) w X R K =
        WeightedProduct.inner (fun i => (κ i).mfd) w X S H := by
  choose B hB hBr using fun i => secondOrder_polar (κ i) (X i) (g i) (hX i)
  choose r hr hrin using fun i => hBr i (hH i) (H i) (K i) (tH i) (tK i)
  choose s hs hsin using fun i => hBr i (hK i) (K i) (H i) (tK i) (tH i)
  refine ⟨fun i => (κ i).mfd.smul (1 / w i) (r i), fun i => (κ i).mfd.smul (1 / w i) (s i),
    (comprehension_ok _ _).2 fun i => by rw [hr i]; rfl,
    (comprehension_ok _ _).2 fun i => by rw [hs i]; rfl, ?_⟩
  unfold WeightedProduct.inner
  have e : ∀ (z : ∀ i, (κ i).mfd.Vec) (L : ∀ i, (κ i).mfd.Vec),
      ∑ i, w i * (κ i).mfd.inner (X i) ((κ i).mfd.smul (1 / w i) (z i)) (L i) =
        ∑ i, (κ i).mfd.inner (X i) (z i) (L i) := fun z L =>
    Finset.sum_congr rfl fun i _ => by
      rw [secondOrder_homog (κ i) (X i) (hX i), ← mul_assoc, mul_one_div_cancel (hw i), one_mul]
  rw [e, e]
  simp only [hrin, hsin, Finset.sum_add_distrib, hsym]
  congr 1
  exact Finset.sum_congr rfl fun i _ => hB i _ _

/-- A function whose Hessian couples the components: `x y` on two positive numbers, with gradient
`(y, x)` and derivative `(b, a)` of the gradient in direction `(a, b)`. -/
example : IsEGrad (fun _ : Fin 2 => spv 1)
      (fun X : Fin 2 → Matrix (Fin 1) (Fin 1) ℝ => X 0 0 0 * X 1 0 0)
      (fun X : Fin 2 → Matrix (Fin 1) (Fin 1) ℝ => fun i => X (1 - i)) ∧
    ∀ X H : Fin 2 → Matrix (Fin 1) (Fin 1) ℝ, IsEHess (fun _ : Fin 2 => spv 1)
      (fun X : Fin 2 → Matrix (Fin 1) (Fin 1) ℝ => fun i => X (1 - i)) X H fun i => H (1 - i) := by
  constructor
  · intro p v t _ hd
    have h0 := hd 0
    have h1 := hd 1
    have := (h0 0 0).fun_mul (h1 0 0)
    refine this.congr_deriv ?_
    show _ = ∑ i : Fin 2, ∑ a : Fin 1, ∑ b : Fin 1, (p t (1 - i) a b : ℝ) * v i a b
    simp [Fin.sum_univ_two]
    ring
  · intro X H p _ _ hd i
    exact hd (1 - i)

/-- On the Kronecker manifold `ehess2rhess` raises `NotImplementedError` whatever it is given: its
first component, the unit-determinant matrices, has no `ehess2rhess`. -/
theorem C147_violated (K : KronM) (eigha : Eigh (Fin K.a) ℂ)
    (chola backa : Matrix (Fin K.a) (Fin K.a) ℂ → Matrix (Fin K.a) (Fin K.a) ℂ)
    (eighb : Eigh (Fin K.b) ℂ)
    (cholb backb : Matrix (Fin K.b) (Fin K.b) ℂ → Matrix (Fin K.b) (Fin K.b) ℂ)
    (X : ∀ i, (K.manifolds eigha chola backa eighb cholb backb i).Pt)
    (g h H : ∀ i, (K.manifolds eigha chola backa eighb cholb backb i).Vec) :
    WeightedProduct.ehess2rhess (K.manifolds eigha chola backa eighb cholb backb) K.weights X g h H
      = .error .notImplementedError :=
  rfl

/-- So does a weighted product with unit-determinant matrices in any position, the other components
being of the three kinds of the package. -/
theorem C147_shpd_raises (N : Fin m → SecondOrder ⊕ (ℕ × ℕ))
    (eigh : ∀ n, Eigh (Fin n) ℂ) (chol back : ∀ n, Matrix (Fin n) (Fin n) ℂ → Matrix (Fin n) (Fin n) ℂ)
    (w : Fin m → ℝ) (X : ∀ i, (packageMfd eigh chol back (N i)).Pt)
    (g h H : ∀ i, (packageMfd eigh chol back (N i)).Vec) :
    WeightedProduct.ehess2rhess (fun i => packageMfd eigh chol back (N i)) w X g h H =
        .error .notImplementedError ↔
      ∃ i, (N i).isRight := by
  have key : ∀ q : SecondOrder ⊕ (ℕ × ℕ),
      (q.isRight → ∀ x g h H, (packageMfd eigh chol back q).ehess2rhess x g h H =
        .error .notImplementedError) ∧
      (¬ q.isRight → ∀ x g h H, ∃ r, (packageMfd eigh chol back q).ehess2rhess x g h H = .ok r) := by
    rintro ((n | _) | q)
    · exact ⟨fun h => (by cases h), fun _ x g h H => ⟨_, rfl⟩⟩
    · exact ⟨fun h => (by cases h), fun _ x g h H => ⟨_, rfl⟩⟩
    · exact ⟨fun _ x g h H => rfl, fun h => (h rfl).elim⟩
  rw [C58_hessian_raises]
  constructor
  · rintro ⟨i, hi, _⟩
    refine ⟨i, ?_⟩
    by_contra hc
    obtain ⟨r, hr⟩ := (key (N i)).2 hc (X i) (g i) (h i) (H i)
    rw [hr] at hi
    cases hi
  · rintro hex
    classical
    let s := Finset.univ.filter fun i => (N i).isRight
    have hs : s.Nonempty := by
      obtain ⟨i, hi⟩ := hex
      exact ⟨i, by simp [s, hi]⟩
    refine ⟨s.min' hs, (key _).1 ?_ _ _ _ _, fun j hj => (key (N j)).2 (fun hc => ?_) _ _ _ _⟩
    · have := s.min'_mem hs
      simpa [s] using this
    · exact absurd (s.min'_le j (by simp [s, hc])) (not_le.2 hj)

end RS
