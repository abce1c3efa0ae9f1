import Verif.Spec.OnlineGauss
import Verif.Props.Online
import Verif.Lemmas.OnlineConsist
import Verif.Lemmas.TylerGrad

/-
The gradient of the Gaussian cost, and what `fit` does with it (C168).
-/
set_option autoImplicit false

namespace RS
open Matrix ComplexOrder Filter Topology

variable {p : ℕ}

/-- Two Euclidean gradients of one cost give the same Riemannian gradient. -/
theorem rgrad_unique {f : Stack p 1 → ℝ} {g g' : Stack p 1 → Stack p 1} (h : IsEGradHPD f g)
    (h' : IsEGradHPD f g') {e : Stack p 1} (he : ∀ i, (e i).PosDef) :
    HPD.egrad2rgrad e (g e) = HPD.egrad2rgrad e (g' e) := by
  set u := HPD.egrad2rgrad e (g e) with hu
  set u' := HPD.egrad2rgrad e (g' e) with hu'
  have hH : ∀ i, (u i).IsHermitian := (C54_gradient e (g e) 0 he fun _ => isHermitian_zero).1
  have hH' : ∀ i, (u' i).IsHermitian := (C54_gradient e (g' e) 0 he fun _ => isHermitian_zero).1
  set v : Stack p 1 := u - u' with hv
  have hvH : ∀ i, (v i).IsHermitian := fun i => (hH i).sub (hH' i)
  have hcurve : StackDeriv (fun t : ℝ => HPD.retr e (t • v)) v 0 := (C86_retr_first_order e v).2
  have h0 : HPD.retr e ((0 : ℝ) • v) = e := (C86_retr_first_order e v).1
  have hpd : ∀ t : ℝ, HPD.retr e (t • v) ∈ HPDset p 1 := fun t =>
    C52_retr_posDef _ _ he fun i => isHermitian_real_smul (hvH i) t
  have d1 := h _ _ 0 hpd hcurve
  have d2 := h' _ _ 0 hpd hcurve
  have e1 := d1.unique d2
  simp only [h0] at e1
  rw [← (C54_gradient e (g e) v he hvH).2, ← (C54_gradient e (g' e) v he hvH).2] at e1
  have e2 : HPD.inner e v v = 0 := by
    have h4 := C54_bilinear e u' u v (-1)
    have e5 : (((-1 : ℝ) : ℂ) • u' + u) = v := by
      rw [hv]; push_cast; rw [neg_smul, one_smul]; abel
    rw [e5] at h4
    rw [h4, e1]; ring
  have := (C54_posDef e v he hvH).2.1 e2
  exact sub_eq_zero.1 this

theorem euclid_trace (g v : Matrix (Fin p) (Fin p) ℂ) :
    euclid (fun _ : Fin 1 => g) (fun _ => v) = (gᴴ * v).trace.re := by
  unfold euclid
  rw [Fin.sum_univ_one, trace, Complex.re_sum, Finset.sum_comm]
  refine Finset.sum_congr rfl fun a _ => ?_
  rw [diag_apply, Matrix.mul_apply, Complex.re_sum]
  refine Finset.sum_congr rfl fun b _ => ?_
  simp [conjTranspose_apply, Complex.mul_re]

/-- The Euclidean gradient of the Gaussian cost. -/
theorem gaussNegLog_egrad (z : Fin p → ℂ) :
    IsEGradHPD (k := 1) (fun S => gaussNegLog z (S 0))
      (fun S i => (S i)⁻¹ - (S i)⁻¹ * outer z * (S i)⁻¹) := by
  intro c c' t hc hd
  have hpd : (c (t + 0) 0).PosDef := hc _ 0
  have hd0 : CurveDeriv (fun s => c (t + s) 0) (c' 0) 0 := fun i j => by
    have h1 := hd 0 i j
    have h2 : HasDerivAt (fun s : ℝ => t + s) 1 0 := (hasDerivAt_id 0).const_add t
    have h1' : HasDerivAt (fun s => c s 0 i j) (c' 0 i j) (t + 0) := by rwa [add_zero]
    have := h1'.scomp (0 : ℝ) h2
    rw [one_smul] at this
    exact this
  have hq := qf_hasDerivAt (c := fun s => c (t + s) 0) hpd hd0 z
  have hl := logdet_hasDerivAt (c := fun s => c (t + s) 0) hpd hd0
  have hs := hl.add hq
  have hback : HasDerivAt (fun s : ℝ => s - t) 1 t := (hasDerivAt_id t).sub_const t
  have key := HasDerivAt.scomp (h := fun s : ℝ => s - t) t (by rw [sub_self]; exact hs) hback
  simp only [one_smul, add_zero] at key
  have e : (fun s => gaussNegLog z (c s 0)) = ((fun s => Real.log (RCLike.re (c (t + s) 0).det)) +
      fun s => qf (c (t + s) 0) z) ∘ fun s => s - t := by
    funext s
    simp [gaussNegLog]
  rw [e]
  refine key.congr_deriv ?_
  have e2 : euclid (fun i => (c t i)⁻¹ - (c t i)⁻¹ * outer z * (c t i)⁻¹) c' =
      euclid (fun _ : Fin 1 => (c t 0)⁻¹ - (c t 0)⁻¹ * outer z * (c t 0)⁻¹) (fun _ => c' 0) := by
    unfold euclid; rw [Fin.sum_univ_one, Fin.sum_univ_one]
  rw [e2, euclid_trace]
  set S := c t 0 with hS
  have hSH : (S⁻¹)ᴴ = S⁻¹ := (hc t 0).inv.1
  have hg : (S⁻¹ - S⁻¹ * outer z * S⁻¹)ᴴ = S⁻¹ - S⁻¹ * outer z * S⁻¹ := by
    rw [conjTranspose_sub, conjTranspose_mul, conjTranspose_mul, hSH, (outer_herm z).eq,
      Matrix.mul_assoc]
  rw [hg, Matrix.sub_mul, trace_sub, Complex.sub_re, ← sub_eq_add_neg]
  congr 1
  have e3 : (S⁻¹ * outer z * S⁻¹ * c' 0).trace = ((S⁻¹ * c' 0 * S⁻¹) * outer z).trace := by
    rw [show S⁻¹ * outer z * S⁻¹ * c' 0 = S⁻¹ * outer z * (S⁻¹ * c' 0) by
      simp only [Matrix.mul_assoc], trace_mul_comm, show S⁻¹ * c' 0 * (S⁻¹ * outer z) =
      S⁻¹ * c' 0 * S⁻¹ * outer z by simp only [Matrix.mul_assoc]]
  rw [e3, qform, outer, mul_vecMulVec, trace_vecMulVec, dotProduct_comm]
  rfl

/-- The Riemannian gradient of the Gaussian cost. -/
theorem gaussNegLog_rgrad (z : Fin p → ℂ) {e : Matrix (Fin p) (Fin p) ℂ} (he : e.PosDef)
    {g : Stack p 1 → Stack p 1} (hg : IsEGradHPD (fun S => gaussNegLog z (S 0)) g) :
    HPD.egrad2rgrad (fun _ : Fin 1 => e) (g fun _ => e) 0 = e - outer z := by
  rw [rgrad_unique hg (gaussNegLog_egrad z) (e := fun _ => e) fun _ => he]
  have hu : IsUnit e.det := (isUnit_iff_isUnit_det e).1 he.isUnit
  have hEH : (e⁻¹)ᴴ = e⁻¹ := he.inv.1
  have hH : (e⁻¹ - e⁻¹ * outer z * e⁻¹).IsHermitian := by
    rw [IsHermitian, conjTranspose_sub, conjTranspose_mul, conjTranspose_mul, hEH, (outer_herm z).eq,
      Matrix.mul_assoc]
  have e2 : (multiherm (fun _ => e⁻¹ - e⁻¹ * outer z * e⁻¹) : Stack p 1) =
      fun _ => e⁻¹ - e⁻¹ * outer z * e⁻¹ := multiherm_of_isHermitian fun _ => hH
  simp only [HPD.egrad2rgrad, e2]
  rw [Matrix.mul_sub, Matrix.sub_mul, mul_nonsing_inv _ hu, Matrix.one_mul]
  congr 1
  calc e * (e⁻¹ * outer z * e⁻¹) * e = (e * e⁻¹) * outer z * (e⁻¹ * e) := by
        simp only [Matrix.mul_assoc]
    _ = outer z := by rw [mul_nonsing_inv _ hu, nonsing_inv_mul _ hu, Matrix.one_mul, Matrix.mul_one]

theorem GaussGrad.apply {rgrad : NDArr → Matrix (Fin p) (Fin p) ℂ → Py (Matrix (Fin p) (Fin p) ℂ)}
    (h : GaussGrad rgrad) {r : NDArr} {z : Fin p → ℂ} (hr : RowOf r z)
    {e : Matrix (Fin p) (Fin p) ℂ} (he : e.PosDef) : rgrad r e = .ok (e - outer z) := by
  obtain ⟨g, hg, h1⟩ := h r z hr
  rw [h1 e he, gaussNegLog_rgrad z he hg]

/-- The steps used from iteration `m` on. -/
theorem gaussPath_congr {t t' : ℕ → ℝ} {M₀ : Matrix (Fin p) (Fin p) ℂ} {x x' : ℕ → Fin p → ℂ} {n : ℕ}
    (ht : ∀ k < n, t k = t' k) (hx : ∀ k < n, x k = x' k) :
    gaussPath t M₀ x n = gaussPath t' M₀ x' n := by
  induction n with
  | zero => rfl
  | succ n ih =>
    rw [gaussPath, gaussPath, ih (fun k hk => ht k (by omega)) fun k hk => hx k (by omega),
      ht n (by omega), hx n (by omega)]

theorem gauss_loop (hp : 0 < p)
    {rgrad : NDArr → Matrix (Fin p) (Fin p) ℂ → Py (Matrix (Fin p) (Fin p) ℂ)}
    (hg : GaussGrad rgrad) (X : NDArr) (lr : String) (xs : List NDArr) :
    ∀ (s : Online (Matrix (Fin p) (Fin p) ℂ)) (e : Matrix (Fin p) (Fin p) ℂ), e.PosDef →
      s.estimate = some e → s.covariance = some (.cplx (.d2 p p e)) →
      ∀ z : ℕ → Fin p → ℂ, (∀ (i : ℕ) (h : i < xs.length), RowOf xs[i] (z i)) →
      (s.loop (onlineHPD p rgrad none) X lr xs).2 = .ok () ∧
      (s.loop (onlineHPD p rgrad none) X lr xs).1.estimate =
        some (gaussPath (fun k => currentLr s.lrate lr (s.iteration + k)) e z xs.length) ∧
      (s.loop (onlineHPD p rgrad none) X lr xs).1.covariance = some (.cplx (.d2 p p
        (gaussPath (fun k => currentLr s.lrate lr (s.iteration + k)) e z xs.length))) := by
  induction xs with
  | nil => intro s e _ hs hc z _; exact ⟨rfl, hs, hc⟩
  | cons x xs ih =>
    intro s e he hs _ z hz
    have hr := hg.apply (hz 0 (by simp)) he
    simp only [List.getElem_cons_zero] at hr
    set e' := HPD.retr (fun _ : Fin 1 => e)
      (fun _ => currentLr s.lrate lr s.iteration • (e - outer (z 0))) 0 with he'
    have hp' : e'.PosDef := gaussPath_posDef (t := fun k => currentLr s.lrate lr (s.iteration + k)) he z 1
    have hup : s.update (onlineHPD p rgrad none) x lr =
        (⟨s.iteration, some e', some (.cplx (.d2 p p e')), s.lrate, s.errors⟩, .ok ()) := by
      unfold Online.update
      rw [hs]
      have h2 : (onlineHPD p rgrad none).rgrad x e = .ok (.arr (e - outer (z 0))) := by
        simp only [onlineHPD, hr, Bind.bind, Except.bind, Pure.pure, Except.pure]
      simp only [h2, Tangent.scale, onlineHPD_retr rgrad none he]
      exact setEstimate_of_ok _ (onlineHPD_cov hp rgrad none _)
    unfold Online.loop
    rw [hup]
    have key := ih ⟨s.iteration + 1, some e', some (.cplx (.d2 p p e')), s.lrate, s.errors⟩ e' hp' rfl rfl
      (fun i => z (1 + i)) fun i h => by
        have := hz (i + 1) (by simpa using h)
        simpa [add_comm] using this
    have hpath : gaussPath (fun k => currentLr s.lrate lr (s.iteration + 1 + k)) e' (fun i => z (1 + i))
        xs.length = gaussPath (fun k => currentLr s.lrate lr (s.iteration + k)) e z
          (x :: xs).length := by
      rw [List.length_cons, add_comm xs.length 1, gaussPath_shift]
      congr 1
      funext k
      rw [add_assoc]
    simp only [hpath] at key
    exact key

/-- `fit` on the samples `z 0, …, z (n-1)`. -/
theorem gauss_fit (hp : 0 < p)
    {rgrad : NDArr → Matrix (Fin p) (Fin p) ℂ → Py (Matrix (Fin p) (Fin p) ℂ)}
    (hg : GaussGrad rgrad) (s : Online (Matrix (Fin p) (Fin p) ℂ)) {e₀ : Matrix (Fin p) (Fin p) ℂ}
    (h₀ : e₀.PosDef) {X : NDArr} {xs : List NDArr} (hX : RowsOf X xs) (lr : String)
    {z : ℕ → Fin p → ℂ} (hz : ∀ (i : ℕ) (h : i < xs.length), RowOf xs[i] (z i)) :
    (s.fit (onlineHPD p rgrad none) X (some e₀) lr).2 = .ok () ∧
    (s.fit (onlineHPD p rgrad none) X (some e₀) lr).1.estimate =
      some (gaussPath (fun k => currentLr s.lrate lr (s.iteration + k)) e₀ z xs.length) ∧
    (s.fit (onlineHPD p rgrad none) X (some e₀) lr).1.covariance = some (.cplx (.d2 p p
      (gaussPath (fun k => currentLr s.lrate lr (s.iteration + k)) e₀ z xs.length))) := by
  unfold Online.fit
  rw [setEstimate_of_ok s (onlineHPD_cov hp rgrad none e₀)]
  simp only [(rows_iff X xs).2 hX]
  exact gauss_loop hp hg X lr xs ⟨s.iteration, some e₀, _, s.lrate, s.errors⟩ e₀ h₀ rfl rfl z hz

end RS
