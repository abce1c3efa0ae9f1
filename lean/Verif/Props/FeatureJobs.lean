import Verif.Lemmas.FeatureJobs
import Verif.Props.FeatureArray

/-
C106: `FeaturesEstimation.transform` works on copies of the estimator. The code drops the copy it
makes; the property holds for worker processes only.
-/
set_option autoImplicit false

namespace RS

variable {S X K P : Type}

/-- Worker processes leave the estimator of the user as it was, whatever it does and in whatever
order the trials run. -/
theorem C106_processes_untouched (E : FeatObj S X K) (zero : K) (n : ℕ) (batch : ℕ → ℕ)
    (sched : List ℕ) (s : S) (xs : List X) :
    (featuresTransformObj E zero (.processes n batch sched) s xs).1 = some s :=
  featRun_user (E := E) (zero := zero) (batch := batch) (xs := xs) sched _

/-- If `fit_transform` depends on the trial and on the parameters only, `n_jobs = 1` and worker
processes give the same result: the features which an estimator in the given state computes on
each trial, joined in order (C21). Missing: threads. -/
theorem C106_result_partial (E : FeatObj S X K) (par : S → P) (hE : DataOnly E par) (zero : K)
    (s : S) (xs : List X) (b : Backend) (hb : b.Possible xs.length)
    (hth : ∀ sched, b ≠ .threads sched) :
    (featuresTransformObj E zero b s xs).2 =
      some (featuresTransform zero (trialFeature E s) xs) := by
  have hfeat : ∀ s' x, par s' = par s → x ∈ xs → trialFeature E s' x = trialFeature E s x :=
    fun s' x h _ => hE.same s' s x h
  rw [featuresTransform_eq]
  cases b with
  | sequential =>
    simp only [featuresTransformObj]
    rw [seqFeatures_eq hE.keeps xs s rfl hfeat]
  | threads sched => exact absurd rfl (hth sched)
  | processes m batch sched =>
    obtain ⟨h1, h2, h3⟩ := hb
    simp only [featuresTransformObj]
    rw [featRun_gather hE.keeps hfeat (s :: List.replicate m s) (by
      intro s' hs'
      rcases List.mem_cons.1 hs' with rfl | h
      · rfl
      · rw [(List.mem_replicate.1 h).2]) (by simpa using h3) sched
      (fun i l₁ l₂ h h' j hj hji => h2 i l₁ l₂ h h' j hj (by simpa using hji)) h1]
    rfl

/-- Threads that do not interleave `fit` and `transform` of different trials give that result
too. -/
theorem C106_threads_partial (E : FeatObj S X K) (par : S → P) (hE : DataOnly E par) (zero : K)
    (s : S) (xs : List X) (sched : List ℕ) (hc : Complete xs.length sched)
    (hx : Exclusive (fun _ => 0) sched) :
    (featuresTransformObj E zero (.threads sched) s xs).2 =
      some (featuresTransform zero (trialFeature E s) xs) := by
  rw [featuresTransform_eq]
  simp only [featuresTransformObj]
  rw [featRun_gather hE.keeps (fun s' x h _ => hE.same s' s x h) [s] (by simp) (by simp) sched hx
    hc]
  rfl

/-- An estimator of the library's kind: `fit` stores its result (here: the trial itself) and
`transform` returns what is stored. -/
def lastEst : FeatObj ℕ ℕ ℕ where
  fit _ x := (x, .ok ())
  transform s _ := .ok [⟨.float64, [], .leaf s⟩]

theorem lastEst_dataOnly : DataOnly lastEst (fun _ => ()) := ⟨fun _ _ => rfl, fun _ _ _ _ => rfl⟩

/-- An estimator with memory: `fit` adds the trial to a running sum. -/
def sumEst : FeatObj ℕ ℕ ℕ where
  fit s x := (s + x, .ok ())
  transform s _ := .ok [⟨.float64, [], .leaf s⟩]

/-- Non-vacuity of the partial results: four trials in two processes, whose steps interleave. -/
example : Backend.Possible 4 (.processes 2 (· / 2) [0, 2, 0, 1, 2, 1, 3, 3]) := by
  refine ⟨by unfold Complete; decide, ?_, by decide⟩
  intro i l₁ l₂ h h' j hj
  match l₁, h with
  | [], h =>
    simp only [List.nil_append, List.cons.injEq] at h
    obtain ⟨rfl, rfl⟩ := h
    simp [List.takeWhile] at hj
    simp [hj]
  | [a], h =>
    simp only [List.cons_append, List.nil_append, List.cons.injEq] at h
    obtain ⟨rfl, rfl, rfl⟩ := h
    simp [List.takeWhile] at hj
    rcases hj with rfl | rfl <;> simp
  | [a, b], h =>
    simp only [List.cons_append, List.nil_append, List.cons.injEq] at h
    obtain ⟨rfl, rfl, rfl, rfl⟩ := h
    simp at h'
  | [a, b, c], h =>
    simp only [List.cons_append, List.nil_append, List.cons.injEq] at h
    obtain ⟨rfl, rfl, rfl, rfl, rfl⟩ := h
    simp [List.takeWhile] at hj
    simp [hj]
  | [a, b, c, d], h =>
    simp only [List.cons_append, List.nil_append, List.cons.injEq] at h
    obtain ⟨rfl, rfl, rfl, rfl, rfl, rfl⟩ := h
    simp at h'
  | [a, b, c, d, e], h =>
    simp only [List.cons_append, List.nil_append, List.cons.injEq] at h
    obtain ⟨rfl, rfl, rfl, rfl, rfl, rfl, rfl⟩ := h
    simp at h'
  | [a, b, c, d, e, f], h =>
    simp only [List.cons_append, List.nil_append, List.cons.injEq] at h
    obtain ⟨rfl, rfl, rfl, rfl, rfl, rfl, rfl, rfl⟩ := h
    simp [List.takeWhile] at hj
  | [a, b, c, d, e, f, g], h =>
    simp only [List.cons_append, List.nil_append, List.cons.injEq] at h
    obtain ⟨rfl, rfl, rfl, rfl, rfl, rfl, rfl, rfl, rfl⟩ := h
    simp at h'
  | a :: b :: c :: d :: e :: f :: g :: k :: l, h =>
    have := congrArg List.length h
    simp at this

/-- Different trials have different features under `lastEst`. -/
theorem lastEst_inj {a b c d : ℕ} (h : featuresTransform 0 (trialFeature lastEst 0) [a, b] =
    featuresTransform 0 (trialFeature lastEst 0) [c, d]) : a = c ∧ b = d := by
  have key : ∀ a b : ℕ, ∃ f, featuresTransform 0 (trialFeature lastEst 0) [a, b] = .ok f ∧
      f.export = .ok (packedAll [(.float64, [])] [[.leaf a, .leaf b]]) := by
    intro a b
    obtain ⟨f, h1, _, _, h4⟩ := C21_transform [(.float64, [])] (by simp) (0 : ℕ)
      (trialFeature lastEst 0) (fun x => [.leaf x]) [a, b] (by simp) (fun _ _ => rfl)
      (fun _ _ => rfl)
    exact ⟨f, h1, h4⟩
  obtain ⟨f, h1, h2⟩ := key a b
  obtain ⟨g, h3, h4⟩ := key c d
  rw [h1, h3] at h
  obtain rfl : f = g := by simpa using h
  rw [h2] at h4
  simpa [packedAll, packed] using h4

/-- The property fails for the code. With `n_jobs = 1` the estimator of the user is left fitted
on the last trial, and an estimator with memory gives features which depend on the trials before.
With two threads a feature can be that of another trial, even for an estimator without memory. -/
theorem C106_violated :
    (featuresTransformObj lastEst 0 .sequential 0 [5, 7]).1 = some 7 ∧
    (featuresTransformObj sumEst 0 .sequential 0 [5, 7]).2 ≠
      some (featuresTransform 0 (trialFeature sumEst 0) [5, 7]) ∧
    Backend.Possible 2 (.threads [0, 1, 0, 1]) ∧
    (featuresTransformObj lastEst 0 (.threads [0, 1, 0, 1]) 0 [5, 7]).2 =
      some (featuresTransform 0 (trialFeature lastEst 0) [7, 7]) ∧
    featuresTransform 0 (trialFeature lastEst 0) [7, 7] ≠
      featuresTransform 0 (trialFeature lastEst 0) [5, 7] := by
  refine ⟨rfl, ?_, ?_, rfl, ?_⟩
  · intro h
    have h' : (featuresTransformObj sumEst 0 .sequential 0 [5, 7]).2 =
        some (featuresTransform 0 (trialFeature lastEst 0) [5, 12]) := rfl
    have h'' : featuresTransform 0 (trialFeature sumEst 0) [5, 7] =
        featuresTransform 0 (trialFeature lastEst 0) [5, 7] := rfl
    rw [h', h''] at h
    exact absurd (lastEst_inj (Option.some.inj h)).2 (by norm_num)
  · unfold Backend.Possible Complete; decide
  · exact fun h => absurd (lastEst_inj h).1 (by norm_num)

end RS
