import Verif.Spec.FeatureJobs

/-
Runs of the trials of `FeaturesEstimation` by several workers.
-/
set_option autoImplicit false

namespace RS

variable {S X K P : Type}

theorem featureEstimation_eq (zero : K) (est : X → Py (List (NArr K))) (x : X) :
    featureEstimation zero est x = match est x with
      | .error e => .error e
      | .ok f => wrapFeature zero f := rfl

theorem featuresTransform_eq (zero : K) (est : X → Py (List (NArr K))) (xs : List X) :
    featuresTransform zero est xs = joinFeatures zero (xs.mapM (featureEstimation zero est)) := by
  unfold featuresTransform joinFeatures
  cases xs.mapM (featureEstimation zero est) with
  | error e => rfl
  | ok l => cases l <;> rfl

/-- The invariant of a run: `feat x` is the right feature of trial `x`. -/
structure FeatInv (E : FeatObj S X K) (zero : K) (owner : ℕ → ℕ) (xs : List X) (par : S → P) (c : P)
    (feat : X → Py (List (NArr K))) (m : ℕ) (pre : List ℕ) (σ : FeatState S K) : Prop where
  nobjs : σ.objs.length = m
  ntasks : σ.tasks.length = xs.length
  par : ∀ s ∈ σ.objs, par s = c
  pending : ∀ i (h : i < σ.tasks.length), pre.count i = 0 → σ.tasks[i] = .pending
  once : ∀ i (h : i < σ.tasks.length) (hx : i < xs.length), pre.count i = 1 →
    (σ.tasks[i] = .fitted ∧ ∀ s, σ.objs[owner i]? = some s → E.transform s xs[i] = feat xs[i]) ∨
    σ.tasks[i] = .done (featureEstimation zero feat xs[i])
  twice : ∀ i (h : i < σ.tasks.length) (hx : i < xs.length), 2 ≤ pre.count i →
    σ.tasks[i] = .done (featureEstimation zero feat xs[i])

theorem FeatInv.step {E : FeatObj S X K} {zero : K} {owner : ℕ → ℕ} {xs : List X} {par : S → P}
    {c : P} {feat : X → Py (List (NArr K))} {m : ℕ}
    (hkeep : ∀ s x, par (E.fit s x).1 = par s)
    (hfeat : ∀ s x, par s = c → x ∈ xs → trialFeature E s x = feat x)
    (how : ∀ i < xs.length, owner i < m)
    {pre rest : List ℕ} {k : ℕ} (hexc : Exclusive owner (pre ++ k :: rest)) {σ : FeatState S K}
    (h : FeatInv E zero owner xs par c feat m pre σ) :
    FeatInv E zero owner xs par c feat m (pre ++ [k]) (featStep E zero owner xs σ k) := by
  have hcount : ∀ i, (pre ++ [k]).count i = pre.count i + if k = i then 1 else 0 := fun i => by
    rw [List.count_append, List.count_singleton]
    simp
  by_cases hk : k < xs.length
  swap
  · -- an unknown trial
    have hstep : featStep E zero owner xs σ k = σ := by
      have h1 : xs[k]? = none := List.getElem?_eq_none (by omega)
      have h2 : σ.tasks[k]? = none := List.getElem?_eq_none (by rw [h.ntasks]; omega)
      simp only [featStep, h1, h2]
    rw [hstep]
    have hc : ∀ i < xs.length, (pre ++ [k]).count i = pre.count i := fun i hi => by
      rw [hcount, if_neg (by omega), add_zero]
    refine ⟨h.nobjs, h.ntasks, h.par, fun i hi h0 => h.pending i hi ?_, fun i hi hx h0 =>
      h.once i hi hx ?_, fun i hi hx h0 => h.twice i hi hx ?_⟩
    · rwa [hc i (h.ntasks ▸ hi)] at h0
    · rwa [hc i hx] at h0
    · rwa [hc i hx] at h0
  have hkt : k < σ.tasks.length := by rw [h.ntasks]; exact hk
  have hok : owner k < σ.objs.length := by rw [h.nobjs]; exact how k hk
  have hx? : xs[k]? = some xs[k] := List.getElem?_eq_getElem hk
  have ht? : σ.tasks[k]? = some σ.tasks[k] := List.getElem?_eq_getElem hkt
  have ho? : σ.objs[owner k]? = some σ.objs[owner k] := List.getElem?_eq_getElem hok
  have hpar : par σ.objs[owner k] = c := h.par _ (List.getElem_mem hok)
  have hmem : xs[k] ∈ xs := List.getElem_mem hk
  -- other trials on the same object are not between their two steps
  have hother : ∀ i (hi : i < σ.tasks.length), i ≠ k → pre.count i = 1 → owner k ≠ owner i := by
    intro i hi hik h1
    have hin : i ∈ pre := List.count_pos_iff.1 (by omega)
    obtain ⟨l₁, l₂, hl, hn⟩ := List.append_of_mem hin |>.elim fun l₁ h => h.elim fun l₂ h =>
      (⟨l₁, l₂, h, by
        rw [h, List.count_append, List.count_cons_self] at h1
        exact ⟨List.count_eq_zero.1 (by omega), List.count_eq_zero.1 (by omega)⟩⟩ :
        ∃ l₁ l₂, pre = l₁ ++ i :: l₂ ∧ i ∉ l₁ ∧ i ∉ l₂)
    refine hexc i l₁ (l₂ ++ k :: rest) (by rw [hl]; simp) hn.1 k ?_
    rw [List.takeWhile_append_of_pos (by
      intro a ha
      have : a ≠ i := fun h => hn.2 (h ▸ ha)
      simpa using this), List.takeWhile_cons_of_pos (by simpa using Ne.symm hik)]
    simp
  cases hst : σ.tasks[k] with
  | pending =>
    have hpk : pre.count k = 0 := by
      rcases Nat.lt_or_ge (pre.count k) 2 with h2 | h2
      · by_contra h0
        have h1 : pre.count k = 1 := by omega
        rcases h.once k hkt hk h1 with h' | h'
        · rw [hst] at h'; exact absurd h'.1 (by simp)
        · rw [hst] at h'; exact absurd h' (by simp)
      · have := h.twice k hkt hk h2
        rw [hst] at this; exact absurd this (by simp)
    have hf := hfeat _ xs[k] hpar hmem
    have hkp := hkeep σ.objs[owner k] xs[k]
    cases hfit : E.fit σ.objs[owner k] xs[k] with
    | mk s' r =>
      rw [hfit] at hkp
      have hres : ∀ t, FeatInv E zero owner xs par c feat m (pre ++ [k])
          ⟨σ.objs.set (owner k) s', σ.tasks.set k t⟩ ↔
          (t = .fitted ∧ E.transform s' xs[k] = feat xs[k]) ∨
            t = .done (featureEstimation zero feat xs[k]) := by
        intro t
        constructor
        · intro hh
          have := hh.once k (by simpa using hkt) hk (by rw [hcount, hpk, if_pos rfl])
          rcases this with h' | h'
          · left
            refine ⟨by simpa using h'.1, h'.2 s' ?_⟩
            simp [hok]
          · right; simpa using h'
        · intro ht
          refine ⟨by simp [h.nobjs], by simp [h.ntasks], ?_, ?_, ?_, ?_⟩
          · intro s hs
            rcases List.mem_or_eq_of_mem_set hs with h' | h'
            · exact h.par s h'
            · rw [h']; exact hkp.trans hpar
          · intro i hi h0
            rw [hcount] at h0
            have hik : k ≠ i := fun h => by simp [h] at h0
            simp only [List.getElem_set, if_neg hik]
            exact h.pending i _ (by omega)
          · intro i hi hx h1
            rw [hcount] at h1
            by_cases hik : k = i
            · subst hik
              simp only [List.getElem_set_self]
              rcases ht with ⟨h', h''⟩ | h'
              · left
                refine ⟨h', fun s hs => ?_⟩
                simp [hok] at hs
                rw [← hs]; exact h''
              · right; exact h'
            · rw [if_neg hik, add_zero] at h1
              simp only [List.getElem_set, if_neg hik]
              have ho := hother i (by simpa using hi) (Ne.symm hik) h1
              rcases h.once i (by simpa using hi) hx h1 with h' | h'
              · left
                refine ⟨h'.1, fun s hs => h'.2 s ?_⟩
                rwa [List.getElem?_set_ne ho] at hs
              · right; exact h'
          · intro i hi hx h2
            rw [hcount] at h2
            have hik : k ≠ i := fun h => by subst h; simp [hpk] at h2
            rw [if_neg hik, add_zero] at h2
            simp only [List.getElem_set, if_neg hik]
            exact h.twice i (by simpa using hi) hx h2
      cases r with
      | ok u =>
        have hstep : featStep E zero owner xs σ k =
            ⟨σ.objs.set (owner k) s', σ.tasks.set k .fitted⟩ := by
          simp only [featStep, hx?, ht?, ho?, hst, hfit]
        rw [hstep, hres]
        left
        refine ⟨rfl, ?_⟩
        rw [← hf, trialFeature, hfit]
      | error e =>
        have hstep : featStep E zero owner xs σ k =
            ⟨σ.objs.set (owner k) s', σ.tasks.set k (.done (.error e))⟩ := by
          simp only [featStep, hx?, ht?, ho?, hst, hfit]
        rw [hstep, hres]
        right
        rw [featureEstimation_eq, ← hf, trialFeature, hfit]
  | fitted =>
    have hpk : pre.count k = 1 := by
      rcases Nat.lt_or_ge (pre.count k) 2 with h2 | h2
      · by_contra h0
        have h1 : pre.count k = 0 := by omega
        have := h.pending k hkt h1
        rw [hst] at this; exact absurd this (by simp)
      · have := h.twice k hkt hk h2
        rw [hst] at this; exact absurd this (by simp)
    have htr : E.transform σ.objs[owner k] xs[k] = feat xs[k] := by
      rcases h.once k hkt hk hpk with h' | h'
      · exact h'.2 _ ho?
      · rw [hst] at h'; exact absurd h' (by simp)
    have hstep : featStep E zero owner xs σ k =
        ⟨σ.objs, σ.tasks.set k (.done (featureEstimation zero feat xs[k]))⟩ := by
      simp only [featStep, hx?, ht?, ho?, hst, featureEstimation_eq, ← htr]
      rfl
    rw [hstep]
    refine ⟨h.nobjs, by simp [h.ntasks], h.par, ?_, ?_, ?_⟩
    · intro i hi h0
      rw [hcount] at h0
      have hik : k ≠ i := fun h => by simp [h] at h0
      simp only [List.getElem_set, if_neg hik]
      exact h.pending i _ (by omega)
    · intro i hi hx h1
      rw [hcount] at h1
      have hik : k ≠ i := fun h => by subst h; simp [hpk] at h1
      rw [if_neg hik, add_zero] at h1
      simp only [List.getElem_set, if_neg hik]
      exact h.once i (by simpa using hi) hx h1
    · intro i hi hx h2
      rw [hcount] at h2
      by_cases hik : k = i
      · subst hik; simp
      · rw [if_neg hik, add_zero] at h2
        simp only [List.getElem_set, if_neg hik]
        exact h.twice i (by simpa using hi) hx h2
  | done res =>
    have hstep : featStep E zero owner xs σ k = σ := by
      simp only [featStep, hx?, ht?, ho?, hst]
    have hpk : 1 ≤ pre.count k := by
      by_contra h0
      have := h.pending k hkt (by omega)
      rw [hst] at this; exact absurd this (by simp)
    have hdone : σ.tasks[k] = .done (featureEstimation zero feat xs[k]) := by
      rcases Nat.lt_or_ge (pre.count k) 2 with h2 | h2
      · rcases h.once k hkt hk (by omega) with h' | h'
        · rw [hst] at h'; exact absurd h'.1 (by simp)
        · exact h'
      · exact h.twice k hkt hk h2
    rw [hstep]
    refine ⟨h.nobjs, h.ntasks, h.par, ?_, ?_, ?_⟩
    · intro i hi h0
      rw [hcount] at h0
      exact h.pending i hi (by omega)
    · intro i hi hx h1
      rw [hcount] at h1
      by_cases hik : k = i
      · subst hik; right; exact hdone
      · rw [if_neg hik, add_zero] at h1
        exact h.once i hi hx h1
    · intro i hi hx h2
      rw [hcount] at h2
      by_cases hik : k = i
      · subst hik; exact hdone
      · rw [if_neg hik, add_zero] at h2
        exact h.twice i hi hx h2

theorem FeatInv.run {E : FeatObj S X K} {zero : K} {owner : ℕ → ℕ} {xs : List X} {par : S → P}
    {c : P} {feat : X → Py (List (NArr K))} {m : ℕ}
    (hkeep : ∀ s x, par (E.fit s x).1 = par s)
    (hfeat : ∀ s x, par s = c → x ∈ xs → trialFeature E s x = feat x)
    (how : ∀ i < xs.length, owner i < m) (rest : List ℕ) :
    ∀ (pre : List ℕ) (σ : FeatState S K), Exclusive owner (pre ++ rest) →
      FeatInv E zero owner xs par c feat m pre σ →
      FeatInv E zero owner xs par c feat m (pre ++ rest) (featRun E zero owner xs σ rest) := by
  induction rest with
  | nil => intro pre σ _ h; simpa [featRun] using h
  | cons k rest ih =>
    intro pre σ hexc h
    have h1 := h.step hkeep hfeat how hexc
    have h2 := ih (pre ++ [k]) _ (by simpa using hexc) h1
    simpa [featRun] using h2

theorem featGather_done {zero : K} {feat : X → Py (List (NArr K))} :
    ∀ (xs : List X) (ts : List (FeatTask K)),
      ts = xs.map (fun x => FeatTask.done (featureEstimation zero feat x)) →
      featGather ts = some (xs.mapM (featureEstimation zero feat)) := by
  intro xs
  induction xs with
  | nil => rintro ts rfl; rfl
  | cons x xs ih =>
    rintro ts rfl
    rw [List.map_cons, List.mapM_cons]
    cases h : featureEstimation zero feat x with
    | error e => rfl
    | ok g =>
      simp only [featGather, ih _ rfl]
      cases xs.mapM (featureEstimation zero feat) <;> rfl

/-- Complete runs in which trials on the same object do not interleave. -/
theorem featRun_gather {E : FeatObj S X K} {zero : K} {owner : ℕ → ℕ} {xs : List X} {par : S → P}
    {c : P} {feat : X → Py (List (NArr K))}
    (hkeep : ∀ s x, par (E.fit s x).1 = par s)
    (hfeat : ∀ s x, par s = c → x ∈ xs → trialFeature E s x = feat x)
    (objs : List S) (hobjs : ∀ s ∈ objs, par s = c)
    (how : ∀ i < xs.length, owner i < objs.length) (sched : List ℕ) (hexc : Exclusive owner sched)
    (hcomp : ∀ i < xs.length, 2 ≤ sched.count i) :
    featGather (featRun E zero owner xs ⟨objs, List.replicate xs.length .pending⟩ sched).tasks =
      some (xs.mapM (featureEstimation zero feat)) := by
  have h0 : FeatInv E zero owner xs par c feat objs.length []
      ⟨objs, List.replicate xs.length .pending⟩ :=
    ⟨rfl, by simp, hobjs, fun i hi _ => by simp, fun i _ _ h => by simp at h,
      fun i _ _ h => by simp at h⟩
  have h1 := h0.run hkeep hfeat how sched [] _ (by simpa using hexc)
  rw [List.nil_append] at h1
  apply featGather_done
  apply List.ext_getElem
  · rw [h1.ntasks, List.length_map]
  · intro i hi hi'
    rw [List.length_map] at hi'
    rw [h1.twice i hi hi' (hcomp i hi'), List.getElem_map]

theorem seqFeatures_eq {E : FeatObj S X K} {zero : K} {par : S → P} {c : P}
    {feat : X → Py (List (NArr K))}
    (hkeep : ∀ s x, par (E.fit s x).1 = par s) (xs : List X) :
    ∀ s, par s = c → (∀ s x, par s = c → x ∈ xs → trialFeature E s x = feat x) →
      (seqFeatures E zero s xs).2 = xs.mapM (featureEstimation zero feat) := by
  induction xs with
  | nil => intro s _ _; rfl
  | cons x xs ih =>
    intro s hs hfeat
    have hf := hfeat s x hs (by simp)
    have hk := hkeep s x
    rw [List.mapM_cons, featureEstimation_eq, ← hf]
    unfold trialFeature
    simp only [seqFeatures]
    cases hfit : E.fit s x with
    | mk s' r =>
      rw [hfit] at hk
      cases r with
      | error e => rfl
      | ok u =>
        simp only
        cases ht : E.transform s' x with
        | error e => rfl
        | ok f =>
          simp only
          cases hw : wrapFeature zero f with
          | error e => rfl
          | ok g =>
            simp only
            have ih' := ih s' (hk.trans hs) fun s y hy hm => hfeat s y hy (by simp [hm])
            simp only [bind, Except.bind]
            rw [← ih']
            generalize seqFeatures E zero s' xs = y
            obtain ⟨y1, y2⟩ := y
            cases y2 <;> rfl

theorem featStep_user {E : FeatObj S X K} {zero : K} {batch : ℕ → ℕ} {xs : List X}
    (σ : FeatState S K) (i : ℕ) :
    (featStep E zero (fun i => batch i + 1) xs σ i).objs[0]? = σ.objs[0]? := by
  unfold featStep
  split
  · split
    · simp
    · simp
  · rfl
  · rfl

theorem featRun_user {E : FeatObj S X K} {zero : K} {batch : ℕ → ℕ} {xs : List X}
    (sched : List ℕ) : ∀ σ : FeatState S K,
    (featRun E zero (fun i => batch i + 1) xs σ sched).objs[0]? = σ.objs[0]? := by
  induction sched with
  | nil => intro σ; rfl
  | cons i sched ih =>
    intro σ
    rw [featRun, List.foldl_cons]
    exact (ih _).trans (featStep_user σ i)

end RS
