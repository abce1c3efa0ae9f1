import Verif.Spec.FitCall
import Verif.Lemmas.Estimators
import Mathlib.Tactic.Tauto

/- Helper lemmas about calls of `fit`. -/
set_option autoImplicit false

namespace RS

theorem PySig.bind_ok {f : PySig} {n : ℕ} {kw : List String} (h1 : n ≤ f.params.length)
    (h2 : kw.Nodup) (h3 : ∀ k ∈ kw, k ∉ f.params.take n) (h4 : f.varKw = true) :
    f.bind n kw = .ok (kw.filter fun k => k ∉ f.params) := by
  unfold PySig.bind
  rw [if_neg (by omega), if_neg (by simpa using h2),
    if_neg (by rintro ⟨k, hk, hk'⟩; exact h3 k hk hk'), if_neg (by simp [h4])]

theorem PySig.bind_dup {f : PySig} {n : ℕ} {kw : List String} (h : ¬ kw.Nodup) :
    f.bind n kw = .error .typeError := by
  unfold PySig.bind
  split_ifs <;> rfl

theorem PySig.bind_taken {f : PySig} {n : ℕ} {kw : List String} {k : String} (hk : k ∈ kw)
    (h : k ∈ f.params.take n) : f.bind n kw = .error .typeError := by
  unfold PySig.bind
  split_ifs with _ _ h3 <;> first | rfl | exact absurd ⟨k, hk, h⟩ h3

/-- The keyword arguments that reach the estimation. -/
theorem fitSig_bind {kw : List String} (h : PlainKw kw) :
    fitSig.bind 2 ("init" :: kw) = .ok (kw.filter fun k => k ≠ "y") := by
  rw [PySig.bind_ok (by decide) (List.nodup_cons.2 ⟨h.init, h.nodup⟩) ?_ rfl]
  · congr 1
    rw [List.filter_cons_of_neg (by decide)]
    refine List.filter_congr fun k hk => ?_
    have h1 : k ≠ "self" := fun e => h.self (e ▸ hk)
    have h2 : k ≠ "X" := fun e => h.X (e ▸ hk)
    have h3 : k ≠ "init" := fun e => h.init (e ▸ hk)
    simp [fitSig, h1, h2, h3]
  · intro k hk
    rcases List.mem_cons.1 hk with rfl | hk
    · decide
    · have h1 : k ≠ "self" := fun e => h.self (e ▸ hk)
      have h2 : k ≠ "X" := fun e => h.X (e ▸ hk)
      simp [fitSig, h1, h2]

theorem nodup_append_of {l kw : List String} (hl : l.Nodup) (hk : kw.Nodup)
    (h : ∀ k ∈ kw, k ∉ l) : (l ++ kw).Nodup :=
  List.nodup_append.2 ⟨hl, hk, fun _ ha b hb e => h b hb (e ▸ ha)⟩

/-- None of the refused names: the estimation is called. -/
theorem bindEstimation_ok {o : Est} {m : Method} (hm : HasMethod o m) {kw : List String}
    (h1 : kw.Nodup) (hX : "X" ∉ kw) (hi : "init" ∉ kw) (h : ∀ k ∈ kw, k ∉ refused o.cls m) :
    bindEstimation o kw = .ok () := by
  have ne : ∀ {k}, k ∈ kw → k ≠ "X" ∧ k ≠ "init" := fun hk =>
    ⟨fun e => hX (e ▸ hk), fun e => hi (e ▸ hk)⟩
  unfold bindEstimation
  cases hc : o.cls with
  | huber =>
    rw [hc] at h
    rw [PySig.bind_ok (by decide) ?_ ?_ rfl]
    · rfl
    · refine nodup_append_of (by decide) h1 fun k hk => ?_
      have := h k hk
      simp [refused] at this
      simp [this, (ne hk).2]
    · intro k hk
      rcases List.mem_append.1 hk with hk | hk
      · exact (by decide : ∀ k ∈ ["init", "tol", "iter_max", "verbosity"],
          k ∉ huberSig.params.take 2) k hk
      · have := h k hk
        simp [refused] at this
        simp [huberSig, this, (ne hk).1]
  | student => rfl
  | tyler =>
    obtain ⟨b, hb⟩ := hm.fn hc
    rw [hc] at h
    simp only [hb]
    have hcl : closureSig.bind 2 kw = .ok kw := by
      rw [PySig.bind_ok (by decide) h1 (fun k hk => by simp [closureSig, ne hk]) rfl]
      congr 1
      rw [List.filter_eq_self]
      intro k hk
      simp [closureSig, ne hk]
    cases m with
    | fixedPoint =>
      simp only [hcl, bind, Except.bind]
      rw [PySig.bind_ok (by decide) ?_ ?_ rfl]
      · rfl
      · refine nodup_append_of (by decide) h1 fun k hk => ?_
        have := h k hk
        simp [refused] at this
        simp [this, (ne hk).2]
      · intro k hk
        rcases List.mem_append.1 hk with hk | hk
        · exact (by decide : ∀ k ∈ ["init", "tol", "iter_max", "normalisation", "verbosity"],
            k ∉ tylerSig.params.take 1) k hk
        · simp [tylerSig, ne hk]
    | naturalGradient =>
      have hng : ∀ l : List String, l.Nodup → (∀ k ∈ l, k ∈ kw) →
          ngSig.bind 1 (["init", "normalisation", "verbosity"] ++ l) = .ok l := by
        intro l hl hs
        have hr : ∀ k ∈ l, k ≠ "X" ∧ k ≠ "init" ∧ k ≠ "normalisation" ∧ k ≠ "verbosity" := by
          intro k hk
          have := h k (hs k hk)
          simp [refused] at this
          exact ⟨(ne (hs k hk)).1, (ne (hs k hk)).2, this.1, this.2⟩
        rw [PySig.bind_ok (by decide) (nodup_append_of (by decide) hl fun k hk => by
          simp [hr k hk]) ?_ rfl]
        · congr 1
          rw [List.filter_append, List.filter_eq_nil_iff.2 (by decide), List.nil_append,
            List.filter_eq_self]
          intro k hk
          simp [ngSig, hr k hk]
        · intro k hk
          rcases List.mem_append.1 hk with hk | hk
          · exact (by decide : ∀ k ∈ ["init", "normalisation", "verbosity"],
              k ∉ ngSig.params.take 1) k hk
          · simp [ngSig, hr k hk]
      simp only [hcl, bind, Except.bind, hng kw h1 fun _ h => h]
      split_ifs <;> rfl

/-- A refused name: `TypeError`. -/
theorem bindEstimation_error {o : Est} {m : Method} (hm : HasMethod o m) {kw : List String}
    {k : String} (hk : k ∈ kw) (h : k ∈ refused o.cls m) :
    bindEstimation o kw = .error .typeError := by
  have dup : ∀ {l : List String}, k ∈ l → ¬ (l ++ kw).Nodup := fun hl hn =>
    (List.nodup_append.1 hn).2.2 k hl k hk rfl
  unfold bindEstimation
  cases hc : o.cls with
  | huber =>
    rw [hc] at h
    simp only [refused, List.mem_cons, List.not_mem_nil, or_false] at h
    rcases h with h | h
    · rw [PySig.bind_taken (k := k) (List.mem_append_right _ hk) (by simp [huberSig, h])]
      rfl
    · rw [PySig.bind_dup (dup (by simp only [List.mem_cons, List.not_mem_nil, or_false]; tauto))]
      rfl
  | student => rw [hc] at h; simp [refused] at h
  | tyler =>
    obtain ⟨b, hb⟩ := hm.fn hc
    rw [hc] at h
    simp only [hb]
    have hk' : k ≠ "X" ∧ k ≠ "init" := by
      cases m <;> simp only [refused, List.mem_cons, List.not_mem_nil, or_false] at h
      · rcases h with rfl | rfl | rfl | rfl <;> decide
      · rcases h with rfl | rfl <;> decide
    by_cases hn : kw.Nodup ∧ ∀ k ∈ kw, k ∉ closureSig.params.take 2
    · have hcl := PySig.bind_ok (f := closureSig) (n := 2) (by decide) hn.1 hn.2 rfl
      have hmem : k ∈ kw.filter fun k => k ∉ closureSig.params := by
        simp [closureSig, hk, hk']
      have dup' : ∀ {l : List String}, k ∈ l →
          ¬ (l ++ kw.filter fun k => k ∉ closureSig.params).Nodup := fun hl hn =>
        (List.nodup_append.1 hn).2.2 k hl k hmem rfl
      cases m with
      | fixedPoint =>
        simp only [hcl, bind, Except.bind]
        rw [PySig.bind_dup (dup' (by
          simp only [refused, List.mem_cons, List.not_mem_nil, or_false] at h ⊢; tauto))]
      | naturalGradient =>
        simp only [hcl, bind, Except.bind]
        rw [PySig.bind_dup (dup' (by
          simp only [refused, List.mem_cons, List.not_mem_nil, or_false] at h ⊢; tauto))]
    · have hcl : closureSig.bind 2 kw = .error .typeError := by
        by_cases h1 : kw.Nodup
        · have : ∃ k ∈ kw, k ∈ closureSig.params.take 2 := by
            by_contra hcon
            exact hn ⟨h1, fun k hk hk' => hcon ⟨k, hk, hk'⟩⟩
          obtain ⟨k', h2, h3⟩ := this
          exact PySig.bind_taken h2 h3
        · exact PySig.bind_dup h1
      cases m <;> simp only [hcl, bind, Except.bind]

/-- A call that reaches the estimation. -/
theorem fitCall_eq (L : Lib) (s : CallStore) (a : ℕ) (X : NDArr) (init : Option NDArr)
    {kw kwargs : List String} (hkw : fitSig.bind 2 ("init" :: kw) = .ok kwargs) {o : Est} {k n : ℕ}
    (ho : s.heap[a]? = some o) (hk : o.iteration = some k)
    (hn : checkedColumns o.complex X = .ok n) :
    fitCall L s a X init kw = match bindEstimation o kwargs with
      | .error e => (⟨s.heap, fun b => if b = a then some n else s.nFeatures b⟩, .error e)
      | .ok () => (⟨(fit L s.heap a X init).1, fun b => if b = a then some n else s.nFeatures b⟩,
          (fit L s.heap a X init).2) := by
  unfold fitCall
  simp only [hkw, ho, hk, hn]
  cases bindEstimation o kwargs <;> rfl

/-- A successful fit of a real estimator: the data are a real matrix, the covariance is square with
as many rows as the data have columns. -/
theorem fitReal_shape {L : Lib} {cls : Cls} {m : Method} {A : Attrs} {X : NDArr}
    {init : Option NDArr} {r : FitRes} (h : fitReal L cls m A X init = .ok r) :
    ∃ N p Z C, X = .real (.d2 N p Z) ∧ checkArray X = .ok X ∧ r.covariance = .real (.d2 p p C) := by
  have hset : ∀ {p : ℕ} {S : FMat p ℝ} {C : NDArr}, setCovReal S = .ok C →
      ∃ C', C = .real (.d2 p p C') := by
    intro p S C hC
    cases S with
    | nan => cases hC
    | fin M =>
      simp only [setCovReal, checkArray] at hC
      split_ifs at hC
      exact ⟨M, (Except.ok.inj hC).symm⟩
  unfold fitReal at h
  cases h1 : checkArray X with
  | error e => simp [h1, bind, Except.bind] at h
  | ok y =>
    have hy : y = X := by
      unfold checkArray at h1
      split at h1
      · split_ifs at h1
        exact (Except.ok.inj h1).symm
      · cases h1
    subst hy
    simp only [h1, bind, Except.bind] at h
    match y, h with
    | .real (.d2 N p Z), h =>
      simp only at h
      cases h2 : initReal p init with
      | error e => simp [h2] at h
      | ok i =>
        simp only [h2] at h
        have fin : ∀ {S : FMat p ℝ} {e : Err} {k : Option ℕ},
            (do let C ← setCovReal S; return (⟨C, e, k⟩ : FitRes)) = .ok r →
            ∃ C', r.covariance = .real (.d2 p p C') := by
          intro S e k hS
          cases h4 : setCovReal S with
          | error e => simp [h4, bind, Except.bind] at hS
          | ok C =>
            obtain ⟨C', rfl⟩ := hset h4
            simp only [h4, bind, Except.bind, pure, Except.pure] at hS
            cases hS
            exact ⟨C', rfl⟩
        have : ∃ C', r.covariance = .real (.d2 p p C') := by
          cases cls <;> cases m <;> simp only at h
          · cases h3 : huberFixedPoint (L.envR N p) L.chi2 Z A.q i A.tol A.iterMax with
            | error e => simp [h3] at h
            | ok r' => simp only [h3] at h; exact fin h
          · cases h3 : huberFixedPoint (L.envR N p) L.chi2 Z A.q i A.tol A.iterMax with
            | error e => simp [h3] at h
            | ok r' => simp only [h3] at h; exact fin h
          · cases h3 : studentFixedPoint (L.envR N p) Z A.df i A.tol A.iterMax with
            | error e => simp [h3] at h
            | ok r' => simp only [h3] at h; exact fin h
          · cases h3 : studentFixedPoint (L.envR N p) Z A.df i A.tol A.iterMax with
            | error e => simp [h3] at h
            | ok r' => simp only [h3] at h; exact fin h
          · cases h3 : tylerFixedPoint (L.envR N p) Z i A.tol A.iterMax A.normalisation with
            | error e => simp [h3] at h
            | ok r' => simp only [h3] at h; exact fin h
          · cases h3 : ngReal L Z i A.normalisation with
            | error e => simp [h3] at h
            | ok r' => simp only [h3] at h; exact fin h
        obtain ⟨C', hC'⟩ := this
        exact ⟨N, p, Z, C', rfl, rfl, hC'⟩

/-- The same for a complex estimator on complex data. -/
theorem fitComplex_shape {L : Lib} {cls : Cls} {m : Method} {A : Attrs} {N p : ℕ}
    {Z : Matrix (Fin N) (Fin p) ℂ} {init : Option NDArr} {r : FitRes}
    (h : fitComplex L cls m A (.cplx (.d2 N p Z)) init = .ok r) :
    0 < N ∧ 0 < p ∧ ∃ C, r.covariance = .cplx (.d2 p p C) := by
  have hset : ∀ {p : ℕ} (_ : 0 < p) {S : FMat p ℂ} {C : NDArr}, setCovComplex S = .ok C →
      ∃ C', C = .cplx (.d2 p p C') := by
    intro p hp S C hC
    cases S with
    | nan => cases hC
    | fin M =>
      rw [setCovComplex_fin hp] at hC
      exact ⟨M, (Except.ok.inj hC).symm⟩
  unfold fitComplex at h
  have hpos : 0 < N ∧ 0 < p := by
    by_contra hcon
    have : validateData (.cplx (.d2 N p Z)) = .error .valueError := by
      have h0 : N = 0 ∨ p = 0 := by omega
      unfold validateData
      simp only [arraytoreal, bind, Except.bind, checkArray]
      rw [if_pos (by omega)]
    simp [this, bind, Except.bind] at h
  obtain ⟨hN, hp⟩ := hpos
  refine ⟨hN, hp, ?_⟩
  simp only [arraytoreal_check_complex N p hN hp, bind, Except.bind] at h
  have fin : ∀ {S : FMat p ℂ} {e : Err} {k : Option ℕ},
      (do let C ← setCovComplex S; return (⟨C, e, k⟩ : FitRes)) = .ok r →
      ∃ C', r.covariance = .cplx (.d2 p p C') := by
    intro S e k hS
    cases h4 : setCovComplex S with
    | error e => simp [h4, bind, Except.bind] at hS
    | ok C =>
      obtain ⟨C', rfl⟩ := hset hp h4
      simp only [h4, bind, Except.bind, pure, Except.pure] at hS
      cases hS
      exact ⟨C', rfl⟩
  cases cls <;> cases m <;> simp only at h
  · cases h2 : initComplex p init with
    | error e => simp [h2] at h
    | ok i =>
      simp only [h2] at h
      cases h3 : complexHuberFixedPoint (L.envC N p) L.chi2 Z A.q i A.tol A.iterMax with
      | error e => simp [h3] at h
      | ok r' => simp only [h3] at h; exact fin h
  · cases h2 : initComplex p init with
    | error e => simp [h2] at h
    | ok i =>
      simp only [h2] at h
      cases h3 : complexHuberFixedPoint (L.envC N p) L.chi2 Z A.q i A.tol A.iterMax with
      | error e => simp [h3] at h
      | ok r' => simp only [h3] at h; exact fin h
  · cases h2 : initComplex p init with
    | error e => simp [h2] at h
    | ok i =>
      simp only [h2] at h
      cases h3 : complexStudentFixedPoint (L.envC N p) Z A.df i A.tol A.iterMax with
      | error e => simp [h3] at h
      | ok r' => simp only [h3] at h; exact fin h
  · cases h2 : initComplex p init with
    | error e => simp [h2] at h
    | ok i =>
      simp only [h2] at h
      cases h3 : complexStudentFixedPoint (L.envC N p) Z A.df i A.tol A.iterMax with
      | error e => simp [h3] at h
      | ok r' => simp only [h3] at h; exact fin h
  · cases h2 : initComplex p init with
    | error e => simp [h2] at h
    | ok i =>
      simp only [h2] at h
      cases h3 : complexTylerFixedPoint (L.envC N p) Z i A.tol A.iterMax A.normalisation with
      | error e => simp [h3] at h
      | ok r' => simp only [h3] at h; exact fin h
  · cases h2 : initReal (p + p) init with
    | error e => simp [h2] at h
    | ok i =>
      simp only [h2] at h
      cases h3 : ngComplex L Z i A.normalisation with
      | error e => simp [h3] at h
      | ok r' => simp only [h3] at h; exact fin h

/-- The object with the results of a fit. -/
def Est.fitted (o : Est) (r : FitRes) : Est :=
  { o with covariance := some r.covariance, err := r.err, iteration := r.iteration }

/-- `fit` either raises and leaves the heap alone, or stores a computed result. -/
theorem fit_outcome (L : Lib) (h : Heap) (a : ℕ) (X : NDArr) (init : Option NDArr) :
    (∃ e, fit L h a X init = (h, .error e)) ∨
    ∃ o m A r, h[a]? = some o ∧ fitRes L o.complex o.cls m A X init = .ok r ∧
      fit L h a X init = (h.set a (o.fitted r), .ok ()) := by
  cases ho : h[a]? with
  | none => exact .inl ⟨.nameError, by unfold fit; rw [ho]⟩
  | some o =>
    cases hk : o.iteration with
    | none => exact .inl ⟨_, fit_none ho hk X init⟩
    | some k =>
      have key : ∀ m A, fit L h a X init = store h a o (fitRes L o.complex o.cls m A X init) →
          (∃ e, fit L h a X init = (h, .error e)) ∨
          ∃ o' m A r, some o = some o' ∧ fitRes L o'.complex o'.cls m A X init = .ok r ∧
            fit L h a X init = (h.set a (o'.fitted r), .ok ()) := by
        intro m A hf
        cases hr : fitRes L o.complex o.cls m A X init with
        | error e => exact .inl ⟨e, by rw [hf, hr]; rfl⟩
        | ok r => exact .inr ⟨o, m, A, r, rfl, hr, by rw [hf, hr]; rfl⟩
      by_cases hc : o.cls = .tyler
      · cases hfn : o.fn with
        | none => exact .inl ⟨.attributeError, by unfold fit; simp only [ho, hk, hc, hfn]⟩
        | some fn =>
          obtain ⟨m, self⟩ := fn
          cases hs : h[self]? with
          | none => exact .inl ⟨.nameError, by unfold fit; simp only [ho, hk, hc, hfn, hs]⟩
          | some s =>
            refine key m s.attrs ?_
            rw [fit_tyler ho hk hc hfn hs, hc]
      · exact key _ _ (fit_other ho hk hc X init)

/-- A successful call. -/
theorem fitCall_ok {L : Lib} {s : CallStore} {a : ℕ} {X : NDArr} {init : Option NDArr}
    {kw : List String} (h : (fitCall L s a X init kw).2 = .ok ()) :
    ∃ o n m A r, s.heap[a]? = some o ∧ checkedColumns o.complex X = .ok n ∧
      fitRes L o.complex o.cls m A X init = .ok r ∧
      (fitCall L s a X init kw).1 = ⟨s.heap.set a (o.fitted r), fun b => if b = a then some n else s.nFeatures b⟩ := by
  unfold fitCall at h ⊢
  cases hb : fitSig.bind 2 ("init" :: kw) with
  | error e => simp [hb] at h
  | ok kwargs =>
    simp only [hb] at h ⊢
    cases ho : s.heap[a]? with
    | none => simp [ho] at h
    | some o =>
      simp only [ho] at h ⊢
      cases hk : o.iteration with
      | none => simp [hk] at h
      | some k =>
        simp only [hk] at h ⊢
        cases hn : checkedColumns o.complex X with
        | error e => simp [hn] at h
        | ok n =>
          simp only [hn] at h ⊢
          cases he : bindEstimation o kwargs with
          | error e => simp [he] at h
          | ok u =>
            simp only [he] at h ⊢
            rcases fit_outcome L s.heap a X init with ⟨e, hf⟩ | ⟨o', m, A, r, ho', hr, hf⟩
            · rw [hf] at h; cases h
            · obtain rfl := Option.some.inj (ho.symm.trans ho')
              exact ⟨o, n, m, A, r, rfl, hn, hr, by rw [hf]⟩

/-- A failed call. -/
theorem fitCall_error {L : Lib} {s : CallStore} {a : ℕ} {X : NDArr} {init : Option NDArr}
    {kw : List String} {e : PyErr} (h : (fitCall L s a X init kw).2 = .error e) :
    (fitCall L s a X init kw).1 = s ∨ ∃ o n, s.heap[a]? = some o ∧
      checkedColumns o.complex X = .ok n ∧
      (fitCall L s a X init kw).1 = ⟨s.heap, fun b => if b = a then some n else s.nFeatures b⟩ := by
  unfold fitCall at h ⊢
  cases hb : fitSig.bind 2 ("init" :: kw) with
  | error e => exact .inl rfl
  | ok kwargs =>
    simp only [hb] at h ⊢
    cases ho : s.heap[a]? with
    | none => exact .inl rfl
    | some o =>
      simp only [ho] at h ⊢
      cases hk : o.iteration with
      | none => exact .inl rfl
      | some k =>
        simp only [hk] at h ⊢
        cases hn : checkedColumns o.complex X with
        | error e => exact .inl rfl
        | ok n =>
          simp only [hn] at h ⊢
          cases he : bindEstimation o kwargs with
          | error e => exact .inr ⟨o, n, rfl, hn, rfl⟩
          | ok u =>
            simp only [he] at h ⊢
            rcases fit_outcome L s.heap a X init with ⟨e, hf⟩ | ⟨o', m, A, r, ho', hr, hf⟩
            · exact .inr ⟨o, n, rfl, hn, by rw [hf]⟩
            · rw [hf] at h; cases h

end RS
