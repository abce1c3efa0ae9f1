import Verif.Model.Pipeline
import Verif.Lemmas.Estimators

/- Lemmas about `CovariancesEstimation` on estimator objects. -/
set_option autoImplicit false

namespace RS
open Matrix

/-- What one delayed call gives for the object `o`. -/
noncomputable def callResult (L : Lib) (o : Est) (c : Bool) (cls : Cls) (m : Method) (A : Attrs)
    (init : Option NDArr) (x : NDArr) : Py NDArr :=
  match o.iteration with
  | none => .error .typeError
  | some _ => match fitRes L c cls m A x init with
    | .error e => .error e
    | .ok r => .ok r.covariance

theorem append_get {h cs : Heap} {a : ℕ} {o : Est} (ho : h[a]? = some o) :
    (h ++ cs)[a]? = some o := by
  rw [List.getElem?_append_left (List.getElem?_eq_some_iff.1 ho).1, ho]

theorem readCov_store {w : Heap} {r : ℕ} {o : Est} (hr : w[r]? = some o) (R : FitRes) :
    readCov (store w r o (.ok R)).1 r = .ok R.covariance := by
  simp only [store, readCov, get_set_self hr]

/-- The call on a copy. -/
theorem copy_fit {L : Lib} {h cs : Heap} {a r : ℕ} {c : Bool} {cls : Cls} {m : Method} {A : Attrs}
    {o : Est} (ho : Own h a c cls m A o) (hm : cls ≠ .tyler → m = .fixedPoint)
    (hr : (h ++ cs)[r]? = some o) (x : NDArr) (init : Option NDArr) :
    (∃ o', (fit L (h ++ cs) r x init).1 = (h ++ cs).set r o') ∧
    (match fit L (h ++ cs) r x init with
      | (h', .ok ()) => readCov h' r
      | (_, .error e) => .error e) = callResult L o c cls m A init x := by
  unfold callResult
  have hset : (h ++ cs).set r o = h ++ cs := by
    obtain ⟨h1, h2⟩ := List.getElem?_eq_some_iff.1 hr
    rw [← h2, List.set_getElem_self]
  cases hk : o.iteration with
  | none =>
    rw [fit_none hr hk]
    exact ⟨⟨o, hset.symm⟩, rfl⟩
  | some k =>
    have key : fit L (h ++ cs) r x init = store (h ++ cs) r o (fitRes L c cls m A x init) := by
      by_cases hc : cls = .tyler
      · rw [fit_tyler hr hk (ho.cls_eq.trans hc) (ho.fn hc) (append_get ho.get), ho.cplx,
          ho.attrs_eq, hc]
      · rw [fit_other hr hk (by rwa [ho.cls_eq]), ho.cplx, ho.attrs_eq, ho.cls_eq, hm hc]
    rw [key]
    cases hf : fitRes L c cls m A x init with
    | error e => exact ⟨⟨o, hset.symm⟩, rfl⟩
    | ok R => exact ⟨⟨_, rfl⟩, readCov_store hr R⟩

def PipeTask.rank : PipeTask → ℕ
  | .pending => 0
  | .copied _ => 1
  | .done _ => 2

/-- Invariant of a parallel run. -/
structure PipeInv (f : NDArr → Py NDArr) (h : Heap) (o : Est) (owner : ℕ → ℕ) (xs : List NDArr)
    (σ : PipeState) : Prop where
  user : ∃ cs, σ.worlds[0]? = some (h ++ cs)
  exact : (∀ i, owner i ≠ 0) → σ.worlds[0]? = some h
  world : ∀ i < xs.length, ∃ cs, σ.worlds[owner i]? = some (h ++ cs)
  len : σ.tasks.length = xs.length
  copied : ∀ i r : ℕ, σ.tasks[i]? = some (.copied r) → h.length ≤ r ∧
    ∃ w, σ.worlds[owner i]? = some w ∧ w[r]? = some o
  inj : ∀ i j r : ℕ, σ.tasks[i]? = some (.copied r) → σ.tasks[j]? = some (.copied r) →
    owner i = owner j → i = j
  done : ∀ (i : ℕ) x res, σ.tasks[i]? = some (.done res) → xs[i]? = some x → res = f x

theorem set_append_of_le {h cs : Heap} {r : ℕ} (hr : h.length ≤ r) (o' : Est) :
    (h ++ cs).set r o' = h ++ cs.set (r - h.length) o' := by
  rw [List.set_append, if_neg (by omega)]

theorem PipeInv.step {L : Lib} {h : Heap} {a : ℕ} {c : Bool} {cls : Cls} {m : Method} {A : Attrs}
    {o : Est} (ho : Own h a c cls m A o) (hm : cls ≠ .tyler → m = .fixedPoint) {init : Option NDArr}
    {owner : ℕ → ℕ} {xs : List NDArr} {σ : PipeState}
    (I : PipeInv (callResult L o c cls m A init) h o owner xs σ) (i : ℕ) :
    PipeInv (callResult L o c cls m A init) h o owner xs (pipeStep L a init owner xs σ i) ∧
    ∀ j < xs.length, (((pipeStep L a init owner xs σ i).tasks[j]?).map PipeTask.rank).getD 0 =
      min 2 (((σ.tasks[j]?).map PipeTask.rank).getD 0 + if j = i then 1 else 0) := by
  have hr2 : ∀ j : ℕ, ((σ.tasks[j]?).map PipeTask.rank).getD 0 ≤ 2 := by
    intro j; cases h' : σ.tasks[j]? with
    | none => simp
    | some t => cases t <;> simp [PipeTask.rank]
  have hlen := I.len
  have same : PipeInv (callResult L o c cls m A init) h o owner xs σ ∧
      (i < xs.length → ∃ res, σ.tasks[i]? = some (.done res)) →
      PipeInv (callResult L o c cls m A init) h o owner xs σ ∧
      ∀ j < xs.length, ((σ.tasks[j]?).map PipeTask.rank).getD 0 =
        min 2 (((σ.tasks[j]?).map PipeTask.rank).getD 0 + if j = i then 1 else 0) := by
    rintro ⟨I', hd⟩
    refine ⟨I', fun j hj => ?_⟩
    by_cases e : j = i
    · subst e
      obtain ⟨res, hres⟩ := hd hj
      rw [hres, if_pos rfl]; rfl
    · rw [if_neg e]; have := hr2 j; omega
  -- replacing the memory of the process by another one that begins with `h`
  have upd : ∀ (hi : i < xs.length) (cs cs' : Heap) (t : PipeTask),
      σ.worlds[owner i]? = some (h ++ cs) → t.rank = ((σ.tasks[i]?).map PipeTask.rank).getD 0 + 1 →
      (∀ (j r : ℕ), j ≠ i → owner j = owner i → σ.tasks[j]? = some (.copied r) →
        (h ++ cs)[r]? = some o → (h ++ cs')[r]? = some o) →
      (∀ r, t = .copied r → h.length ≤ r ∧ (h ++ cs')[r]? = some o ∧
        ∀ j, σ.tasks[j]? = some (.copied r) → owner j = owner i → False) →
      (∀ x res, t = .done res → xs[i]? = some x → res = callResult L o c cls m A init x) →
      PipeInv (callResult L o c cls m A init) h o owner xs
        ⟨σ.worlds.set (owner i) (h ++ cs'), σ.tasks.set i t⟩ ∧
      ∀ j < xs.length, (((σ.tasks.set i t)[j]?).map PipeTask.rank).getD 0 =
        min 2 (((σ.tasks[j]?).map PipeTask.rank).getD 0 + if j = i then 1 else 0) := by
    intro hi cs cs' t hw ht hkeep hcop hdone
    have hlt : owner i < σ.worlds.length := (List.getElem?_eq_some_iff.1 hw).1
    have hit : i < σ.tasks.length := by omega
    refine ⟨⟨?_, ?_, ?_, by simp [hlen], ?_, ?_, ?_⟩, ?_⟩
    · simp only [List.getElem?_set]
      split_ifs with e1
      · exact ⟨cs', rfl⟩
      · exact I.user
    · intro hne
      simp only [List.getElem?_set, if_neg (hne i)]
      exact I.exact hne
    · intro j hj
      simp only [List.getElem?_set]
      split_ifs with e1
      · exact ⟨cs', rfl⟩
      · exact I.world j hj
    · intro j r hj
      simp only [List.getElem?_set] at hj ⊢
      by_cases e1 : i = j
      · subst e1
        rw [if_pos rfl, if_pos hit] at hj
        obtain ⟨c1, c2, -⟩ := hcop r (Option.some.inj hj)
        rw [if_pos rfl, if_pos hlt]
        exact ⟨c1, _, rfl, c2⟩
      · rw [if_neg e1] at hj
        obtain ⟨c1, w, c2, c3⟩ := I.copied j r hj
        refine ⟨c1, ?_⟩
        by_cases e2 : owner i = owner j
        · rw [if_pos e2, if_pos hlt]
          rw [← e2, hw] at c2
          obtain rfl := Option.some.inj c2
          exact ⟨_, rfl, hkeep j r (fun h => e1 h.symm) e2.symm hj c3⟩
        · rw [if_neg e2]
          exact ⟨w, c2, c3⟩
    · intro j k r hj hk howner
      simp only [List.getElem?_set] at hj hk
      by_cases e1 : i = j
      · by_cases e2 : i = k
        · exact e1.symm.trans e2
        · rw [if_pos e1, if_pos hit] at hj
          rw [if_neg e2] at hk
          exact ((hcop r (Option.some.inj hj)).2.2 k hk (by rw [← howner, e1])).elim
      · by_cases e2 : i = k
        · rw [if_pos e2, if_pos hit] at hk
          rw [if_neg e1] at hj
          exact ((hcop r (Option.some.inj hk)).2.2 j hj (by rw [howner, e2])).elim
        · rw [if_neg e1] at hj
          rw [if_neg e2] at hk
          exact I.inj j k r hj hk howner
    · intro j x res hj hx
      simp only [List.getElem?_set] at hj
      by_cases e1 : i = j
      · subst e1
        rw [if_pos rfl, if_pos hit] at hj
        exact hdone x res (Option.some.inj hj) hx
      · rw [if_neg e1] at hj
        exact I.done j x res hj hx
    · intro j hj
      rw [List.getElem?_set]
      by_cases e1 : i = j
      · subst e1
        rw [if_pos rfl, if_pos rfl, if_pos hit, Option.map_some, Option.getD_some]
        have : t.rank ≤ 2 := by cases t <;> simp [PipeTask.rank]
        omega
      · rw [if_neg e1, if_neg (Ne.symm e1)]
        have := hr2 j
        omega
  by_cases hi : i < xs.length
  · have hx : xs[i]? = some xs[i] := List.getElem?_eq_getElem hi
    have hit : i < σ.tasks.length := by omega
    have ht : σ.tasks[i]? = some σ.tasks[i] := List.getElem?_eq_getElem hit
    obtain ⟨cs, hw⟩ := I.world i hi
    have hbound : ∀ (j r : ℕ), σ.tasks[j]? = some (.copied r) → owner j = owner i →
        r < (h ++ cs).length := by
      intro j r hj hown
      obtain ⟨-, w, c2, c3⟩ := I.copied j r hj
      rw [hown, hw] at c2
      obtain rfl := Option.some.inj c2
      exact (List.getElem?_eq_some_iff.1 c3).1
    unfold pipeStep
    rw [hx, ht, hw]
    cases hc : σ.tasks[i] with
    | pending =>
      rw [hc] at ht
      simp only [deepcopy, append_get ho.get]
      rw [List.append_assoc]
      refine upd hi cs (cs ++ [o]) _ hw (by rw [ht]; rfl) ?_ ?_ ?_
      · intro j r _ hown hj h1
        rw [← List.append_assoc, List.getElem?_append_left (hbound j r hj hown), h1]
      · intro r hr
        cases hr
        refine ⟨by simp, by rw [← List.append_assoc]; exact get_append_length _ _, ?_⟩
        intro j hj hown
        exact absurd (hbound j _ hj hown) (lt_irrefl _)
      · intro x res hres
        cases hres
    | copied r =>
      rw [hc] at ht
      obtain ⟨c1, w, c2, c3⟩ := I.copied i r ht
      rw [hw] at c2
      obtain rfl := Option.some.inj c2
      obtain ⟨⟨o', h1⟩, h2⟩ := copy_fit (L := L) ho hm c3 xs[i] init
      rw [set_append_of_le c1] at h1
      have key : ∀ res, res = callResult L o c cls m A init xs[i] →
          PipeInv (callResult L o c cls m A init) h o owner xs
            ⟨σ.worlds.set (owner i) (h ++ cs.set (r - h.length) o'), σ.tasks.set i (.done res)⟩ ∧
          ∀ j < xs.length, (((σ.tasks.set i (.done res))[j]?).map PipeTask.rank).getD 0 =
            min 2 (((σ.tasks[j]?).map PipeTask.rank).getD 0 + if j = i then 1 else 0) := by
        intro res hres
        refine upd hi cs _ _ hw (by rw [ht]; rfl) ?_ ?_ ?_
        · intro j r' hji hown hj h1
          have hne : r ≠ r' := by
            rintro rfl
            exact hji (I.inj j i r hj ht hown)
          rw [← set_append_of_le c1, List.getElem?_set_ne hne, h1]
        · intro r' hr'
          cases hr'
        · intro x res' hr' hx'
          cases hr'
          rw [hx] at hx'
          obtain rfl := Option.some.inj hx'
          exact hres
      cases hy : fit L (h ++ cs) r xs[i] init with
      | mk y1 y2 =>
        rw [hy] at h1 h2
        simp only at h1
        subst h1
        cases y2 with
        | ok u => simp only [hy]; exact key _ h2
        | error e => simp only [hy]; exact key _ h2
    | done res =>
      rw [hc] at ht
      exact same ⟨I, fun _ => ⟨res, ht⟩⟩
  · have hx : xs[i]? = none := List.getElem?_eq_none (by omega)
    have ht : σ.tasks[i]? = none := List.getElem?_eq_none (by omega)
    unfold pipeStep
    rw [hx, ht]
    exact same ⟨I, fun h => absurd h hi⟩

theorem PipeInv.run {L : Lib} {h : Heap} {a : ℕ} {c : Bool} {cls : Cls} {m : Method} {A : Attrs}
    {o : Est} (ho : Own h a c cls m A o) (hm : cls ≠ .tyler → m = .fixedPoint) {init : Option NDArr}
    {owner : ℕ → ℕ} {xs : List NDArr} (sched : List ℕ) : ∀ {σ : PipeState}
    (_ : PipeInv (callResult L o c cls m A init) h o owner xs σ),
    PipeInv (callResult L o c cls m A init) h o owner xs (pipeRun L a init owner xs σ sched) ∧
    ∀ j < xs.length, (((pipeRun L a init owner xs σ sched).tasks[j]?).map PipeTask.rank).getD 0 =
      min 2 (((σ.tasks[j]?).map PipeTask.rank).getD 0 + sched.count j) := by
  have hr2 : ∀ (σ : PipeState) (j : ℕ), ((σ.tasks[j]?).map PipeTask.rank).getD 0 ≤ 2 := by
    intro σ j; cases h' : σ.tasks[j]? with
    | none => simp
    | some t => cases t <;> simp [PipeTask.rank]
  induction sched with
  | nil =>
    intro σ I
    refine ⟨I, fun j _ => ?_⟩
    have := hr2 σ j
    simp only [pipeRun, List.foldl_nil, List.count_nil]; omega
  | cons i sched ih =>
    intro σ I
    obtain ⟨h1, h2⟩ := I.step ho hm i
    obtain ⟨h3, h4⟩ := ih h1
    refine ⟨h3, fun j hj => ?_⟩
    have := h4 j hj
    simp only [pipeRun, List.foldl_cons] at this ⊢
    rw [this, h2 j hj, List.count_cons]
    by_cases e : j = i
    · subst e; simp; omega
    · have e' : ¬ (i = j) := fun h => e h.symm
      simp [e, e']; omega

theorem pipeGather_ok (f : NDArr → Py NDArr) (xs : List NDArr) :
    pipeGather (xs.map fun x => PipeTask.done (f x)) = some (xs.mapM f) := by
  induction xs with
  | nil => rfl
  | cons x xs ih =>
    rw [List.map_cons, List.mapM_cons]
    cases hw : f x with
    | error e => simp [pipeGather, bind, Except.bind]
    | ok c =>
      simp only [pipeGather, ih]
      cases hm : xs.mapM f <;> rfl

/-- After a complete schedule every call has its own result, and the user's object is untouched. -/
theorem pipeRun_gather {L : Lib} {h : Heap} {a : ℕ} {c : Bool} {cls : Cls} {m : Method} {A : Attrs}
    {o : Est} (ho : Own h a c cls m A o) (hm : cls ≠ .tyler → m = .fixedPoint) (init : Option NDArr)
    (owner : ℕ → ℕ) (xs : List NDArr) (worlds : List Heap) (hu : worlds[0]? = some h)
    (hw : ∀ i < xs.length, worlds[owner i]? = some h) (sched : List ℕ)
    (hs : ∀ i < xs.length, 2 ≤ sched.count i) :
    let σ := pipeRun L a init owner xs ⟨worlds, List.replicate xs.length .pending⟩ sched
    pipeGather σ.tasks = some (xs.mapM (callResult L o c cls m A init)) ∧
    (∃ cs, σ.worlds[0]? = some (h ++ cs)) ∧ ((∀ i, owner i ≠ 0) → σ.worlds[0]? = some h) := by
  have I0 : PipeInv (callResult L o c cls m A init) h o owner xs
      ⟨worlds, List.replicate xs.length .pending⟩ := by
    refine ⟨⟨[], by simpa using hu⟩, fun _ => hu, fun i hi => ⟨[], by simpa using hw i hi⟩, by simp,
      ?_, ?_, ?_⟩
    · intro i r h; simp only [List.getElem?_replicate] at h; split_ifs at h; cases h
    · intro i j r h; simp only [List.getElem?_replicate] at h; split_ifs at h; cases h
    · intro i x r h; simp only [List.getElem?_replicate] at h; split_ifs at h; cases h
  obtain ⟨I, hr⟩ := PipeInv.run ho hm (init := init) sched I0
  refine ⟨?_, I.user, I.exact⟩
  rw [← pipeGather_ok]
  congr 1
  apply List.ext_getElem?
  intro i
  by_cases hi : i < xs.length
  · have hx : xs[i]? = some xs[i] := List.getElem?_eq_getElem hi
    have hit : i < (pipeRun L a init owner xs ⟨worlds, List.replicate xs.length .pending⟩
        sched).tasks.length := by
      rw [I.len]; exact hi
    have hri := hr i hi
    have hc := hs i hi
    rw [List.getElem?_map, hx, Option.map_some]
    have ht := List.getElem?_eq_getElem hit
    generalize (pipeRun L a init owner xs ⟨worlds, List.replicate xs.length .pending⟩
      sched).tasks[i] = t at ht
    rw [ht] at hri ⊢
    simp only [Option.map_some, Option.getD_some] at hri
    cases t with
    | pending => simp only [PipeTask.rank] at hri; omega
    | copied r => simp only [PipeTask.rank] at hri; omega
    | done res => rw [I.done i _ res ht hx]
  · rw [List.getElem?_eq_none, List.getElem?_eq_none]
    · simpa using hi
    · rw [I.len]; omega

/-- The loop for `n_jobs == 1`. -/
theorem pipeSeq_eq {L : Lib} {a : ℕ} {c : Bool} {cls : Cls} {A : Attrs} (init : Option NDArr)
    (dt : XDType) (p : ℕ) (xs : List NDArr) : ∀ {h : Heap} {o : Est} {k : ℕ}
    (_ : Own h a c cls .fixedPoint A o) (_ : o.iteration = some k),
    (pipeSeq L a init dt p h xs).2 = xs.mapM (fun x => do
      let r ← fitRes L c cls .fixedPoint A x init
      assignNd dt p r.covariance) := by
  induction xs with
  | nil => intro h o k _ _; rfl
  | cons x xs ih =>
    intro h o k ho hk
    rw [List.mapM_cons]
    have hf := ho.fit (L := L) (fun _ => rfl) hk x init
    simp only [pipeSeq, hf]
    cases hr : fitRes L c cls .fixedPoint A x init with
    | error e => rfl
    | ok R =>
      obtain ⟨k', hk'⟩ := fitRes_iteration hr
      have hread := readCov_store ho.get R
      simp only [store] at hread ⊢
      simp only [hread]
      simp only [bind, Except.bind]
      cases ha : assignNd dt p R.covariance with
      | error e => rfl
      | ok M =>
        simp only
        have ho' : Own (h.set a { o with covariance := some R.covariance, err := R.err, iteration := R.iteration })
            a c cls .fixedPoint A
            { o with covariance := some R.covariance, err := R.err, iteration := R.iteration } :=
          ⟨get_set_self ho.get, ho.cplx, ho.cls_eq, ho.attrs_eq, ho.fn⟩
        have ih' := ih ho' hk'
        simp only [bind, Except.bind] at ih'
        rw [← ih']
        generalize pipeSeq L a init dt p _ xs = y
        obtain ⟨y1, y2⟩ := y
        cases y2 <;> rfl

end RS
