import Verif.Model.Params
import Mathlib.Tactic.Common

/-
`get_params`, `set_params` (C166) and `clone` (C167) of all estimator classes.
-/
set_option autoImplicit false

namespace RS

/-! ## Specification -/

/-- The parameters of the classes as documented, with their default values. -/
def documented : PCls → List (String × Option PyConst)
  | .empirical _ => [("store_precision", some (.bool true)), ("assume_centered", some (.bool false))]
  | .covScale => [("store_precision", some (.bool false)), ("assume_centered", some (.bool true))]
  | .huber _ => [("q", none), ("tol", some (.num (1 / 10000))), ("iter_max", some (.num 100)),
      ("verbosity", some (.bool false))]
  | .student _ => [("df", none), ("tol", some (.num (1 / 10000))), ("iter_max", some (.num 100)),
      ("verbosity", some (.bool false))]
  | .tyler _ => [("tol", some (.num (1 / 10000))), ("method", some (.str "fixed-point")),
      ("iter_max", some (.num 100)), ("normalisation", some (.str "None")),
      ("verbosity", some (.bool false))]
  | .kronMM => [("a", none), ("b", none), ("tol", some (.num (1 / 10000))),
      ("iter_max", some (.num 100)), ("store_precision", some (.bool true)),
      ("verbosity", some (.bool false))]
  | .kronStudent => [("a", none), ("b", none), ("df", none), ("store_precision", some (.bool true)),
      ("assume_centered", some (.bool true)), ("verbosity", some (.num 0))]
  | .features => [("estimator", none), ("n_jobs", some (.num 1))]
  | .covariances => [("estimator", none), ("n_jobs", some (.num 1))]
  | .online => [("manifold", none), ("rgrad", none), ("lrate", none), ("estimatetocov", some .none),
      ("cost", some .none), ("verbosity", some (.bool false))]

/-- `o` is of the class `cls`, and `get_params()` gives the value `f n` for every documented name `n`,
and nothing else. -/
def ParamsAre (strict : Bool) (cls : PCls) (o : PVal) (f : String → PVal) : Prop :=
  (∃ d, o = .obj cls d) ∧ getParams strict o = .ok ((documented cls).map fun e => (e.1, f e.1))

/-- The values with which a call `Class(**kw)` creates an object: the argument given, or the
documented default. -/
def createdWith (cls : PCls) (kw : PDict) (n : String) : PVal :=
  match kw.lookup n with
  | some v => v
  | none => match (documented cls).lookup n with
    | some (some c) => .const c
    | _ => .const .none

/-- The values after an operation: `set_params(n=v)` with a documented name and `obj.n = v` change the
value of `n`, a nested name changes the inner estimator, everything else changes nothing. -/
def valuesAfter (strict : Bool) (cls : PCls) (f : String → PVal) : ParamOp → String → PVal
  | .setParam (.plain n) v => fun m => if m = n ∧ n ∈ (documented cls).map Prod.fst then v else f m
  | .setParam (.nested n k) v => fun m =>
      if m = n ∧ n ∈ (documented cls).map Prod.fst then (setParam strict k v (f n)).1 else f m
  | .assign n v => fun m => if m = n then v else f m
  | .fit _ _ => f

/-- The object after a history. -/
def objectAfter (strict : Bool) (ops : List ParamOp) (o : PVal) : PVal :=
  ops.foldl (fun o op => op.run strict o) o

/-- The values after a history. -/
def paramsAfter (strict : Bool) (cls : PCls) (ops : List ParamOp) (f : String → PVal) : String → PVal :=
  ops.foldl (valuesAfter strict cls) f

/-! ## Attributes -/

theorem sig_documented (cls : PCls) : cls.sig.params = documented cls := by
  cases cls <;> rfl

theorem paramNames_documented (cls : PCls) : cls.paramNames = (documented cls).map Prod.fst := by
  rw [PCls.paramNames, sig_documented]

theorem lookup_set (d : PDict) (n m : String) (v : PVal) :
    (PDict.set d n v).lookup m = if m = n then some v else d.lookup m := by
  unfold PDict.set
  by_cases h : m = n
  · subst h; simp [List.lookup]
  · rw [if_neg h, List.lookup_cons]
    rw [show (m == n) = false from by simpa using h]
    simp only
    induction d with
    | nil => rfl
    | cons e d ih =>
      by_cases he : e.1 = n
      · have hm : (m == e.1) = false := by rw [he]; simpa using h
        rw [List.filter_cons_of_neg (by simpa using he), ih, List.lookup_cons, hm]
      · rw [List.filter_cons_of_pos (by simpa using he), List.lookup_cons, List.lookup_cons, ih]

/-- All parameters are stored under their names. -/
def Stored (cls : PCls) (d : PDict) (f : String → PVal) : Prop :=
  ∀ n ∈ (documented cls).map Prod.fst, d.lookup n = some (f n)

theorem mapM_params {α β : Type} {f : α → Py β} {g : α → β} {l : List α}
    (h : ∀ x ∈ l, f x = .ok (g x)) : l.mapM f = .ok (l.map g) := by
  induction l with
  | nil => rfl
  | cons x l ih =>
    rw [List.mapM_cons, h x (by simp), ih fun y hy => h y (by simp [hy])]
    rfl

theorem Stored.getParams {cls : PCls} {d : PDict} {f : String → PVal} (h : Stored cls d f)
    (strict : Bool) :
    RS.getParams strict (.obj cls d) = .ok ((documented cls).map fun e => (e.1, f e.1)) := by
  change cls.paramNames.mapM _ = _
  rw [mapM_params (g := fun n => (n, f n)) fun n hn => ?_, paramNames_documented, List.map_map]
  · rfl
  · rw [paramNames_documented] at hn
    simp only [getParam, h n hn]
    rfl

theorem body_stored {L : ParamLib} {cls : PCls} (hc : cls ≠ .online) {x : String → PVal} {d : PDict}
    (h : cls.body L x = .ok d) : Stored cls d x := by
  cases cls with
  | online => exact absurd rfl hc
  | tyler c =>
    simp only [PCls.body, bind, Except.bind] at h
    split at h
    · cases h
    · simp only [pure, Except.pure, Except.ok.injEq] at h
      subst h
      intro n hn
      simp only [documented, List.map_cons, List.map_nil, List.mem_cons, List.not_mem_nil, or_false]
        at hn
      rcases hn with rfl | rfl | rfl | rfl | rfl <;> rfl
  | kronStudent =>
    simp only [PCls.body, bind, Except.bind] at h
    split at h
    · cases h
    · split at h
      · cases h
      · simp only [pure, Except.pure, Except.ok.injEq] at h
        subst h
        intro n hn
        simp only [documented, List.map_cons, List.map_nil, List.mem_cons, List.not_mem_nil,
          or_false] at hn
        rcases hn with rfl | rfl | rfl | rfl | rfl | rfl <;> rfl
  | _ =>
    simp only [PCls.body, Except.ok.injEq] at h
    subst h
    intro n hn
    simp only [documented, List.map_cons, List.map_nil, List.mem_cons, List.not_mem_nil, or_false]
      at hn
    rcases hn with rfl | rfl | rfl | rfl | rfl | rfl <;> rfl

theorem value_created (cls : PCls) (kw : PDict) (n : String) :
    (cls.sig.value kw n).getD (.const .none) = createdWith cls kw n := by
  simp only [CtorSig.value, createdWith, sig_documented]
  cases kw.lookup n with
  | some v => rfl
  | none =>
    rcases (documented cls).lookup n with _ | _ | c <;> rfl

theorem create_stored {L : ParamLib} {cls : PCls} (hc : cls ≠ .online) {kw : PDict} {o : PVal}
    (h : cls.create L kw = .ok o) : ∃ d, o = .obj cls d ∧ Stored cls d (createdWith cls kw) := by
  simp only [PCls.create] at h
  split_ifs at h with h1 h2
  cases hb : cls.body L fun n => (cls.sig.value kw n).getD (.const .none) with
  | error e => rw [hb] at h; cases h
  | ok d =>
    rw [hb] at h
    simp only [bind, Except.bind, pure, Except.pure, Except.ok.injEq] at h
    refine ⟨d, h.symm, fun n hn => ?_⟩
    rw [body_stored hc hb n hn]
    congr 1
    exact value_created cls kw n

theorem Stored.set {cls : PCls} {d : PDict} {f : String → PVal} (h : Stored cls d f) (n : String)
    (v : PVal) : Stored cls (PDict.set d n v) fun m => if m = n then v else f m := by
  intro m hm
  rw [lookup_set]
  by_cases e : m = n
  · simp [e]
  · simpa [e] using h m hm

theorem lookup_documented {f : String → PVal} {l : List (String × Option PyConst)} (n : String) :
    (l.map fun e => (e.1, f e.1)).lookup n = if n ∈ l.map Prod.fst then some (f n) else none := by
  induction l with
  | nil => rfl
  | cons e l ih =>
    rw [List.map_cons, List.lookup_cons, ih]
    by_cases h : n = e.1
    · subst h; simp
    · rw [show (n == e.1) = false from by simpa using h]
      by_cases h' : n ∈ l.map Prod.fst
      · rw [if_pos h', if_pos (by rw [List.map_cons]; exact List.mem_cons_of_mem _ h')]
      · rw [if_neg h', if_neg]
        rw [List.map_cons, List.mem_cons]
        rintro (h1 | h1)
        · exact h h1
        · exact h' h1

theorem Stored.setParam {cls : PCls} {d : PDict} {f : String → PVal} (h : Stored cls d f)
    (strict : Bool) (k : PKey) (v : PVal) :
    RS.setParam strict k v (.obj cls d) =
      if k.head ∈ (documented cls).map Prod.fst then
        match k with
        | .plain n => (.obj cls (PDict.set d n v), .ok ())
        | .nested n k' => (.obj cls (PDict.set d n (RS.setParam strict k' v (f n)).1),
            (RS.setParam strict k' v (f n)).2)
      else (.obj cls d, .error .valueError) := by
  by_cases hn : k.head ∈ (documented cls).map Prod.fst
  · rw [if_pos hn]
    cases k <;> simp only [RS.setParam, h.getParams strict, lookup_documented, if_pos hn]
    rfl
  · rw [if_neg hn]
    cases k <;> simp only [RS.setParam, h.getParams strict, lookup_documented, if_neg hn]

theorem fitNames_not_params (cls : PCls) : ∀ n ∈ fitNames, n ∉ (documented cls).map Prod.fst := by
  intro n hn hp
  simp only [fitNames, List.mem_cons, List.not_mem_nil, or_false] at hn
  rcases hn with rfl | rfl | rfl | rfl | rfl | rfl | rfl | rfl | rfl | rfl <;>
    cases cls <;> simp [documented] at hp

theorem Stored.run {cls : PCls} {d : PDict} {f : String → PVal} (h : Stored cls d f)
    (strict : Bool) (op : ParamOp) :
    ∃ d', op.run strict (.obj cls d) = .obj cls d' ∧ Stored cls d' (valuesAfter strict cls f op) := by
  cases op with
  | setParam k v =>
    simp only [ParamOp.run, h.setParam strict k v]
    cases k with
    | plain n =>
      by_cases hn : (PKey.plain n).head ∈ (documented cls).map Prod.fst
      · rw [if_pos hn]; exact ⟨_, rfl, by
          simp only [PKey.head] at hn
          simpa only [valuesAfter, hn, and_true] using h.set n v⟩
      · rw [if_neg hn]; exact ⟨_, rfl, by
          simp only [PKey.head] at hn
          simpa only [valuesAfter, hn, and_false, if_false] using h⟩
    | nested n k' =>
      by_cases hn : (PKey.nested n k').head ∈ (documented cls).map Prod.fst
      · rw [if_pos hn]; exact ⟨_, rfl, by
          simp only [PKey.head] at hn
          simpa only [valuesAfter, hn, and_true] using h.set n _⟩
      · rw [if_neg hn]; exact ⟨_, rfl, by
          simp only [PKey.head] at hn
          simpa only [valuesAfter, hn, and_false, if_false] using h⟩
  | assign n v => exact ⟨_, rfl, h.set n v⟩
  | fit r hr =>
    simp only [ParamOp.run, valuesAfter]
    refine ⟨_, rfl, ?_⟩
    induction r generalizing d with
    | nil => exact h
    | cons e r ih =>
      refine ih (fun m hm => ?_) fun e' he' => hr e' (by simp [he'])
      rw [lookup_set, if_neg, h m hm]
      rintro rfl
      exact fitNames_not_params cls _ (hr e (by simp)) hm

theorem Stored.after {cls : PCls} {f : String → PVal} (strict : Bool) (ops : List ParamOp) :
    ∀ {d : PDict}, Stored cls d f → ∃ d', objectAfter strict ops (.obj cls d) = .obj cls d' ∧
      Stored cls d' (paramsAfter strict cls ops f) := by
  induction ops generalizing f with
  | nil => exact fun h => ⟨_, rfl, h⟩
  | cons op ops ih =>
    intro d h
    obtain ⟨d', e, h'⟩ := h.run strict op
    obtain ⟨d'', e', h''⟩ := ih h'
    exact ⟨d'', by simpa [objectAfter, e] using e', h''⟩

theorem Stored.run_other {cls : PCls} {d : PDict} {f : String → PVal} (h : Stored cls d f)
    (strict : Bool) {n : String} (hn : n ∉ (documented cls).map Prod.fst) (hf : n ∉ fitNames)
    (op : ParamOp) (ho : ∀ v, op ≠ .assign n v) (d' : PDict)
    (e : op.run strict (.obj cls d) = .obj cls d') : d'.lookup n = d.lookup n := by
  cases op with
  | setParam k v =>
    simp only [ParamOp.run, h.setParam strict k v] at e
    by_cases hk : k.head ∈ (documented cls).map Prod.fst
    · rw [if_pos hk] at e
      have hne : n ≠ k.head := fun h' => hn (h' ▸ hk)
      cases k with
      | plain m => cases e; exact (lookup_set ..).trans (if_neg hne)
      | nested m k' => cases e; exact (lookup_set ..).trans (if_neg hne)
    · rw [if_neg hk] at e; cases e; rfl
  | assign m v =>
    cases e
    rw [lookup_set, if_neg]
    rintro rfl
    exact ho v rfl
  | fit r hr =>
    cases e
    clear h
    induction r generalizing d with
    | nil => rfl
    | cons e r ih =>
      rw [List.foldl_cons, ih (fun e' he' => hr e' (by simp [he'])) (by simp), lookup_set, if_neg]
      rintro rfl
      exact hf (hr e (by simp))

theorem Stored.after_other {cls : PCls} {f : String → PVal} (strict : Bool) {n : String}
    (hn : n ∉ (documented cls).map Prod.fst) (hf : n ∉ fitNames) (ops : List ParamOp)
    (ho : ∀ v, .assign n v ∉ ops) : ∀ {d : PDict}, Stored cls d f →
      ∃ d', objectAfter strict ops (.obj cls d) = .obj cls d' ∧ d'.lookup n = d.lookup n := by
  induction ops generalizing f with
  | nil => exact fun h => ⟨_, rfl, rfl⟩
  | cons op ops ih =>
    intro d h
    obtain ⟨d', e, h'⟩ := h.run strict op
    have h1 := h.run_other strict hn hf op (fun v hv => ho v (by simp [hv])) d' e
    obtain ⟨d'', e', h''⟩ := ih (fun v hv => ho v (by simp [hv])) h'
    exact ⟨d'', by simpa [objectAfter, e] using e', h''.trans h1⟩

/-! ## C166: parameters -/

/-- Every class except the online estimator: an object created with the arguments `kw` gives, after any
history of `set_params`, attribute assignments and fits, the value last set for every documented
parameter, to begin with the argument or the documented default, and nothing else. -/
theorem C166_get_partial (L : ParamLib) (strict : Bool) (cls : PCls) (hc : cls ≠ .online) (kw : PDict)
    (o : PVal) (h : cls.create L kw = .ok o) (ops : List ParamOp) :
    ParamsAre strict cls (objectAfter strict ops o)
      (paramsAfter strict cls ops (createdWith cls kw)) := by
  obtain ⟨d, rfl, hd⟩ := create_stored hc h
  obtain ⟨d', e, h'⟩ := hd.after strict ops
  rw [e]
  exact ⟨⟨d', rfl⟩, h'.getParams strict⟩

/-- `set_params` of such an object: a name that is not documented raises `ValueError` and changes
nothing, a documented one is accepted, and `name__key` has the outcome of `set_params(key=v)` on the
value of `name`. -/
theorem C166_set_partial (L : ParamLib) (strict : Bool) (cls : PCls) (hc : cls ≠ .online) (kw : PDict)
    (o : PVal) (h : cls.create L kw = .ok o) (ops : List ParamOp) (v : PVal) :
    let o' := objectAfter strict ops o
    let f := paramsAfter strict cls ops (createdWith cls kw)
    (∀ k : PKey, k.head ∉ (documented cls).map Prod.fst →
      setParam strict k v o' = (o', .error .valueError)) ∧
    (∀ n ∈ (documented cls).map Prod.fst, (setParam strict (.plain n) v o').2 = .ok ()) ∧
    (∀ n ∈ (documented cls).map Prod.fst, ∀ k,
      (setParam strict (.nested n k) v o').2 = (setParam strict k v (f n)).2) := by
  obtain ⟨d, rfl, hd⟩ := create_stored hc h
  obtain ⟨d', e, h'⟩ := hd.after strict ops
  simp only
  rw [e]
  refine ⟨fun k hk => ?_, fun n hn => ?_, fun n hn k => ?_⟩
  · rw [h'.setParam, if_neg hk]
  · rw [h'.setParam, if_pos (show (PKey.plain n).head ∈ _ from hn)]
  · rw [h'.setParam, if_pos (show (PKey.nested n k).head ∈ _ from hn)]

/-- The arguments of a call are documented, and none is missing. -/
def ArgsOk (cls : PCls) (kw : PDict) : Prop :=
  (∀ e ∈ kw, e.1 ∈ (documented cls).map Prod.fst) ∧
  ∀ n, (n, none) ∈ documented cls → kw.lookup n ≠ none

theorem missing_iff (cls : PCls) (kw : PDict) :
    (∃ n ∈ cls.sig.params.map Prod.fst, cls.sig.value kw n = none) ↔
      ∃ n, (n, none) ∈ documented cls ∧ kw.lookup n = none := by
  have key : ∀ n ∈ (documented cls).map Prod.fst,
      ((documented cls).lookup n = some none ↔ (n, none) ∈ documented cls) ∧
      (documented cls).lookup n ≠ none := by
    intro n hn
    cases cls <;>
      simp only [documented, List.map_cons, List.map_nil, List.mem_cons, List.not_mem_nil,
        or_false] at hn <;>
      rcases hn with rfl | rfl | rfl | rfl | rfl | rfl <;>
      simp [documented, List.lookup]
  rw [sig_documented]
  constructor
  · rintro ⟨n, hn, h⟩
    simp only [CtorSig.value, sig_documented] at h
    cases hk : kw.lookup n with
    | some v => rw [hk] at h; cases h
    | none =>
      rw [hk] at h
      refine ⟨n, (key n hn).1.1 ?_, hk⟩
      rcases hl : (documented cls).lookup n with _ | _ | c
      · exact absurd hl (key n hn).2
      · rfl
      · rw [hl] at h; cases h
  · rintro ⟨n, hn, h⟩
    have hn' : n ∈ (documented cls).map Prod.fst := List.mem_map.2 ⟨_, hn, rfl⟩
    refine ⟨n, hn', ?_⟩
    simp only [CtorSig.value, sig_documented, h, (key n hn').1.2 hn]

theorem setMethodFn_cases (m : PVal) :
    (m = .const (.str "fixed-point") ∧ setMethodFn m = .ok (.const (.closure "fixed-point"))) ∨
    (m = .const (.str "natural gradient") ∧
      setMethodFn m = .ok (.const (.closure "natural gradient"))) ∨
    (m ≠ .const (.str "fixed-point") ∧ m ≠ .const (.str "natural gradient") ∧
      setMethodFn m = .error .notImplementedError) := by
  by_cases h1 : m = .const (.str "fixed-point")
  · subst h1; exact Or.inl ⟨rfl, rfl⟩
  by_cases h2 : m = .const (.str "natural gradient")
  · subst h2; exact Or.inr (Or.inl ⟨rfl, rfl⟩)
  refine Or.inr (Or.inr ⟨h1, h2, ?_⟩)
  unfold setMethodFn
  split
  · rw [if_neg, if_neg]
    · rintro rfl; exact h2 rfl
    · rintro rfl; exact h1 rfl
  · rfl

/-- Which calls of a constructor succeed, for all classes but `FeaturesEstimation` and
`CovariancesEstimation`: `TypeError` for an argument that is not documented or a missing one;
otherwise a new object, except that the Tyler estimators raise `NotImplementedError` for an unknown
method, and `KroneckerStudent` has yet to compute its metric. -/
theorem C166_create_partial (L : ParamLib) (cls : PCls) (hc : cls ≠ .features ∧ cls ≠ .covariances)
    (kw : PDict) :
    (¬ ArgsOk cls kw → cls.create L kw = .error .typeError) ∧
    (ArgsOk cls kw → (∀ c, cls ≠ .tyler c) → cls ≠ .kronStudent →
      ∃ d, cls.create L kw = .ok (.obj cls d)) ∧
    (ArgsOk cls kw → (∃ c, cls = .tyler c) →
      ((createdWith cls kw "method" = .const (.str "fixed-point") ∨
        createdWith cls kw "method" = .const (.str "natural gradient")) ∧
        ∃ d, cls.create L kw = .ok (.obj cls d)) ∨
      (createdWith cls kw "method" ≠ .const (.str "fixed-point") ∧
        createdWith cls kw "method" ≠ .const (.str "natural gradient") ∧
        cls.create L kw = .error .notImplementedError)) := by
  have hv : cls.sig.varKw = false := by
    cases cls <;> first | rfl | exact absurd rfl hc.1 | exact absurd rfl hc.2
  have hcr : ArgsOk cls kw → cls.create L kw = (cls.body L (createdWith cls kw)).map (.obj cls) := by
    intro h
    unfold PCls.create
    simp only
    rw [if_neg, if_neg]
    · have : (fun n => (cls.sig.value kw n).getD (.const .none)) = createdWith cls kw :=
        funext fun n => value_created cls kw n
      rw [this]
      cases cls.body L (createdWith cls kw) <;> rfl
    · rw [missing_iff]
      rintro ⟨n, h1, h2⟩
      exact h.2 n h1 h2
    · rintro ⟨-, e, he, h1⟩
      rw [sig_documented] at h1
      exact h1 (h.1 e he)
  refine ⟨fun h => ?_, fun h h1 h2 => ?_, ?_⟩
  · unfold PCls.create
    simp only
    by_cases h1 : cls.sig.varKw = false ∧ ∃ e ∈ kw, e.1 ∉ cls.sig.params.map Prod.fst
    · rw [if_pos h1]
    · rw [if_neg h1, if_pos]
      rw [missing_iff]
      by_contra h2
      apply h
      refine ⟨fun e he => ?_, fun n hn h3 => h2 ⟨n, hn, h3⟩⟩
      by_contra h3
      exact h1 ⟨hv, e, he, by rwa [sig_documented]⟩
  · rw [hcr h]
    cases cls with
    | tyler c => exact absurd rfl (h1 c)
    | kronStudent => exact absurd rfl h2
    | _ => exact ⟨_, rfl⟩
  · rintro h ⟨c, rfl⟩
    rw [hcr h]
    simp only [PCls.body]
    rcases setMethodFn_cases (createdWith (.tyler c) kw "method") with
      ⟨h1, h2⟩ | ⟨h1, h2⟩ | ⟨h1, h2, h3⟩
    · exact Or.inl ⟨Or.inl h1, _, by rw [h2]; rfl⟩
    · exact Or.inl ⟨Or.inr h1, _, by rw [h2]; rfl⟩
    · exact Or.inr ⟨h1, h2, by rw [h3]; rfl⟩

/-- `FeaturesEstimation` and `CovariancesEstimation` accept any further keyword argument, for instance
a misspelt `n_jobs`, and lose it. -/
theorem C166_create_violated (L : ParamLib) (cls : PCls) (hc : cls = .features ∨ cls = .covariances)
    (est v : PVal) (name : String) (hn : name ≠ "estimator" ∧ name ≠ "n_jobs") :
    ¬ ArgsOk cls [("estimator", est), (name, v)] ∧
    ∃ o, cls.create L [("estimator", est), (name, v)] = .ok o ∧
      cls.create L [("estimator", est)] = .ok o := by
  have e1 : ("estimator" == name) = false := beq_eq_false_iff_ne.2 hn.1.symm
  have e3 : ("n_jobs" == name) = false := beq_eq_false_iff_ne.2 hn.2.symm
  constructor
  · intro h
    have := h.1 (name, v) (by simp)
    rcases hc with rfl | rfl <;> simp [documented, hn] at this
  · refine ⟨.obj cls [("estimator", est), ("n_jobs", .const (.num 1))], ?_, ?_⟩ <;>
    rcases hc with rfl | rfl <;>
    simp [PCls.create, PCls.sig, CtorSig.value, PCls.body, List.lookup, e3, bind, Except.bind, pure,
      Except.pure]

/-- The online estimator: from version 0.24 of sklearn on, `get_params` raises `AttributeError` for
every object that has been created, and so does every `set_params`; before, it gives `None` for every
parameter, whatever the arguments were. -/
theorem C166_online_violated (L : ParamLib) (kw : PDict) (o : PVal)
    (h : PCls.online.create L kw = .ok o) :
    getParams true o = .error .attributeError ∧
    (∀ k v, setParam true k v o = (o, .error .attributeError)) ∧
    getParams false o = .ok ((documented .online).map fun e => (e.1, .const .none)) := by
  have ho : ∃ x : String → PVal, o = .obj .online (initDefault ++ [("_manifold", x "manifold"),
      ("_rgrad", x "rgrad"), ("lrate_", x "lrate"), ("_cost", x "cost"),
      ("_verbosity", x "verbosity"), ("_estimatetocov", x "estimatetocov"),
      ("_iteration", .const (.num 0)), ("estimate_", .const .none)]) := by
    simp only [PCls.create] at h
    split_ifs at h
    simp only [PCls.body, bind, Except.bind, pure, Except.pure, Except.ok.injEq] at h
    exact ⟨fun n => (PCls.online.sig.value kw n).getD (.const .none), h.symm⟩
  obtain ⟨x, rfl⟩ := ho
  have h1 : getParams true (.obj .online (initDefault ++ [("_manifold", x "manifold"),
      ("_rgrad", x "rgrad"), ("lrate_", x "lrate"), ("_cost", x "cost"),
      ("_verbosity", x "verbosity"), ("_estimatetocov", x "estimatetocov"),
      ("_iteration", .const (.num 0)), ("estimate_", .const .none)])) = .error .attributeError := rfl
  refine ⟨h1, fun k v => ?_, rfl⟩
  cases k <;> simp only [setParam, h1]

/-- The hypothesis is met: with the learning rate 1. -/
example (L : ParamLib) : ∃ o, PCls.online.create L [("manifold", .const (.other 0)),
    ("rgrad", .const (.other 1)), ("lrate", .const (.num 1))] = .ok o := ⟨_, rfl⟩

/-! ## C167: clone -/

theorem cloneAll_lookup (L : ParamLib) (strict : Bool) (d : PDict) (n : String) :
    (cloneAll L strict d).lookup n = (d.lookup n).map (clone' L strict) := by
  induction d with
  | nil => simp [cloneAll]
  | cons e d ih =>
    obtain ⟨m, v⟩ := e
    rw [cloneAll, List.lookup_cons, List.lookup_cons, ih]
    cases n == m <;> rfl

/-- Every class except the online estimator: if the current value `f n` of every parameter can be
cloned, to `g n` say, then `clone` of an object with any history is a call of the constructor with
these values. -/
theorem C167_clone_partial (L : ParamLib) (strict : Bool) (cls : PCls) (hc : cls ≠ .online)
    (kw : PDict) (o : PVal) (h : cls.create L kw = .ok o) (ops : List ParamOp) (g : String → PVal)
    (hg : ∀ n ∈ (documented cls).map Prod.fst,
      clone' L strict (paramsAfter strict cls ops (createdWith cls kw) n) = .ok (g n)) :
    clone' L strict (objectAfter strict ops o) =
      cls.create L ((documented cls).map fun e => (e.1, g e.1)) := by
  obtain ⟨d, rfl, hd⟩ := create_stored hc h
  obtain ⟨d', e, h'⟩ := hd.after strict ops
  rw [e, clone']
  rw [mapM_params (g := fun n => (n, g n)) fun n hn => ?_, paramNames_documented, List.map_map]
  · rfl
  · rw [paramNames_documented] at hn
    simp only [getParam, cloneAll_lookup, h' n hn, Option.map_some, bind, Except.bind, hg n hn]
    rfl

/-- In particular, if no parameter is an estimator, the clone is the object that the constructor makes
from the current parameters, and no trace of earlier fits is left. -/
theorem C167_constants_partial (L : ParamLib) (strict : Bool) (cls : PCls) (hc : cls ≠ .online)
    (kw : PDict) (o : PVal) (h : cls.create L kw = .ok o) (ops : List ParamOp)
    (hg : ∀ n ∈ (documented cls).map Prod.fst, ∃ c,
      paramsAfter strict cls ops (createdWith cls kw) n = .const c) :
    clone' L strict (objectAfter strict ops o) = cls.create L ((documented cls).map fun e =>
      (e.1, paramsAfter strict cls ops (createdWith cls kw) e.1)) := by
  refine C167_clone_partial L strict cls hc kw o h ops _ fun n hn => ?_
  obtain ⟨c, hc⟩ := hg n hn
  rw [hc, clone']

/-- The parameters of a clone are the clones of the current parameters. -/
theorem C167_params_partial (L : ParamLib) (strict : Bool) (cls : PCls) (hc : cls ≠ .online)
    (kw : PDict) (o : PVal) (h : cls.create L kw = .ok o) (ops : List ParamOp) (g : String → PVal)
    (hg : ∀ n ∈ (documented cls).map Prod.fst,
      clone' L strict (paramsAfter strict cls ops (createdWith cls kw) n) = .ok (g n))
    (o' : PVal) (ho : clone' L strict (objectAfter strict ops o) = .ok o') :
    ParamsAre strict cls o' g := by
  rw [C167_clone_partial L strict cls hc kw o h ops g hg] at ho
  obtain ⟨d, rfl, hd⟩ := create_stored hc ho
  refine ⟨⟨d, rfl⟩, ?_⟩
  have : Stored cls d g := by
    intro n hn
    rw [hd n hn, createdWith, lookup_documented, if_pos hn]
  exact this.getParams strict

/-- Cloning succeeds for the classes whose constructor raises nothing of its own. -/
theorem C167_succeeds_partial (L : ParamLib) (strict : Bool) (cls : PCls)
    (hc : cls ≠ .online ∧ cls ≠ .kronStudent ∧ ∀ c, cls ≠ .tyler c)
    (kw : PDict) (o : PVal) (h : cls.create L kw = .ok o) (ops : List ParamOp) (g : String → PVal)
    (hg : ∀ n ∈ (documented cls).map Prod.fst,
      clone' L strict (paramsAfter strict cls ops (createdWith cls kw) n) = .ok (g n)) :
    ∃ d, clone' L strict (objectAfter strict ops o) = .ok (.obj cls d) := by
  rw [C167_clone_partial L strict cls hc.1 kw o h ops g hg]
  have hargs : ArgsOk cls ((documented cls).map fun e => (e.1, g e.1)) := by
    constructor
    · intro e he
      obtain ⟨e', he', rfl⟩ := List.mem_map.1 he
      exact List.mem_map.2 ⟨e', he', rfl⟩
    · intro n hn
      rw [lookup_documented, if_pos (List.mem_map.2 ⟨_, hn, rfl⟩)]
      simp
  by_cases h1 : cls = .features
  · subst h1; exact ⟨_, rfl⟩
  by_cases h2 : cls = .covariances
  · subst h2; exact ⟨_, rfl⟩
  exact (C166_create_partial L cls ⟨h1, h2⟩ _).2.1 hargs hc.2.2 hc.2.1

/-- A new object has none of the attributes of a fit, apart from the initial values `err_ = inf`,
`iteration_ = 0`, `estimate_ = None` and `_iteration = 0`. -/
theorem C167_unfitted (L : ParamLib) (cls : PCls) (kw d : PDict)
    (h : cls.create L kw = .ok (.obj cls d)) (n : String)
    (hn : n ∈ ["n_features_in_", "covariance_", "precision_", "location_", "A_", "B_"]) :
    d.lookup n = none := by
  simp only [PCls.create] at h
  split_ifs at h
  simp only [List.mem_cons, List.not_mem_nil, or_false] at hn
  cases hb : cls.body L fun n => (cls.sig.value kw n).getD (.const .none) with
  | error e => rw [hb] at h; cases h
  | ok d' =>
    rw [hb] at h
    simp only [bind, Except.bind, pure, Except.pure, Except.ok.injEq, PVal.obj.injEq, true_and] at h
    subst h
    cases cls with
    | tyler c =>
      simp only [PCls.body, bind, Except.bind] at hb
      split at hb
      · cases hb
      · simp only [pure, Except.pure, Except.ok.injEq] at hb
        subst hb
        rcases hn with rfl | rfl | rfl | rfl | rfl | rfl <;> rfl
    | kronStudent =>
      simp only [PCls.body, bind, Except.bind] at hb
      split at hb
      · cases hb
      · split at hb
        · cases hb
        · simp only [pure, Except.pure, Except.ok.injEq] at hb
          subst hb
          rcases hn with rfl | rfl | rfl | rfl | rfl | rfl <;> rfl
    | _ =>
      simp only [PCls.body, Except.ok.injEq] at hb
      subst hb
      rcases hn with rfl | rfl | rfl | rfl | rfl | rfl <;> rfl

/-- The constructor of the Tyler estimators stores the function of the method it is given. -/
theorem tyler_function {L : ParamLib} {c : Bool} {kw : PDict} {o : PVal}
    (h : (PCls.tyler c).create L kw = .ok o) :
    ∃ d m, o = .obj (.tyler c) d ∧ (m = "fixed-point" ∨ m = "natural gradient") ∧
      createdWith (.tyler c) kw "method" = .const (.str m) ∧
      d.lookup "_estimation_function" = some (.const (.closure m)) := by
  simp only [PCls.create] at h
  split_ifs at h
  have hx : (fun n => ((PCls.tyler c).sig.value kw n).getD (.const .none)) =
      createdWith (.tyler c) kw := funext fun n => value_created _ kw n
  rw [hx] at h
  simp only [PCls.body] at h
  rcases setMethodFn_cases (createdWith (.tyler c) kw "method") with
      ⟨h1, h2⟩ | ⟨h1, h2⟩ | ⟨h1, h2, h3⟩
  · rw [h2] at h
    simp only [bind, Except.bind, pure, Except.pure, Except.ok.injEq] at h
    exact ⟨_, _, h.symm, Or.inl rfl, h1, rfl⟩
  · rw [h2] at h
    simp only [bind, Except.bind, pure, Except.pure, Except.ok.injEq] at h
    exact ⟨_, _, h.symm, Or.inr rfl, h1, rfl⟩
  · rw [h3] at h; cases h

/-- The Tyler estimators, after any history without an assignment to the private
`_estimation_function`: `fit` still uses the function of the method that the constructor was given,
whatever `set_params` has stored since. If the current method `m` is a valid one, a clone uses the
function of `m`; otherwise `clone` raises `NotImplementedError`. -/
theorem C167_tyler (L : ParamLib) (strict c : Bool) (kw : PDict) (o : PVal)
    (h : (PCls.tyler c).create L kw = .ok o) (ops : List ParamOp)
    (hops : ∀ v, .assign "_estimation_function" v ∉ ops)
    (hg : ∀ n ∈ (documented (.tyler c)).map Prod.fst, ∃ x,
      paramsAfter strict (.tyler c) ops (createdWith (.tyler c) kw) n = .const x) :
    let m := paramsAfter strict (.tyler c) ops (createdWith (.tyler c) kw) "method"
    (∃ d m₀, objectAfter strict ops o = .obj (.tyler c) d ∧
      createdWith (.tyler c) kw "method" = .const (.str m₀) ∧
      d.lookup "_estimation_function" = some (.const (.closure m₀))) ∧
    (∀ m', m' = "fixed-point" ∨ m' = "natural gradient" → m = .const (.str m') →
      ∃ d, clone' L strict (objectAfter strict ops o) = .ok (.obj (.tyler c) d) ∧
        d.lookup "_estimation_function" = some (.const (.closure m'))) ∧
    (m ≠ .const (.str "fixed-point") → m ≠ .const (.str "natural gradient") →
      clone' L strict (objectAfter strict ops o) = .error .notImplementedError) := by
  simp only
  have hcl := C167_constants_partial L strict (.tyler c) (by simp) kw o h ops hg
  set f := paramsAfter strict (.tyler c) ops (createdWith (.tyler c) kw) with hf
  have hargs : ArgsOk (.tyler c) ((documented (.tyler c)).map fun e => (e.1, f e.1)) := by
    constructor
    · intro e he
      obtain ⟨e', he', rfl⟩ := List.mem_map.1 he
      exact List.mem_map.2 ⟨e', he', rfl⟩
    · intro n hn
      rw [lookup_documented, if_pos (List.mem_map.2 ⟨_, hn, rfl⟩)]
      simp
  have hmeth : createdWith (.tyler c) ((documented (.tyler c)).map fun e => (e.1, f e.1)) "method" =
      f "method" := by
    rw [createdWith, lookup_documented, if_pos (by simp [documented])]
  have hcr := (C166_create_partial L (.tyler c) (by simp)
    ((documented (.tyler c)).map fun e => (e.1, f e.1))).2.2 hargs ⟨c, rfl⟩
  rw [hmeth, ← hcl] at hcr
  refine ⟨?_, fun m' hm' he => ?_, fun h1 h2 => ?_⟩
  · obtain ⟨d, m, rfl, -, h1, h2⟩ := tyler_function h
    obtain ⟨d', e, hd⟩ := create_stored (by simp) h
    cases e
    obtain ⟨d', e, h3⟩ := Stored.after_other (f := createdWith (.tyler c) kw) strict (n := "_estimation_function")
      (by simp [documented]) (by simp [fitNames]) ops hops hd
    exact ⟨d', m, e, h1, h3.trans h2⟩
  · rcases hcr with ⟨-, d, hd⟩ | ⟨h1, h2, -⟩
    · rw [hd]
      rw [hcl] at hd
      obtain ⟨d', m, e, -, h3, h4⟩ := tyler_function hd
      rw [hmeth, he] at h3
      cases e; cases h3
      exact ⟨_, rfl, h4⟩
    · rcases hm' with rfl | rfl
      · exact absurd he h1
      · exact absurd he h2
  · rcases hcr with ⟨h3 | h3, -⟩ | ⟨-, -, h3⟩
    · exact absurd h3 h1
    · exact absurd h3 h2
    · exact h3

/-- The constructor of `KroneckerStudent` computes `alpha` and the manifold from its arguments. -/
theorem kronStudent_created {L : ParamLib} {kw : PDict} {o : PVal}
    (h : PCls.kronStudent.create L kw = .ok o) :
    let x := createdWith .kronStudent kw
    ∃ d α M, o = .obj .kronStudent d ∧ L.alpha (x "df") (x "a") (x "b") = .ok α ∧
      L.manifold (x "a") (x "b") α = .ok M ∧ d.lookup "alpha" = some α ∧
      d.lookup "manifold" = some M := by
  simp only [PCls.create] at h
  split_ifs at h
  have hx : (fun n => (PCls.kronStudent.sig.value kw n).getD (.const .none)) =
      createdWith .kronStudent kw := funext fun n => value_created _ kw n
  rw [hx] at h
  simp only [PCls.body] at h
  simp only
  cases hα : L.alpha (createdWith .kronStudent kw "df") (createdWith .kronStudent kw "a")
      (createdWith .kronStudent kw "b") with
  | error e => rw [hα] at h; cases h
  | ok α =>
    rw [hα] at h
    simp only [bind, Except.bind] at h
    cases hM : L.manifold (createdWith .kronStudent kw "a") (createdWith .kronStudent kw "b") α with
    | error e => rw [hM] at h; cases h
    | ok M =>
      rw [hM] at h
      simp only [pure, Except.pure, Except.ok.injEq] at h
      exact ⟨_, α, M, h.symm, rfl, hM, rfl, rfl⟩

/-- `KroneckerStudent`, after any history without assignments to `alpha` and `manifold`: both are
still those of the arguments of the constructor, whatever `set_params` has stored since in `df`, `a`
and `b`. Those of a clone are computed from the current values `df`, `a`, `b`. -/
theorem C167_kronecker (L : ParamLib) (strict : Bool) (kw : PDict) (o : PVal)
    (h : PCls.kronStudent.create L kw = .ok o) (ops : List ParamOp)
    (hops : ∀ v, .assign "alpha" v ∉ ops ∧ .assign "manifold" v ∉ ops)
    (hg : ∀ n ∈ (documented .kronStudent).map Prod.fst, ∃ x,
      paramsAfter strict .kronStudent ops (createdWith .kronStudent kw) n = .const x) :
    let x := createdWith .kronStudent kw
    let f := paramsAfter strict .kronStudent ops x
    (∃ d α M, objectAfter strict ops o = .obj .kronStudent d ∧
      L.alpha (x "df") (x "a") (x "b") = .ok α ∧ L.manifold (x "a") (x "b") α = .ok M ∧
      d.lookup "alpha" = some α ∧ d.lookup "manifold" = some M) ∧
    ∀ o', clone' L strict (objectAfter strict ops o) = .ok o' →
      ∃ d α M, o' = .obj .kronStudent d ∧
        L.alpha (f "df") (f "a") (f "b") = .ok α ∧ L.manifold (f "a") (f "b") α = .ok M ∧
        d.lookup "alpha" = some α ∧ d.lookup "manifold" = some M := by
  simp only
  have hcl := C167_constants_partial L strict .kronStudent (by simp) kw o h ops hg
  set f := paramsAfter strict .kronStudent ops (createdWith .kronStudent kw) with hf
  refine ⟨?_, fun o' ho' => ?_⟩
  · obtain ⟨d, α, M, rfl, h1, h2, h3, h4⟩ := kronStudent_created h
    obtain ⟨d', e, hd⟩ := create_stored (by simp) h
    cases e
    obtain ⟨d₁, e₁, h5⟩ := Stored.after_other (f := createdWith .kronStudent kw) strict (n := "alpha")
      (by simp [documented]) (by simp [fitNames]) ops (fun v => (hops v).1) hd
    obtain ⟨d₂, e₂, h6⟩ := Stored.after_other (f := createdWith .kronStudent kw) strict
      (n := "manifold") (by simp [documented]) (by simp [fitNames]) ops (fun v => (hops v).2) hd
    rw [e₁] at e₂
    cases e₂
    exact ⟨d₁, α, M, e₁, h1, h2, h5.trans h3, h6.trans h4⟩
  · rw [hcl] at ho'
    have hx : ∀ n ∈ (documented .kronStudent).map Prod.fst, createdWith .kronStudent
        ((documented .kronStudent).map fun e => (e.1, f e.1)) n = f n := fun n hn => by
      rw [createdWith, lookup_documented, if_pos hn]
    have := kronStudent_created ho'
    simp only at this
    rwa [hx "df" (by simp [documented]), hx "a" (by simp [documented]), hx "b" (by simp [documented])]
      at this

/-- The online estimator: from version 0.24 of sklearn on `clone` raises `AttributeError`; before, it
makes an object whose manifold, gradient and learning rate are `None`. -/
theorem C167_online_violated (L : ParamLib) (kw : PDict) (o : PVal)
    (h : PCls.online.create L kw = .ok o) :
    clone' L true o = .error .attributeError ∧
    ∃ d, clone' L false o = .ok (.obj .online d) ∧ d.lookup "lrate_" = some (.const .none) ∧
      d.lookup "_manifold" = some (.const .none) ∧ d.lookup "_rgrad" = some (.const .none) := by
  have ho : ∃ x : String → PVal, o = .obj .online (initDefault ++ [("_manifold", x "manifold"),
      ("_rgrad", x "rgrad"), ("lrate_", x "lrate"), ("_cost", x "cost"),
      ("_verbosity", x "verbosity"), ("_estimatetocov", x "estimatetocov"),
      ("_iteration", .const (.num 0)), ("estimate_", .const .none)]) := by
    simp only [PCls.create] at h
    split_ifs at h
    simp only [PCls.body, bind, Except.bind, pure, Except.pure, Except.ok.injEq] at h
    exact ⟨fun n => (PCls.online.sig.value kw n).getD (.const .none), h.symm⟩
  obtain ⟨x, rfl⟩ := ho
  refine ⟨by rw [clone']; rfl, _, by rw [clone']; rfl, rfl, rfl, rfl⟩

/-- `FeaturesEstimation` of a fitted estimator: the clone holds an unfitted one. -/
example (L : ParamLib) (strict : Bool) (C : PVal) :
    ∃ d, clone' L strict (.obj .features [("estimator", .obj (.empirical true)
        [("store_precision", .const (.bool false)), ("assume_centered", .const (.bool true)),
          ("covariance_", C)]), ("n_jobs", .const (.num 2))]) = .ok (.obj .features d) ∧
      d.lookup "estimator" = some (.obj (.empirical true)
        [("store_precision", .const (.bool false)), ("assume_centered", .const (.bool true))]) := by
  refine ⟨_, by simp only [clone', cloneAll]; rfl, rfl⟩

/-- The hypotheses of `C167_tyler` are met: `TylerShapeMatrix()`, then
`set_params(method="natural gradient")` and a fit; the clone uses the new method, the original the
old one. -/
example (L : ParamLib) (C : PVal) :
    let ops : List ParamOp := [.setParam (.plain "method") (.const (.str "natural gradient")),
      .fit [("covariance_", C)] (by simp [fitNames])]
    ∃ o, (PCls.tyler false).create L [] = .ok o ∧
      (∀ v, .assign "_estimation_function" v ∉ ops) ∧
      (∀ n ∈ (documented (.tyler false)).map Prod.fst, ∃ x,
        paramsAfter true (.tyler false) ops (createdWith (.tyler false) []) n = .const x) ∧
      createdWith (.tyler false) [] "method" = .const (.str "fixed-point") ∧
      paramsAfter true (.tyler false) ops (createdWith (.tyler false) []) "method" =
        .const (.str "natural gradient") := by
  refine ⟨_, rfl, by simp, ?_, rfl, rfl⟩
  intro n hn
  simp only [documented, List.map_cons, List.map_nil, List.mem_cons, List.not_mem_nil, or_false] at hn
  rcases hn with rfl | rfl | rfl | rfl | rfl <;> exact ⟨_, rfl⟩

end RS
