import Verif.Lemmas.FeatureArray

/-
Helper lemmas: observational equivalence of feature arrays, indexing.
-/
set_option autoImplicit false

namespace RS
variable {K : Type}

/-! ### equivalence of buffers up to what is beyond `len` -/

/-- Two buffers that cannot be told apart through their first `len` rows. -/
structure BufEq (len : ℕ) (sh : List ℕ) (b b' : Buf K) : Prop where
  dtype : b'.dtype = b.dtype
  ish : b'.ish = b.ish
  rows : b'.rows.take len = b.rows.take len
  le : len ≤ b.rows.length
  le' : len ≤ b'.rows.length
  cap : b.ish = sh ∨ b'.rows.length = b.rows.length

theorem BufEq.refl {len : ℕ} {b : Buf K} (sh : List ℕ) (h : len ≤ b.rows.length) :
    BufEq len sh b b := ⟨rfl, rfl, rfl, h, h, Or.inr rfl⟩

theorem bcast_map_length (new : List (NDVal K)) (s d : List ℕ) (c : Prop) [Decidable c] :
    (if c then new else new.map (NDVal.bcast s d)).length = new.length := by
  split <;> simp

/-- The end of `appendComp`: growth and assignment. -/
def finishComp (zero : K) (len : ℕ) (sh : List ℕ) (b : Buf K) (ish : List ℕ)
    (new : List (NDVal K)) : Option (Buf K) × Py ℕ :=
  if b.rows.length < len + new.length ∧ b.ish ≠ sh then (some b, .error .valueError)
  else
    let rows := growRows (NDVal.zeros zero sh) b.rows (len + new.length)
    if bcastOk ish b.ish then
      (some ⟨b.dtype, b.ish, writeRows rows len
        (if ish = b.ish then new else new.map (NDVal.bcast ish b.ish))⟩, .ok new.length)
    else (some ⟨b.dtype, b.ish, rows⟩, .error .valueError)

theorem appendComp_finish (zero : K) (len : ℕ) (sh : List ℕ) (b : Buf K) (d : NArr K) :
    appendComp zero len sh (some b) (.arr d) =
      if d.dtype ≠ b.dtype then (some b, .error .valueError)
      else if d.shape.length ≠ sh.length ∧ d.shape.length ≠ sh.length + 1 then
        (some b, .error .valueError)
      else finishComp zero len sh b (if d.shape.length = sh.length then d.shape else d.shape.tail)
        (if d.shape.length = sh.length then [d.val] else d.val.unstack) := rfl

theorem finishComp_bufEq {len : ℕ} {sh : List ℕ} {b b' : Buf K} (zero : K)
    (h : BufEq len sh b b') (ish : List ℕ) (new : List (NDVal K)) :
    (finishComp zero len sh b' ish new).2 = (finishComp zero len sh b ish new).2 ∧
    ∃ c c', (finishComp zero len sh b ish new).1 = some c ∧
      (finishComp zero len sh b' ish new).1 = some c' ∧
      BufEq len sh b c ∧ BufEq len sh c c' ∧
      ∀ n, (finishComp zero len sh b ish new).2 = .ok n →
        n = new.length ∧ BufEq (len + n) sh c c' := by
  obtain ⟨dt, bs, rows⟩ := b
  obtain ⟨dt', bs', rows'⟩ := b'
  obtain ⟨h1, h2, h3, h4, h5, h6⟩ := h
  simp only at h1 h2 h3 h4 h5 h6
  subst h1 h2
  have hcap : (rows'.length < len + new.length ∧ bs' ≠ sh) ↔
      (rows.length < len + new.length ∧ bs' ≠ sh) := by
    rcases h6 with h6 | h6
    · simp [h6]
    · rw [h6]
  by_cases hc : rows.length < len + new.length ∧ bs' ≠ sh
  · have hc' := hcap.2 hc
    simp only [finishComp, if_pos hc, if_pos hc']
    refine ⟨trivial, _, _, rfl, rfl, BufEq.refl sh h4, ⟨rfl, rfl, h3, h4, h5, h6⟩, ?_⟩
    intro n hn; cases hn
  · have hc' := fun x => hc (hcap.1 x)
    simp only [finishComp, if_neg hc, if_neg hc']
    have g := growRows_length_ge (NDVal.zeros zero sh) rows (len + new.length)
    have g' := growRows_length_ge (NDVal.zeros zero sh) rows' (len + new.length)
    have gt := growRows_take (NDVal.zeros zero sh) rows (len + new.length) len h4
    have gt' := growRows_take (NDVal.zeros zero sh) rows' (len + new.length) len h5
    have gc : bs' = sh ∨ ((growRows (NDVal.zeros zero sh) rows (len + new.length)) = rows ∧
        (growRows (NDVal.zeros zero sh) rows' (len + new.length)) = rows') := by
      by_cases hs : bs' = sh
      · exact Or.inl hs
      · right
        have l1 : len + new.length ≤ rows.length := by
          by_contra hh; exact hc ⟨by omega, hs⟩
        have l2 : len + new.length ≤ rows'.length := by
          by_contra hh; exact hc' ⟨by omega, hs⟩
        exact ⟨growRows_of_le _ _ _ l1, growRows_of_le _ _ _ l2⟩
    generalize growRows (NDVal.zeros zero sh) rows (len + new.length) = R at *
    generalize growRows (NDVal.zeros zero sh) rows' (len + new.length) = R' at *
    have hcapR : bs' = sh ∨ R'.length = R.length := by
      rcases gc with gc | ⟨r1, r2⟩
      · exact Or.inl gc
      · rw [r1, r2]; exact h6
    have hcapR1 : bs' = sh ∨ R.length = rows.length := by
      rcases gc with gc | ⟨r1, r2⟩
      · exact Or.inl gc
      · rw [r1]; exact Or.inr rfl
    by_cases hb : bcastOk ish bs' = true
    · simp only [if_pos hb]
      have hl := bcast_map_length new ish bs' (ish = bs')
      generalize (if ish = bs' then new else new.map (NDVal.bcast ish bs')) = new' at *
      rw [← hl] at g g'
      have w := writeRows_length R new' len g.1
      have w' := writeRows_length R' new' len g'.1
      refine ⟨trivial, _, _, rfl, rfl, ⟨rfl, rfl, ?_, h4, ?_, ?_⟩, ⟨rfl, rfl, ?_, ?_, ?_, ?_⟩, ?_⟩
      · simp only; rw [writeRows_take_le _ _ _ _ le_rfl (by omega), gt]
      · simp only; omega
      · simp only [w]; exact hcapR1
      · simp only
        rw [writeRows_take_le _ _ _ _ le_rfl (by omega), writeRows_take_le _ _ _ _ le_rfl (by omega),
          gt, gt', h3]
      · simp only; omega
      · simp only; omega
      · simp only [w, w']; exact hcapR
      · intro n hn
        cases hn
        refine ⟨rfl, rfl, rfl, ?_, ?_, ?_, ?_⟩
        · simp only
          rw [← hl, writeRows_take _ _ _ g.1, writeRows_take _ _ _ g'.1, gt, gt', h3]
        · simp only; omega
        · simp only; omega
        · simp only [w, w']; exact hcapR
    · simp only [if_neg hb]
      refine ⟨trivial, _, _, rfl, rfl, ⟨rfl, rfl, gt, h4, ?_, hcapR1⟩,
        ⟨rfl, rfl, ?_, ?_, ?_, hcapR⟩, ?_⟩
      · simp only; omega
      · simp only; rw [gt, gt', h3]
      · simp only; omega
      · simp only; omega
      · intro n hn; cases hn

theorem appendComp_bufEq {len : ℕ} {sh : List ℕ} {b b' : Buf K} (zero : K)
    (h : BufEq len sh b b') (d : Comp K) :
    (appendComp zero len sh (some b') d).2 = (appendComp zero len sh (some b) d).2 ∧
    ∃ c c', (appendComp zero len sh (some b) d).1 = some c ∧
      (appendComp zero len sh (some b') d).1 = some c' ∧
      BufEq len sh b c ∧ BufEq len sh c c' ∧
      ∀ n, (appendComp zero len sh (some b) d).2 = .ok n →
        n = d.count sh ∧ BufEq (len + n) sh c c' := by
  cases d with
  | other =>
    refine ⟨rfl, b, b', rfl, rfl, BufEq.refl sh h.le, h, ?_⟩
    intro n hn; cases hn
  | arr a =>
    rw [appendComp_finish, appendComp_finish, h.dtype]
    by_cases h1 : a.dtype ≠ b.dtype
    · simp only [if_pos h1]
      refine ⟨trivial, b, b', rfl, rfl, BufEq.refl sh h.le, h, ?_⟩
      intro n hn; cases hn
    · simp only [if_neg h1]
      by_cases h2 : a.shape.length ≠ sh.length ∧ a.shape.length ≠ sh.length + 1
      · simp only [if_pos h2]
        refine ⟨trivial, b, b', rfl, rfl, BufEq.refl sh h.le, h, ?_⟩
        intro n hn; cases hn
      · simp only [if_neg h2]
        obtain ⟨e1, c, c', e2, e3, e4, e5, e6⟩ := finishComp_bufEq zero h
          (if a.shape.length = sh.length then a.shape else a.shape.tail)
          (if a.shape.length = sh.length then [a.val] else a.val.unstack)
        refine ⟨e1, c, c', e2, e3, e4, e5, fun n hn => ⟨?_, (e6 n hn).2⟩⟩
        rw [(e6 n hn).1, Comp.count]
        split <;> rfl

/-- Two lists of buffers equivalent up to what is beyond `len`. -/
inductive BufsEq (len : ℕ) : List (List ℕ) → List (Option (Buf K)) → List (Option (Buf K)) → Prop
  | nil : BufsEq len [] [] []
  | cons {sh shs b b' as as'} (h : BufEq len sh b b') (t : BufsEq len shs as as') :
      BufsEq len (sh :: shs) (some b :: as) (some b' :: as')

theorem BufEq.trans {len : ℕ} {sh : List ℕ} {a b c : Buf K} (h : BufEq len sh a b)
    (h' : BufEq len sh b c) : BufEq len sh a c where
  dtype := by rw [h'.dtype, h.dtype]
  ish := by rw [h'.ish, h.ish]
  rows := by rw [h'.rows, h.rows]
  le := h.le
  le' := h'.le'
  cap := by
    rcases h.cap with h1 | h1
    · exact Or.inl h1
    · rcases h'.cap with h2 | h2
      · rw [h.ish] at h2; exact Or.inl h2
      · exact Or.inr (h2.trans h1)

theorem BufsEq.left {len : ℕ} {shs : List (List ℕ)} {as as' : List (Option (Buf K))}
    (h : BufsEq len shs as as') : BufsEq len shs as as := by
  induction h with
  | nil => exact .nil
  | cons h _ ih => exact .cons (BufEq.refl _ h.le) ih

theorem BufsEq.length {len : ℕ} {shs : List (List ℕ)} {as as' : List (Option (Buf K))}
    (h : BufsEq len shs as as') : as.length = shs.length ∧ as'.length = shs.length := by
  induction h with
  | nil => simp
  | cons _ _ ih => simp [ih]

theorem BufsEq.appendLoop {len : ℕ} {shs : List (List ℕ)} {as as' : List (Option (Buf K))}
    (h : BufsEq len shs as as') (zero : K) (ds : List (Comp K)) (hl : ds.length = shs.length) :
    (RS.appendLoop zero len shs as' ds).2 = (RS.appendLoop zero len shs as ds).2 ∧
    BufsEq len shs as (RS.appendLoop zero len shs as ds).1 ∧
    BufsEq len shs (RS.appendLoop zero len shs as ds).1 (RS.appendLoop zero len shs as' ds).1 ∧
    ∀ r, (RS.appendLoop zero len shs as ds).2 = .ok r → ∀ n,
      (∀ p ∈ shs.zip ds, p.2.count p.1 = n) →
        BufsEq (len + n) shs (RS.appendLoop zero len shs as ds).1
          (RS.appendLoop zero len shs as' ds).1 ∧ (shs ≠ [] → r = some n) := by
  induction h generalizing ds with
  | nil =>
    simp only [RS.appendLoop]
    exact ⟨trivial, .nil, .nil, fun r hr n hn => ⟨.nil, fun h => absurd rfl h⟩⟩
  | @cons sh shs b b' as as' h t ih =>
    match ds, hl with
    | d :: ds, hl =>
      obtain ⟨i1, i2, i3, i4⟩ := ih ds (by simpa using hl)
      obtain ⟨e1, c, c', e2, e3, e4, e5, e6⟩ := appendComp_bufEq zero h d
      simp only [RS.appendLoop]
      generalize hx : appendComp zero len sh (some b) d = x at *
      generalize hx' : appendComp zero len sh (some b') d = x' at *
      obtain ⟨x1, x2⟩ := x
      obtain ⟨x1', x2'⟩ := x'
      simp only at e1 e2 e3 e6
      subst e1 e2 e3
      cases x2' with
      | error e =>
        refine ⟨rfl, .cons e4 t.left, .cons e5 t, ?_⟩
        intro r hr; cases hr
      | ok m =>
        generalize hy : RS.appendLoop zero len shs as ds = y at *
        generalize hy' : RS.appendLoop zero len shs as' ds = y' at *
        obtain ⟨y1, y2⟩ := y
        obtain ⟨y1', y2'⟩ := y'
        simp only at i1 i2 i3 i4
        subst i1
        match y2' with
        | .error e =>
          refine ⟨rfl, .cons e4 i2, .cons e5 i3, ?_⟩
          intro r hr; cases hr
        | .ok none =>
          refine ⟨rfl, .cons e4 i2, .cons e5 i3, ?_⟩
          intro r hr n hn
          cases hr
          have hm : m = n := by rw [(e6 m rfl).1]; exact hn (sh, d) (by simp)
          subst hm
          exact ⟨.cons (e6 m rfl).2 (i4 _ rfl m fun p hp => hn p (by simp [hp])).1, fun _ => rfl⟩
        | .ok (some k) =>
          refine ⟨rfl, .cons e4 i2, .cons e5 i3, ?_⟩
          intro r hr n hn
          cases hr
          have hm : m = n := by rw [(e6 m rfl).1]; exact hn (sh, d) (by simp)
          subst hm
          obtain ⟨j1, j2⟩ := i4 _ rfl m fun p hp => hn p (by simp [hp])
          refine ⟨.cons (e6 m rfl).2 j1, fun _ => ?_⟩
          by_cases hs : shs = []
          · subst hs
            have : ds = [] := by simpa using hl
            subst this
            simp [RS.appendLoop] at hy
          · exact j2 hs

theorem BufsEq.exportComps {len : ℕ} {shs : List (List ℕ)} {as as' : List (Option (Buf K))}
    (h : BufsEq len shs as as') : RS.exportComps len as' = RS.exportComps len as := by
  induction h with
  | nil => rfl
  | cons h t ih =>
    simp only [RS.exportComps, ih, h.rows, h.dtype, h.ish]

theorem BufsEq.getComps {len : ℕ} {shs : List (List ℕ)} {as as' : List (Option (Buf K))}
    (h : BufsEq len shs as as') (key : Key) :
    as'.mapM (getComp len key) = as.mapM (getComp len key) := by
  induction h with
  | nil => rfl
  | @cons sh shs b b' as as' h t ih =>
    have : getComp len key (some b') = getComp len key (some b) := by
      simp only [getComp, h.rows, h.dtype, h.ish]
    simp only [List.mapM_cons, ih, this]

/-! ### equivalence of feature arrays -/

/-- Two feature arrays that differ at most beyond their `len` rows, or only in whether the
component list of an array never filled was initialised. -/
def ObsEq (f f' : FArr K) : Prop :=
  f'.shapes = f.shapes ∧ f'.len = f.len ∧
  ((f'.array.getD (List.replicate f.shapes.length none) =
      f.array.getD (List.replicate f.shapes.length none) ∧ (f'.array = f.array ∨ f.len = 0)) ∨
   ∃ as as', f.array = some as ∧ f'.array = some as' ∧ BufsEq f.len f.shapes as as')

theorem ObsEq.refl (f : FArr K) : ObsEq f f := ⟨rfl, rfl, Or.inl ⟨rfl, Or.inl rfl⟩⟩

theorem ObsEq.append {f f' : FArr K} (h : ObsEq f f') (zero : K) (arg : AppendArg K)
    (hal : ∀ ds, arg.comps = .ok ds → ∃ n, ∀ p ∈ f.shapes.zip ds, p.2.count p.1 = n) :
    (f'.append zero arg).2 = (f.append zero arg).2 ∧
    ObsEq (f.append zero arg).1 (f'.append zero arg).1 := by
  obtain ⟨s, a, l⟩ := f
  obtain ⟨s', a', l'⟩ := f'
  obtain ⟨h1, h2, h3⟩ := h
  simp only at h1 h2 h3 hal
  subst h1 h2
  rw [FArr.append_eq, FArr.append_eq]
  generalize arg.comps = cs at *
  cases cs with
  | error e => exact ⟨rfl, rfl, rfl, h3⟩
  | ok ds =>
    simp only
    rcases h3 with ⟨h3, h4⟩ | ⟨as, as', rfl, rfl, h3⟩
    · rw [h3]
      refine ⟨rfl, ObsEq.refl _⟩
    · simp only [Option.getD_some]
      by_cases hn : s'.length ≠ ds.length
      · simp only [if_pos hn]
        exact ⟨trivial, rfl, rfl, Or.inr ⟨as, as', rfl, rfl, h3⟩⟩
      · simp only [if_neg hn]
        obtain ⟨e1, e2, e3, e4⟩ := h3.appendLoop zero ds (by simpa using (not_not.1 hn).symm)
        generalize RS.appendLoop zero l' s' as ds = y at *
        generalize RS.appendLoop zero l' s' as' ds = y' at *
        obtain ⟨y1, y2⟩ := y
        obtain ⟨y1', y2'⟩ := y'
        simp only at e1 e2 e3 e4
        subst e1
        match y2' with
        | .error e => exact ⟨rfl, rfl, rfl, Or.inr ⟨_, _, rfl, rfl, e3⟩⟩
        | .ok none => exact ⟨rfl, rfl, rfl, Or.inr ⟨_, _, rfl, rfl, e3⟩⟩
        | .ok (some k) =>
          obtain ⟨n, hn'⟩ := hal ds rfl
          obtain ⟨j1, j2⟩ := e4 _ rfl n hn'
          refine ⟨rfl, rfl, rfl, ?_⟩
          by_cases hs : s' = []
          · subst hs
            cases j1
            exact Or.inl ⟨rfl, Or.inl rfl⟩
          · cases j2 hs
            exact Or.inr ⟨_, _, rfl, rfl, j1⟩

theorem ObsEq.export {f f' : FArr K} (h : ObsEq f f') : f'.export = f.export := by
  obtain ⟨s, a, l⟩ := f
  obtain ⟨s', a', l'⟩ := f'
  obtain ⟨h1, h2, h3⟩ := h
  simp only at h1 h2 h3
  subst h1 h2
  rcases h3 with ⟨h3, h4⟩ | ⟨as, as', rfl, rfl, h3⟩
  · cases a with
    | none =>
      cases a' with
      | none => rfl
      | some as =>
        simp only [Option.getD_some, Option.getD_none] at h3
        subst h3
        cases s' <;> simp [FArr.export, exportComps, List.replicate_succ]
    | some as =>
      cases a' with
      | none =>
        simp only [Option.getD_some, Option.getD_none] at h3
        subst h3
        cases s' <;> simp [FArr.export, exportComps, List.replicate_succ]
      | some as' =>
        simp only [Option.getD_some] at h3
        rw [h3]
  · simp only [FArr.export, h3.exportComps]

theorem ObsEq.getitem {f f' : FArr K} (h : ObsEq f f') (zero : K) (key : Key) :
    f'.getitem zero key = f.getitem zero key := by
  obtain ⟨s, a, l⟩ := f
  obtain ⟨s', a', l'⟩ := f'
  obtain ⟨h1, h2, h3⟩ := h
  simp only at h1 h2 h3
  subst h1 h2
  rcases h3 with ⟨h3, h4 | h4⟩ | ⟨as, as', rfl, rfl, h3⟩
  · rw [h4]
  · simp only [FArr.getitem, h4, if_true]
  · simp only [FArr.getitem, h3.getComps]

theorem ObsEq.run {f f' : FArr K} (h : ObsEq f f') (zero : K) (later : List (AppendArg K))
    (hal : ∀ arg ∈ later, ∀ ds, arg.comps = .ok ds →
      ∃ n, ∀ p ∈ f.shapes.zip ds, p.2.count p.1 = n) :
    (f'.runAppends zero later).2 = (f.runAppends zero later).2 ∧
    ObsEq (f.runAppends zero later).1 (f'.runAppends zero later).1 := by
  induction later generalizing f f' with
  | nil => exact ⟨rfl, h⟩
  | cons a later ih =>
    obtain ⟨h1, h2⟩ := h.append zero a (hal a (by simp))
    have hs : (f.append zero a).1.shapes = f.shapes := by
      rw [FArr.append_eq]
      split
      · rfl
      · split
        · rfl
        · split <;> rfl
    obtain ⟨h3, h4⟩ := ih h2 fun b hb => by rw [hs]; exact hal b (by simp [hb])
    simp only [FArr.runAppends]
    exact ⟨by rw [h1, h3], h4⟩

/-- A failed append on initialised buffers with room for `len` rows is invisible. -/
theorem failed_obsEq {f : FArr K} {as : List (Option (Buf K))} (ha : f.array = some as)
    (hb : BufsEq f.len f.shapes as as) (zero : K) (arg : AppendArg K) {e : PyErr}
    (he : (f.append zero arg).2 = .error e) : ObsEq f (f.append zero arg).1 := by
  rw [FArr.append_eq] at he ⊢
  generalize arg.comps = cs at *
  cases cs with
  | error e => exact ObsEq.refl f
  | ok ds =>
    simp only [ha, Option.getD_some] at he ⊢
    by_cases hn : f.shapes.length ≠ ds.length
    · simp only [if_pos hn]
      exact ⟨rfl, rfl, Or.inr ⟨as, as, ha, rfl, hb⟩⟩
    · simp only [if_neg hn] at he ⊢
      obtain ⟨_, e2, _, _⟩ := hb.appendLoop zero ds (by simpa using (not_not.1 hn).symm)
      generalize RS.appendLoop zero f.len f.shapes as ds = y at *
      obtain ⟨y1, y2⟩ := y
      match y2 with
      | .error e => exact ⟨rfl, rfl, Or.inr ⟨_, _, ha, rfl, e2⟩⟩
      | .ok none => exact ⟨rfl, rfl, Or.inr ⟨_, _, ha, rfl, e2⟩⟩
      | .ok (some k) => cases he

/-- A failed first append on a fresh one-component array is invisible. -/
theorem failed_fresh_obsEq (sh : List ℕ) (zero : K) (arg : AppendArg K) {e : PyErr}
    (he : ((FArr.new [sh] : FArr K).append zero arg).2 = .error e) :
    ObsEq (FArr.new [sh]) ((FArr.new [sh] : FArr K).append zero arg).1 := by
  rw [FArr.append_eq] at he ⊢
  generalize arg.comps = cs at *
  cases cs with
  | error e => exact ObsEq.refl _
  | ok ds =>
    have key : ObsEq (FArr.new [sh] : FArr K) ⟨[sh], some [none], 0⟩ :=
      ⟨rfl, rfl, Or.inl ⟨rfl, Or.inr rfl⟩⟩
    match ds with
    | [] => exact key
    | _ :: _ :: _ => exact key
    | [d] =>
      simp only [FArr.new, List.length_cons, List.length_nil, ne_eq, not_true_eq_false, if_false,
        Option.getD_none, Nat.zero_add, List.replicate_succ, List.replicate_zero,
        RS.appendLoop] at he ⊢
      cases d with
      | other => exact key
      | arr d =>
        simp only [appendComp] at he ⊢
        by_cases c1 : d.shape.length = sh.length
        · simp [c1] at he
        · by_cases c2 : d.shape.length = sh.length + 1
          · simp [c2] at he
          · rw [if_neg c1, if_neg c2]; exact key

theorem Store.bufsEq {n : ℕ} {sig : Sig} {as : List (Option (Buf K))}
    {its : List (List (NDVal K))} (h : Store n sig as its) :
    BufsEq n (sig.map Prod.snd) as as := by
  induction h with
  | nil => exact .nil
  | @cons dt sh rows items sig as its h hn t ih =>
    refine .cons (BufEq.refl _ ?_) ih
    rw [← h, List.length_take] at hn
    simp only; omega

/-! ### indexing -/

theorem normIndex_lt {n : ℕ} {i : ℤ} {k : ℕ} (h : normIndex n i = some k) : k < n := by
  unfold normIndex at h
  split_ifs at h <;> simp at h <;> omega

theorem Store.getInt {n : ℕ} {sig : Sig} {as : List (Option (Buf K))}
    {its : List (List (NDVal K))} (h : Store n sig as its) {i : ℤ} {k : ℕ}
    (hk : normIndex n i = some k) :
    ∃ ds, as.mapM (getComp n (.int i)) = .ok ds ∧ ds.map Comp.tailShape = sig.map Prod.snd ∧
      IsBatches 1 sig ds (its.map fun l => (l[k]?).toList) := by
  induction h with
  | nil => exact ⟨[], rfl, rfl, .nil⟩
  | @cons dt sh rows items sig as its h hn t ih =>
    obtain ⟨ds, h1, h2, h3⟩ := ih
    have hlt := normIndex_lt hk
    have hx : items[k]? = some items[k] := List.getElem?_eq_getElem (by omega)
    refine ⟨.arr ⟨dt, 1 :: sh, .node [items[k]]⟩ :: ds, ?_, ?_, ?_⟩
    · have : getComp n (.int i) (some ⟨dt, sh, rows⟩) =
          .ok (.arr ⟨dt, 1 :: sh, .node [items[k]]⟩) := by
        simp only [getComp, h, hn, hk, hx]
      rw [List.mapM_cons, this, h1]; rfl
    · simp [Comp.tailShape, h2]
    · rw [List.map_cons, hx]
      exact .cons (.many [items[k]]) rfl h3

theorem Store.getInt_none {n : ℕ} {sig : Sig} (hne : sig ≠ []) {as : List (Option (Buf K))}
    {its : List (List (NDVal K))} (h : Store n sig as its) {i : ℤ} (hk : normIndex n i = none) :
    as.mapM (getComp n (.int i)) = .error .indexError := by
  cases h with
  | nil => exact absurd rfl hne
  | @cons dt sh rows items sig as its h hn t =>
    have : getComp n (.int i) (some ⟨dt, sh, rows⟩) = .error .indexError := by
      simp only [getComp, h, hn, hk]
    rw [List.mapM_cons, this]; rfl

theorem Store.getSlice {n : ℕ} {sig : Sig} {as : List (Option (Buf K))}
    {its : List (List (NDVal K))} (h : Store n sig as its) {a o s : Option ℤ} {idx : List ℕ}
    (hk : sliceIndices n a o s = .ok idx) (hidx : ∀ j ∈ idx, j < n) :
    ∃ ds, as.mapM (getComp n (.slice a o s)) = .ok ds ∧
      ds.map Comp.tailShape = sig.map Prod.snd ∧
      IsBatches idx.length sig ds (its.map fun l => idx.filterMap (l[·]?)) := by
  induction h with
  | nil => exact ⟨[], rfl, rfl, .nil⟩
  | @cons dt sh rows items sig as its h hn t ih =>
    obtain ⟨ds, h1, h2, h3⟩ := ih
    have hl : (idx.filterMap (items[·]?)).length = idx.length := by
      clear hk h3
      induction idx with
      | nil => rfl
      | cons j idx ihx =>
        have : items[j]? = some (items[j]'(by rw [hn]; exact hidx j (by simp))) :=
          List.getElem?_eq_getElem _
        rw [List.filterMap_cons, this]
        simp [ihx fun j hj => hidx j (by simp [hj])]
    refine ⟨.arr ⟨dt, idx.length :: sh, .node (idx.filterMap (items[·]?))⟩ :: ds, ?_, ?_, ?_⟩
    · have : getComp n (.slice a o s) (some ⟨dt, sh, rows⟩) =
          .ok (.arr ⟨dt, idx.length :: sh, .node (idx.filterMap (items[·]?))⟩) := by
        simp only [getComp, h, hn, hk]
      rw [List.mapM_cons, this, h1]; rfl
    · simp [Comp.tailShape, h2]
    · rw [List.map_cons]
      have := IsBatch.many (K := K) (dt := dt) (sh := sh) (idx.filterMap (items[·]?))
      rw [hl] at this
      exact .cons this hl h3

theorem getitem_of_comps {n m : ℕ} {sig : Sig} (hne : sig ≠ []) {as : List (Option (Buf K))}
    {new : List (List (NDVal K))} (hn : 0 < n) {key : Key}
    (zero : K) {ds : List (Comp K)} (h1 : as.mapM (getComp n key) = .ok ds)
    (h2 : ds.map Comp.tailShape = sig.map Prod.snd) (h3 : IsBatches m sig ds new) :
    ∃ g, (⟨sig.map Prod.snd, some as, n⟩ : FArr K).getitem zero key = .ok g ∧ g.len = m ∧
      g.shapes = sig.map Prod.snd ∧ g.export = .ok (packedAll sig new) := by
  obtain ⟨as', e1, _, e2⟩ := (Supplies.seq h3).first hne zero
  refine ⟨⟨sig.map Prod.snd, some as', m⟩, ?_, rfl, rfl, e2.export⟩
  simp only [FArr.getitem, h1, h2, e1]
  rw [if_neg (by omega)]

theorem clip_bounds (n : ℕ) (lo hi b : ℤ) (h : lo ≤ hi) :
    lo ≤ clipBound n lo hi b ∧ clipBound n lo hi b ≤ hi := by
  unfold clipBound
  simp only
  omega

theorem count_pos_aux {a b st : ℤ} (hst : 0 < st) (k : ℕ) :
    k < ((b - a + st - 1) / st).toNat ↔ a + k * st < b := by
  rw [Int.lt_toNat, ← Int.add_one_le_iff, Int.le_ediv_iff_mul_le hst]
  constructor <;> intro h <;> linarith

theorem slice_pos_aux {a b st : ℤ} (hst : 0 < st) (ha : 0 ≤ a) :
    let idx := (List.range ((b - a + st - 1) / st).toNat).map fun (k : ℕ) => (a + k * st).toNat
    idx.Pairwise (· < ·) ∧ ∀ j : ℕ, j ∈ idx ↔ a ≤ j ∧ (j : ℤ) < b ∧ st ∣ (j : ℤ) - a := by
  refine ⟨?_, fun j => ?_⟩
  · rw [List.pairwise_map]
    refine List.Pairwise.imp ?_ List.pairwise_lt_range
    intro x y hxy
    have h0 : 0 ≤ (x : ℤ) * st := by positivity
    have h1 : (x : ℤ) * st < y * st := mul_lt_mul_of_pos_right (by exact_mod_cast hxy) hst
    omega
  · rw [List.mem_map]
    constructor
    · rintro ⟨k, hk, rfl⟩
      rw [List.mem_range, count_pos_aux hst] at hk
      have h0 : 0 ≤ (k : ℤ) * st := by positivity
      rw [Int.toNat_of_nonneg (by omega)]
      exact ⟨by omega, hk, ⟨k, by ring⟩⟩
    · rintro ⟨h1, h2, ⟨c, hc⟩⟩
      have hc0 : 0 ≤ c := by
        by_contra hneg
        have : st * c < 0 := mul_neg_of_pos_of_neg hst (by omega)
        omega
      refine ⟨c.toNat, ?_, ?_⟩
      · rw [List.mem_range, count_pos_aux hst, Int.toNat_of_nonneg hc0]
        rw [mul_comm] at hc; omega
      · rw [Int.toNat_of_nonneg hc0]
        rw [mul_comm] at hc; omega

theorem slice_neg_aux {a b st : ℤ} (hst : 0 < st) (hb : -1 ≤ b) :
    let idx := (List.range ((a - b + st - 1) / st).toNat).map fun (k : ℕ) => (a + k * (-st)).toNat
    idx.Pairwise (· > ·) ∧ ∀ j : ℕ, j ∈ idx ↔ (j : ℤ) ≤ a ∧ b < (j : ℤ) ∧ st ∣ a - (j : ℤ) := by
  have hcnt : ∀ k : ℕ, k < ((a - b + st - 1) / st).toNat ↔ b < a + k * (-st) := by
    intro k
    have h := count_pos_aux (a := b) (b := a) hst k
    rw [h]; constructor <;> intro h <;> linarith
  refine ⟨?_, fun j => ?_⟩
  · rw [List.pairwise_map]
    refine List.Pairwise.imp_of_mem ?_ List.pairwise_lt_range
    intro x y _ hy hxy
    rw [List.mem_range, hcnt] at hy
    have h1 : (x : ℤ) * st < y * st := mul_lt_mul_of_pos_right (by exact_mod_cast hxy) hst
    rw [mul_neg] at hy ⊢
    rw [mul_neg]
    omega
  · rw [List.mem_map]
    constructor
    · rintro ⟨k, hk, rfl⟩
      rw [List.mem_range, hcnt] at hk
      have h0 : 0 ≤ (k : ℤ) * st := by positivity
      rw [Int.toNat_of_nonneg (by omega)]
      exact ⟨by rw [mul_neg]; omega, hk, ⟨k, by ring⟩⟩
    · rintro ⟨h1, h2, ⟨c, hc⟩⟩
      have hc0 : 0 ≤ c := by
        by_contra hneg
        have : st * c < 0 := mul_neg_of_pos_of_neg hst (by omega)
        omega
      refine ⟨c.toNat, ?_, ?_⟩
      · rw [List.mem_range, hcnt, Int.toNat_of_nonneg hc0]
        rw [mul_comm] at hc; rw [mul_neg]; omega
      · rw [Int.toNat_of_nonneg hc0]
        rw [mul_comm] at hc; rw [mul_neg]; omega

theorem sliceIndices_pos {n : ℕ} {a o s : Option ℤ} {idx : List ℕ}
    (h : sliceIndices n a o s = .ok idx) (hs : 0 < s.getD 1) :
    idx.Pairwise (· < ·) ∧ ∀ j : ℕ, j ∈ idx ↔
      max 0 (min (n : ℤ) (wrapPos n (a.getD 0))) ≤ j ∧
      (j : ℤ) < max 0 (min (n : ℤ) (wrapPos n (o.getD n))) ∧
      s.getD 1 ∣ (j : ℤ) - max 0 (min (n : ℤ) (wrapPos n (a.getD 0))) := by
  unfold sliceIndices at h
  simp only [if_neg hs.ne', if_pos hs] at h
  have h := (Except.ok.inj h).symm
  have key := slice_pos_aux (a := max 0 (min (n : ℤ) (wrapPos n (a.getD 0))))
      (b := max 0 (min (n : ℤ) (wrapPos n (o.getD n)))) (st := s.getD 1) hs (le_max_left _ _)
  have e0 : max 0 (min (n : ℤ) (wrapPos n 0)) = 0 := by simp [wrapPos]
  have en : max 0 (min (n : ℤ) (wrapPos n n)) = n := by unfold wrapPos; split <;> omega
  subst h
  cases a <;> cases o <;> simp only [Option.getD_none, Option.getD_some, e0, en] at key ⊢ <;>
    exact key

theorem sliceIndices_neg {n : ℕ} {a o s : Option ℤ} {idx : List ℕ}
    (h : sliceIndices n a o s = .ok idx) (hs : s.getD 1 < 0) :
    idx.Pairwise (· > ·) ∧ ∀ j : ℕ, j ∈ idx ↔
      (j : ℤ) ≤ (match a with | none => (n : ℤ) - 1 | some x => max (-1) (min ((n : ℤ) - 1) (wrapPos n x))) ∧
      (match o with | none => -1 | some x => max (-1) (min ((n : ℤ) - 1) (wrapPos n x))) < (j : ℤ) ∧
      s.getD 1 ∣ (match a with
        | none => (n : ℤ) - 1 | some x => max (-1) (min ((n : ℤ) - 1) (wrapPos n x))) - (j : ℤ) := by
  unfold sliceIndices at h
  simp only [if_neg hs.ne, if_neg hs.not_gt] at h
  have h := (Except.ok.inj h).symm
  have key := slice_neg_aux (a := match a with
        | none => (n : ℤ) - 1 | some x => max (-1) (min ((n : ℤ) - 1) (wrapPos n x)))
      (b := match o with | none => -1 | some x => max (-1) (min ((n : ℤ) - 1) (wrapPos n x)))
      (st := -s.getD 1) (by omega) (by cases o <;> simp)
  simp only [neg_neg, neg_dvd] at key
  subst h
  cases a <;> cases o <;> exact key

theorem sliceIndices_lt {n : ℕ} {a o s : Option ℤ} {idx : List ℕ}
    (h : sliceIndices n a o s = .ok idx) : ∀ j ∈ idx, j < n := by
  intro j hj
  rcases lt_trichotomy 0 (s.getD 1) with hs | hs | hs
  · have := ((sliceIndices_pos h hs).2 j).1 hj
    omega
  · simp [sliceIndices, ← hs] at h
  · have := (((sliceIndices_neg h hs).2 j).1 hj).1
    cases a <;> simp only at this <;> omega

end RS
